import Verif.Lemmas.Transport
import Verif.Props.Copy

/-!
# C24: relabeling
-/

namespace Flat
namespace MSurf
variable {L K : Type} [LinearOrder L] [LabelNum L] [Field K] [LinearOrder K] [IsStrictOrderedRing K]

/-- The first part of `relabel`, which only reads. -/
theorem relabel_start {s : MSurf L (Poly K)} (h : Good s) (f : Dict L L) (Q : MSurf L (Poly K) → Prop)
    (E : Err → MSurf L (Poly K) → Prop)
    (H : ∀ (ls : List L) (ps : List (L × Poly K)) (gs : List ((L × Int) × (L × Int))) (rs : List L), s.labels = .ok ls → ls.Nodup → (∀ l, l ∈ ls ↔ l ∈ s.polygons.keys) →
      Dict.keys ps = ls.map (applyRelabeling f) →
      (∀ x, x ∈ ps ↔ ∃ l ∈ ls, x.1 = applyRelabeling f l ∧ s.polygons.get l = some x.2) →
      (∀ x, x ∈ gs ↔ ∃ e : ℕ, x.1.2 = e ∧ s.opp x.1.1 e = some x.2) →
      s.rootsList = .ok rs → (∀ r ∈ rs, r ∈ s.polygons.keys) → rs.Pairwise (fun a b => ¬ s.Conn a b) →
      (∀ l ∈ s.polygons.keys, ∃ r ∈ rs, s.Conn r l) →
      wp (do
        removeAll ls
        addAll ps
        gluePairs (gs.map (fun x => ((applyRelabeling f x.1.1, x.1.2), (applyRelabeling f x.2.1, x.2.2))))
        setRoots (rs.map (applyRelabeling f)) : Act L (Poly K) Unit) (fun _ => Q) E s) :
    wp (relabel f) (fun _ => Q) E s := by
  obtain ⟨ls, hls, hln, hlm⟩ := labels_spec h.1 h.2.2
  obtain ⟨ps, hps, hkeys, hpm⟩ := mapM_polygon (applyRelabeling f) ls (fun l hl => (hlm l).1 hl)
  obtain ⟨gs, hgs, hgm⟩ := gluingPairs_spec h.1 h.2.2
  obtain ⟨rs, cs, hrs, -, -, hr1, hr2, hr3⟩ := components_spec h.1 h.2.2
  unfold relabel
  rw [wp_bind, wp_get, wp_bind, wp_liftE, hls]
  refine ⟨fun a ha => ?_, fun _ h' => by cases h'⟩
  injection ha with ha
  subst ha
  rw [wp_bind, wp_liftE, hps]
  refine ⟨fun a ha => ?_, fun _ h' => by cases h'⟩
  injection ha with ha
  subst ha
  rw [wp_bind, wp_liftE, hgs]
  refine ⟨fun a ha => ?_, fun _ h' => by cases h'⟩
  injection ha with ha
  subst ha
  rw [wp_bind, wp_liftE, hrs]
  refine ⟨fun a ha => ?_, fun _ h' => by cases h'⟩
  injection ha with ha
  subst ha
  exact H ls ps gs rs hls hln hlm hkeys hpm hgm hrs hr1 hr2 hr3

theorem relabel_spec {s : MSurf L (Poly K)} (h : Good s) (f : Dict L L)
    (hinj : ∀ a ∈ s.polygons.keys, ∀ b ∈ s.polygons.keys, applyRelabeling f a = applyRelabeling f b → a = b) :
    wp (relabel f) (fun _ t => Good t ∧ Relabeled (applyRelabeling f) s t ∧
      ∃ rs, s.rootsList = .ok rs ∧ (∀ r ∈ rs, r ∈ s.polygons.keys) ∧
        t.rootsList = .ok (rs.map (applyRelabeling f))) (fun _ _ => False) s := by
  refine relabel_start h f (fun t => Good t ∧ Relabeled (applyRelabeling f) s t ∧
      ∃ rs, s.rootsList = .ok rs ∧ (∀ r ∈ rs, r ∈ s.polygons.keys) ∧
        t.rootsList = .ok (rs.map (applyRelabeling f))) _ ?_
  intro ls ps gs rs hls hln hlm hkeys hpm hgm hrs hr1 hr2 hr3
  revert hinj hkeys hpm
  generalize applyRelabeling f = g
  intro hinj hkeys hpm
  rw [wp_bind]
  refine wp_mono (removeAll_spec h ls hln (fun l hl => (hlm l).1 hl)) ?_ (fun _ _ hh => hh)
  rintro _ t1 ⟨hg1, hk1, -⟩
  have hn' : (Dict.keys ps).Nodup := by
    rw [hkeys]
    exact hln.map_on (fun a ha b hb => hinj a ((hlm a).1 ha) b ((hlm b).1 hb))
  have hget : ∀ l ∈ s.polygons.keys, Dict.get ps (g l) = s.polygons.get l := by
    intro l hl
    have hl' := hl
    rw [Dict.mem_keys_iff] at hl'
    obtain ⟨p, hp⟩ := Option.isSome_iff_exists.1 hl'
    rw [hp]
    exact get_of_mem hn' ((hpm _).2 ⟨l, (hlm l).2 hl, rfl, hp⟩)
  have key1 : ∀ {l e c}, s.opp l e = some c → l ∈ s.polygons.keys := fun hc =>
    isEdge_mem (opp_isEdge h.1.toShape hc)
  have key2 : ∀ {l e c}, s.opp l e = some c → c.1 ∈ s.polygons.keys := by
    intro l e c hc
    obtain ⟨k, _, hk⟩ := h.1.inv _ _ _ _ hc
    exact key1 hk
  -- the gluings, transported
  set G : L → ℕ → Option (L × Int) := fun m e =>
    (ls.find? (fun l => g l = m)).bind (fun l => (s.opp l e).map (fun c => (g c.1, c.2))) with hG
  have hGg : ∀ l ∈ s.polygons.keys, ∀ e, G (g l) e = (s.opp l e).map (fun c => (g c.1, c.2)) := by
    intro l hl e
    simp only [hG]
    have : ls.find? (fun l' => decide (g l' = g l)) = some l := by
      cases hf : ls.find? (fun l' => decide (g l' = g l)) with
      | none =>
        rw [List.find?_eq_none] at hf
        exact absurd (by simp) (hf l ((hlm l).2 hl))
      | some l' =>
        have h1 := List.find?_some hf
        have h2 := List.mem_of_find?_eq_some hf
        rw [hinj l' ((hlm l').1 h2) l hl (by simpa using h1)]
    rw [this]; rfl
  have hGm : ∀ m e c, G m e = some c ↔ ∃ l c', m = g l ∧ c = (g c'.1, c'.2) ∧ s.opp l e = some c' := by
    intro m e c
    constructor
    · intro hc
      simp only [hG, Option.bind_eq_some_iff] at hc
      obtain ⟨l, hl, hc⟩ := hc
      rw [Option.map_eq_some_iff] at hc
      obtain ⟨c', h1, h2⟩ := hc
      exact ⟨l, c', (by simpa using List.find?_some hl : g l = m).symm, h2.symm, h1⟩
    · rintro ⟨l, c', rfl, rfl, hc⟩
      rw [hGg l (key1 hc), hc]; rfl
  have main := rebuild_spec hg1 (fun l hl => ((hk1 l).1 hl).2 ((hlm l).2 ((hk1 l).1 hl).1)) ps hn' G
    (by
      intro m e m' e' hc
      obtain ⟨l, ⟨l', k'⟩, rfl, hcc, ho⟩ := (hGm _ _ _).1 hc
      injection hcc with h1 h2
      dsimp only at h1 h2
      subst h1 h2
      obtain ⟨k, rfl, hk'⟩ := h.1.inv _ _ _ _ ho
      exact ⟨k, rfl, (hGm _ _ _).2 ⟨l', (l, (e : Int)), rfl, rfl, hk'⟩⟩)
    (by
      intro m e c hc
      obtain ⟨l, c', rfl, rfl, ho⟩ := (hGm _ _ _).1 hc
      obtain ⟨p, h1, h2⟩ := opp_isEdge h.1.toShape ho
      exact ⟨p, by rw [hget l (key1 ho), h1], h2⟩)
    (gs.map (fun x => ((g x.1.1, x.1.2), (g x.2.1, x.2.2)))) (by
      intro x
      rw [List.mem_map]
      constructor
      · rintro ⟨y, hy, rfl⟩
        obtain ⟨e, he, ho⟩ := (hgm y).1 hy
        exact ⟨e, he, (hGm _ _ _).2 ⟨y.1.1, y.2, rfl, rfl, ho⟩⟩
      · rintro ⟨e, he, ho⟩
        obtain ⟨l, c', h1, h2, h3⟩ := (hGm _ _ _).1 ho
        refine ⟨((l, e), c'), (hgm _).2 ⟨e, rfl, h3⟩, ?_⟩
        obtain ⟨⟨a, b⟩, c⟩ := x
        dsimp only at he h1 h2 ⊢
        rw [he, h1, h2])
  rw [wp_bind] at main
  rw [wp_bind]
  refine wp_mono main ?_ (fun _ _ hh => hh)
  intro _ t2 ht2
  rw [wp_bind]
  refine wp_mono ht2 ?_ (fun _ _ hh => hh)
  rintro _ t3 ⟨hg3, hp3, ho3, hr0⟩
  have hrel : Relabeled g s t3 := by
    refine ⟨hinj, fun l hl => by rw [hp3, hget l hl], fun l hl e => by rw [ho3, hGg l hl], fun m => ?_⟩
    rw [Dict.mem_keys_iff, hp3, ← Dict.mem_keys_iff, hkeys, List.mem_map]
    constructor
    · rintro ⟨l, hl, rfl⟩; exact ⟨l, (hlm l).1 hl, rfl⟩
    · rintro ⟨l, hl, rfl⟩; exact ⟨l, (hlm l).2 hl, rfl⟩
  have hsep : (rs.map g).Pairwise (fun a b => ¬ t3.Conn a b) := by
    rw [List.pairwise_map]
    refine (List.Pairwise.and_mem.1 hr2).imp ?_
    rintro a b ⟨ha, hb, hab⟩ hc
    obtain ⟨b', hb', hk', hc'⟩ := hrel.conn h.1 (hr1 a ha) hc
    rw [hinj b (hr1 b hb) b' hk' hb'] at hab
    exact hab hc'
  refine wp_mono (wp_and (setRoots_ok hg3.1 hg3.2.2 hg3.2.1 _ ?_ hsep) (keeps_setRoots hg3 _)) ?_ (fun _ _ hh => hh.1)
  · intro r hr'
    rw [List.mem_map] at hr'
    obtain ⟨r0, hr0, rfl⟩ := hr'
    exact (hrel.keys _).2 ⟨r0, hr1 r0 hr0, rfl⟩
  · rintro _ t4 ⟨rfl, hg4⟩
    refine ⟨hg4, ⟨hrel.inj, hrel.polygons, hrel.opp, hrel.keys⟩, rs, hrs, hr1, ?_⟩
    apply rootsList_of_cover hg4.1 hg4.2.2
    intro m hm
    obtain ⟨l, hl, rfl⟩ := (hrel.keys m).1 hm
    obtain ⟨r, hr, hc⟩ := hr3 l hl
    exact ⟨g r, List.mem_map.2 ⟨r, hr, rfl⟩, (hrel.conn' h.1 (hr1 r hr) hc).1⟩

/-- **C24.** Relabeling with a dictionary `f` that is injective on the labels (labels missing in the dictionary
keep their name) always succeeds. The new labels are the images of the old ones, in the same order; the
polygons, gluings and roots are carried along. -/
theorem C24_relabel {s : MSurf L (Poly K)} (h : Reachable s) (hm : s.mutable = true) (f : Dict L L)
    (g : L → L) (hg : ∀ l, g l = (f.get l).getD l) (ls rs : List L)
    (hls : s.labels = .ok ls) (hrs : s.rootsList = .ok rs) (hinj : ∀ a ∈ ls, ∀ b ∈ ls, g a = g b → a = b) :
    ∃ t, relabel f s = .ok () t ∧ t.mutable = true ∧ t.labels = .ok (ls.map g) ∧ t.rootsList = .ok (rs.map g) ∧
      (∀ l ∈ ls, t.polygon (g l) = s.polygon l) ∧
      (∀ l ∈ ls, ∀ e : ℕ, t.oppositeEdge (g l) (e : Int) =
        (s.oppositeEdge l (e : Int)).map (Option.map (fun c => (g c.1, c.2)))) := by
  have hgf : g = applyRelabeling f := funext hg
  subst hgf
  obtain ⟨ls', hls', hln, hlm⟩ := labels_spec h.ginv h.rootsOK
  rw [hls] at hls'
  injection hls' with hls'
  subst hls'
  have hgood : Good s := ⟨h.ginv, hm, h.rootsOK⟩
  obtain ⟨_, t, h1, h2, h3, rs', h4, h5, h6⟩ := wp_ok (relabel_spec hgood f
    (fun a ha b hb => hinj a ((hlm a).2 ha) b ((hlm b).2 hb)))
  rw [hrs] at h4
  injection h4 with h4
  subst h4
  refine ⟨t, h1, h2.2.1, h3.labels h.ginv h2.1 hrs h5 h6 hls, h6, fun l hl => ?_, fun l hl e => ?_⟩
  · exact polygon_of_get (h3.polygons l ((hlm l).1 hl))
  · exact h3.oppositeEdge h.ginv.toShape h2.1.toShape ((hlm l).1 hl) e

/-- **C24.** Relabeling with a dictionary that is not injective on the labels raises a `ValueError`. -/
theorem C24_relabel_not_injective {s : MSurf L (Poly K)} (h : Reachable s) (hm : s.mutable = true) (f : Dict L L)
    (ls : List L) (hls : s.labels = .ok ls)
    (hbad : ∃ a ∈ ls, ∃ b ∈ ls, a ≠ b ∧ (f.get a).getD a = (f.get b).getD b) :
    ∃ t, relabel f s = .error .valueError t := by
  have hgood : Good s := ⟨h.ginv, hm, h.rootsOK⟩
  have : wp (relabel f) (fun _ _ => False) (fun e _ => e = .valueError) s := by
    refine relabel_start hgood f (fun _ => False) _ ?_
    intro ls' ps gs rs hls' hln hlm hkeys hpm hgm hrs hr1 hr2 hr3
    rw [hls] at hls'
    injection hls' with hls'
    subst hls'
    rw [wp_bind]
    refine wp_mono (removeAll_spec hgood ls hln (fun l hl => (hlm l).1 hl)) ?_ (fun _ _ hh => hh.elim)
    rintro _ t1 ⟨hg1, hk1, -⟩
    rw [wp_bind]
    refine wp_mono (addAll_fail hg1 ps ?_) (fun _ _ hh => hh.elim) (fun _ _ hh => hh.1)
    rintro ⟨hn, -⟩
    obtain ⟨a, ha, b, hb, hab, he⟩ := hbad
    rw [hkeys] at hn
    exact hab (List.inj_on_of_nodup_map hn ha hb he)
  unfold wp at this
  cases hr : relabel f s with
  | ok a t => rw [hr] at this; exact this.elim
  | error e t => rw [hr] at this; exact ⟨t, by rw [this]⟩

/-- **C24.** Relabeling and relabeling back gives the original surface. -/
theorem C24_relabel_inverse {s : MSurf L (Poly K)} (h : Reachable s) (hm : s.mutable = true) (f f' : Dict L L)
    (ls : List L) (hls : s.labels = .ok ls)
    (hinv : ∀ l ∈ ls, (f'.get ((f.get l).getD l)).getD ((f.get l).getD l) = l) :
    ∃ t u, relabel f s = .ok () t ∧ relabel f' t = .ok () u ∧ u.labels = s.labels ∧ u.rootsList = s.rootsList ∧
      (∀ l, u.polygon l = s.polygon l) ∧ (∀ l (e : ℕ), u.oppositeEdge l (e : Int) = s.oppositeEdge l (e : Int)) := by
  obtain ⟨ls', hls', hln, hlm⟩ := labels_spec h.ginv h.rootsOK
  rw [hls] at hls'
  injection hls' with hls'
  subst hls'
  have hgood : Good s := ⟨h.ginv, hm, h.rootsOK⟩
  have hinj : ∀ a ∈ s.polygons.keys, ∀ b ∈ s.polygons.keys, applyRelabeling f a = applyRelabeling f b → a = b := by
    intro a ha b hb hab
    rw [← hinv a ((hlm a).2 ha), ← hinv b ((hlm b).2 hb)]
    unfold applyRelabeling at hab
    rw [hab]
  have hinv' : ∀ l ∈ s.polygons.keys, applyRelabeling f' (applyRelabeling f l) = l :=
    fun l hl => hinv l ((hlm l).2 hl)
  obtain ⟨_, t, h1, h2, h3, rs, h4, h5, h6⟩ := wp_ok (relabel_spec hgood f hinj)
  have hinj' : ∀ a ∈ t.polygons.keys, ∀ b ∈ t.polygons.keys,
      applyRelabeling f' a = applyRelabeling f' b → a = b := by
    intro a ha b hb hab
    obtain ⟨a', ha', rfl⟩ := (h3.keys a).1 ha
    obtain ⟨b', hb', rfl⟩ := (h3.keys b).1 hb
    rw [hinv' a' ha', hinv' b' hb'] at hab
    rw [hab]
  obtain ⟨_, u, k1, k2, k3, rs', k4, k5, k6⟩ := wp_ok (relabel_spec h2 f' hinj')
  rw [h6] at k4
  injection k4 with k4
  subst k4
  have hrs : u.rootsList = .ok rs := by
    rw [k6, List.map_map]
    congr 1
    conv_rhs => rw [← List.map_id rs]
    exact List.map_congr_left fun r hr => hinv' r (h5 r hr)
  have htk : ∀ l ∈ s.polygons.keys, applyRelabeling f l ∈ t.polygons.keys := fun l hl => (h3.keys _).2 ⟨l, hl, rfl⟩
  have hp : ∀ l ∈ s.polygons.keys, u.polygons.get l = s.polygons.get l := by
    intro l hl
    have := k3.polygons _ (htk l hl)
    rw [hinv' l hl, h3.polygons l hl] at this
    exact this
  have hkeys : ∀ l, l ∈ u.polygons.keys ↔ l ∈ s.polygons.keys := by
    intro l
    constructor
    · intro hl
      obtain ⟨m, hm', rfl⟩ := (k3.keys l).1 hl
      obtain ⟨l', hl', rfl⟩ := (h3.keys m).1 hm'
      rwa [hinv' l' hl']
    · intro hl
      rw [Dict.mem_keys_iff, hp l hl, ← Dict.mem_keys_iff]; exact hl
  have hp' : ∀ l, u.polygons.get l = s.polygons.get l := by
    intro l
    by_cases hl : l ∈ s.polygons.keys
    · exact hp l hl
    · rw [(Dict.get_eq_none_iff _ _).2 hl, Dict.get_eq_none_iff]
      exact fun hh => hl ((hkeys l).1 hh)
  have hid : Relabeled id s u := by
    refine ⟨fun a _ b _ h => h, fun l hl => hp l hl, fun l hl e => ?_, fun l => by simp [hkeys]⟩
    have := k3.opp _ (htk l hl) e
    rw [hinv' l hl, h3.opp l hl, Option.map_map] at this
    show u.opp l e = _
    rw [this]
    cases hc : s.opp l e with
    | none => rfl
    | some c =>
      obtain ⟨k, _, hk⟩ := h.ginv.inv _ _ _ _ hc
      simp only [Option.map_some, Function.comp]
      rw [hinv' _ (isEdge_mem (opp_isEdge h.ginv.toShape hk))]
      rfl
  refine ⟨t, u, h1, k1, ?_, by rw [hrs, h4], fun l => polygon_of_get (hp' l), fun l e => ?_⟩
  · rw [hls]
    have := hid.labels h.ginv k2.1 h4 h5 (by rw [List.map_id]; exact hrs) hls
    rwa [List.map_id] at this
  · by_cases hl : l ∈ s.polygons.keys
    · have := hid.oppositeEdge h.ginv.toShape k2.1.toShape hl e
      rw [id] at this
      rw [this]
      rcases s.oppositeEdge l e with _ | _ | _ <;> rfl
    · have : ∀ {v : MSurf L (Poly K)}, l ∉ v.polygons.keys → ¬ v.IsEdge l e := fun hv he => hv (isEdge_mem he)
      rw [oppositeEdge_error k2.1.toShape (this (fun hh => hl ((hkeys l).1 hh))),
        oppositeEdge_error h.ginv.toShape (this hl), if_neg (fun hh => hl ((hkeys l).1 hh)), if_neg hl]

/-- The hypotheses are satisfiable: the two triangles of the torus get the names 5 and 0. -/
example : ∃ t, relabel [(0, 5), (1, 0)] exTorus = .ok () t ∧ t.labels = .ok [5, 0] ∧
    t.oppositeEdge 5 2 = .ok (some (0, 2)) := by
  obtain ⟨t, h1, _, h2, _, _, h3⟩ := C24_relabel exTorus_reachable (by decide +kernel) [(0, 5), (1, 0)]
    (fun l => (Dict.get [(0, 5), (1, 0)] l).getD l) (fun _ => rfl) [0, 1] [0] (by decide +kernel) (by decide +kernel) (by decide +kernel)
  exact ⟨t, h1, h2, h3 0 (by simp) 2⟩

/-- A dictionary that is not injective on the labels of the torus. -/
example : ∃ t, relabel [(0, 1)] exTorus = .error .valueError t :=
  C24_relabel_not_injective exTorus_reachable (by decide +kernel) [(0, 1)] [0, 1] (by decide +kernel)
    ⟨0, by simp, 1, by simp, by simp, by decide +kernel⟩

/-- **C24** fails to be atomic: after the `ValueError` for a dictionary that is not injective, polygons and
gluings are gone. -/
theorem C24_relabel_data_loss :
    ∃ (s t : MSurf ℕ (Poly ℚ)), Reachable s ∧ s.mutable = true ∧ s.labels = .ok [0, 1] ∧
      s.oppositeEdge 0 0 = .ok (some (1, 0)) ∧ relabel [(0, 1)] s = .error .valueError t ∧
      t.labels = .ok [1] ∧ t.oppositeEdge 1 0 = .ok none := by
  refine ⟨exTorus, stateOf (relabel [(0, 1)] exTorus), exTorus_reachable, by decide +kernel, by decide +kernel, by decide +kernel, ?_,
    by decide +kernel, by decide +kernel⟩
  obtain ⟨t, ht⟩ := C24_relabel_not_injective exTorus_reachable (by decide +kernel) [(0, 1)] [0, 1] (by decide +kernel)
    ⟨0, by simp, 1, by simp, by simp, by decide +kernel⟩
  rw [ht]; rfl

end MSurf
end Flat
