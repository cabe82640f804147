import Verif.Lemmas.Rebuild
import Verif.Props.Equality

/-!
# C23, C24: copies and relabelings
-/

namespace Flat
namespace MSurf
variable {L K : Type} [LinearOrder L] [LabelNum L] [Field K] [LinearOrder K] [IsStrictOrderedRing K]

theorem good_empty : Good (MSurf.empty : MSurf L (Poly K)) :=
  ⟨(Reachable.empty (L := L) (K := K)).ginv, rfl, (Reachable.empty (L := L) (K := K)).rootsOK⟩

/-- The answers of `polygon` and `opposite_edge` in terms of the tables. -/
theorem polygon_of_get {s t : MSurf L (Poly K)} {l l' : L} (h : t.polygons.get l' = s.polygons.get l) :
    t.polygon l' = s.polygon l := by
  unfold polygon
  rw [h]

theorem get_of_mem {ps : List (L × Poly K)} (hn : (Dict.keys ps).Nodup) {l : L} {p : Poly K} (h : (l, p) ∈ ps) :
    Dict.get ps l = some p := by
  induction ps with
  | nil => cases h
  | cons x ps ih =>
    simp only [Dict.keys, List.map_cons, List.nodup_cons] at hn
    obtain ⟨k, v⟩ := x
    simp only [Dict.get]
    rcases List.mem_cons.1 h with h | h
    · injection h with h1 h2; rw [if_pos h1.symm, h2]
    · rw [if_neg, ih hn.2 h]
      rintro rfl
      exact hn.1 (List.mem_map.2 ⟨_, h, rfl⟩)

/-- The copy made by `from_surface` in terms of the tables. -/
theorem fromSurface_spec {s : MSurf L (Poly K)} (h : GInv s) (hr : RootsOK s) (t0 : MSurf L (Poly K))
    (labels : Option (List L)) (ls : List L)
    (hls : labels = some ls ∨ labels = none ∧ s.labels = .ok ls)
    (hn : ls.Nodup) (hk : ∀ l ∈ ls, l ∈ s.polygons.keys) :
    ∃ t, fromSurface s labels t0 = .ok () t ∧ Good t ∧
      (∀ l, t.polygons.get l = if l ∈ ls then s.polygons.get l else none) ∧
      (∀ l e c, t.opp l e = some c ↔ s.opp l e = some c ∧ l ∈ ls ∧ c.1 ∈ ls) ∧
      t.roots = s.roots.filter (fun r => r ∈ ls) := by
  obtain ⟨ps, hps, hkeys, hpm⟩ := mapM_polygon id ls hk
  obtain ⟨gs, hgs, hgm⟩ := copyPairs_spec h ls ls hk
  have hn' : (Dict.keys ps).Nodup := by rw [hkeys, List.map_id]; exact hn
  have hget : ∀ l, Dict.get ps l = if l ∈ ls then s.polygons.get l else none := by
    intro l
    split_ifs with hl
    · have := hk l hl
      rw [Dict.mem_keys_iff] at this
      obtain ⟨p, hp⟩ := Option.isSome_iff_exists.1 this
      rw [hp]
      exact get_of_mem hn' ((hpm _).2 ⟨l, hl, rfl, hp⟩)
    · rw [Dict.get_eq_none_iff, hkeys, List.map_id]; exact hl
  set G : L → ℕ → Option (L × Int) := fun l e =>
    if l ∈ ls then (s.opp l e).filter (fun c => decide (c.1 ∈ ls)) else none with hG
  have hGm : ∀ l e c, G l e = some c ↔ s.opp l e = some c ∧ l ∈ ls ∧ c.1 ∈ ls := by
    intro l e c
    simp only [hG]
    split_ifs with hl
    · rw [Option.filter_eq_some_iff]; simp [hl]
    · simp [hl]
  have main := rebuild_spec (good_empty (L := L) (K := K)) (fun l hl => by simp [MSurf.empty, Dict.keys] at hl) ps hn' G
    (by
      intro l e l' e' hc
      rw [hGm] at hc
      obtain ⟨k, rfl, hk'⟩ := h.inv _ _ _ _ hc.1
      exact ⟨k, rfl, (hGm _ _ _).2 ⟨hk', hc.2.2, hc.2.1⟩⟩)
    (by
      intro l e c hc
      rw [hGm] at hc
      obtain ⟨p, h1, h2⟩ := opp_isEdge h.toShape hc.1
      exact ⟨p, by rw [hget, if_pos hc.2.1, h1], h2⟩)
    gs (by
      intro x
      rw [hgm]
      constructor
      · rintro ⟨h1, h2, e, he, ho⟩; exact ⟨e, he, (hGm _ _ _).2 ⟨ho, h1, h2⟩⟩
      · rintro ⟨e, he, ho⟩; obtain ⟨h1, h2, h3⟩ := (hGm _ _ _).1 ho; exact ⟨h2, h3, e, he, h1⟩)
  have tail : wp (do
      set (MSurf.empty : MSurf L (Poly K))
      let ps ← liftE (ls.mapM (fun l => do return (l, ← s.polygon l)))
      addAll ps
      let gs ← liftE (copyPairs s ls ls)
      gluePairs gs
      if s.roots ≠ [] then
        setRoots (s.roots.filter (fun r => r ∈ ls)) : Act L (Poly K) Unit)
      (fun _ t => Good t ∧ (∀ l, t.polygons.get l = Dict.get ps l) ∧ (∀ l e, t.opp l e = G l e) ∧
        t.roots = s.roots.filter (fun r => r ∈ ls))
      (fun _ _ => False) t0 := by
    simp only [id] at hps
    rw [wp_bind, wp_set, wp_bind, wp_liftE, hps]
    refine ⟨fun a ha => ?_, fun _ h' => by cases h'⟩
    injection ha with ha
    subst ha
    rw [wp_bind] at main
    rw [wp_bind]
    refine wp_mono main ?_ (fun _ _ hh => hh)
    intro _ t1 ht1
    rw [wp_bind, wp_liftE, hgs]
    refine ⟨fun a ha => ?_, fun _ h' => by cases h'⟩
    injection ha with ha
    subst ha
    rw [wp_bind]
    refine wp_mono ht1 ?_ (fun _ _ hh => hh)
    rintro _ t2 ⟨hg, hp, ho, hroots⟩
    rw [wp_ite]
    constructor
    · intro hne
      refine wp_mono (wp_and (setRoots_ok hg.1 hg.2.2 hg.2.1 _ ?_ ?_) (keeps_setRoots hg _)) ?_ (fun _ _ hh => hh.1)
      · intro r hr'
        rw [List.mem_filter] at hr'
        rw [Dict.mem_keys_iff, hp, hget, if_pos (by simpa using hr'.2), ← Dict.mem_keys_iff]
        exact hr.mem r hr'.1
      · refine (hr.sep.imp fun hab hc => hab (conn_mono ?_ hc)).sublist List.filter_sublist
        intro l e c hc
        rw [ho, hGm] at hc
        exact hc.1
      · rintro _ t3 ⟨rfl, hg3⟩
        exact ⟨hg3, hp, ho, rfl⟩
    · intro hnil
      push Not at hnil
      rw [wp_pure]
      exact ⟨hg, hp, ho, by rw [hnil, hroots]; rfl⟩
  have done : wp (fromSurface s labels) (fun _ t => Good t ∧ (∀ l, t.polygons.get l = Dict.get ps l) ∧
      (∀ l e, t.opp l e = G l e) ∧ t.roots = s.roots.filter (fun r => r ∈ ls)) (fun _ _ => False) t0 := by
    unfold fromSurface
    rcases hls with rfl | ⟨rfl, hl⟩
    · dsimp only
      rw [wp_bind, wp_pure]
      exact tail
    · dsimp only
      rw [wp_bind, wp_liftE, hl]
      refine ⟨fun a ha => ?_, fun _ h' => by cases h'⟩
      injection ha with ha
      subst ha
      exact tail
  obtain ⟨_, t, h1, h2, h3, h4, h5⟩ := wp_ok done
  exact ⟨t, h1, h2, fun l => by rw [h3, hget], fun l e c => by rw [h4, hGm], h5⟩

/-- **C23.** A copy of a finite surface can always be made, is mutable, and has the same polygons, gluings,
labels, roots and components as the original, in the same order. -/
theorem C23_from_surface {s : MSurf L (Poly K)} (h : Reachable s) (t0 : MSurf L (Poly K)) :
    ∃ t, fromSurface s none t0 = .ok () t ∧ t.mutable = true ∧
      (∀ l, t.polygon l = s.polygon l) ∧ (∀ l e, t.oppositeEdge l e = s.oppositeEdge l e) ∧
      t.rootsList = s.rootsList ∧ t.labels = s.labels ∧ t.components = s.components ∧
      t.gluingPairs = s.gluingPairs := by
  obtain ⟨ls, hls, hln, hlm⟩ := labels_spec h.ginv h.rootsOK
  obtain ⟨t, h1, h2, h3, h4, h5⟩ := fromSurface_spec h.ginv h.rootsOK t0 none ls (Or.inr ⟨rfl, hls⟩) hln
    (fun l hl => (hlm l).1 hl)
  have hp : ∀ l, t.polygons.get l = s.polygons.get l := by
    intro l
    rw [h3]
    split_ifs with hl
    · rfl
    · rw [hlm] at hl
      exact ((Dict.get_eq_none_iff _ _).2 hl).symm
  have ho : ∀ l e, t.opp l e = s.opp l e := by
    intro l e
    apply Option.ext
    intro c
    rw [h4]
    refine ⟨fun hh => hh.1, fun hh => ⟨hh, ?_, ?_⟩⟩
    · exact (hlm l).2 (isEdge_mem (opp_isEdge h.ginv.toShape hh))
    · obtain ⟨k, _, hk⟩ := h.ginv.inv _ _ _ _ hh
      exact (hlm _).2 (isEdge_mem (opp_isEdge h.ginv.toShape hk))
  have hr : t.roots = s.roots := by
    rw [h5, List.filter_eq_self]
    intro r hr
    simpa using (hlm r).2 (h.rootsOK.mem r hr)
  have hc : SameContent t s := by
    rw [sameContent_iff h2.1.toShape h.ginv.toShape]
    refine ⟨fun l => polygon_of_get (hp l), fun l e => ?_⟩
    have hiff : t.IsEdge l e ↔ s.IsEdge l e := by unfold IsEdge; rw [hp]
    by_cases he : t.IsEdge l e
    · rw [oppositeEdge_eq_opp h2.1.toShape he, oppositeEdge_eq_opp h.ginv.toShape (hiff.1 he), ho]
    · rw [oppositeEdge_error h2.1.toShape he, oppositeEdge_error h.ginv.toShape (fun h' => he (hiff.2 h'))]
      congr 1
      simp only [Dict.mem_keys_iff, hp]
  refine ⟨t, h1, h2.2.1, hc.polygon, hc.oppositeEdge, ?_, ?_, ?_, ?_⟩
  · exact hc.rootsList h2.1.toShape h.ginv.toShape hr
  · exact hc.labels h2.1.toShape h.ginv.toShape hr
  · exact hc.components h2.1.toShape h.ginv.toShape hr
  · exact hc.gluingPairs h2.1.toShape h.ginv.toShape hr

/-- **C23.** A copy restricted to some labels has exactly these labels, with the same polygons, and an edge is
glued to an edge exactly if it is in the original surface and both labels were kept. -/
theorem C23_from_surface_labels {s : MSurf L (Poly K)} (h : Reachable s) (t0 : MSurf L (Poly K)) (ls : List L)
    (hn : ls.Nodup) (hk : ∀ l ∈ ls, ∃ p, s.polygon l = .ok p) :
    ∃ t, fromSurface s (some ls) t0 = .ok () t ∧ t.mutable = true ∧
      (∀ l ∈ ls, t.polygon l = s.polygon l) ∧ (∀ l ∉ ls, t.polygon l = .error .keyError) ∧
      (∀ l ∈ ls, ∀ e : ℕ, t.oppositeEdge l (e : Int) =
        (s.oppositeEdge l (e : Int)).map (Option.filter (fun c => decide (c.1 ∈ ls)))) := by
  have hk' : ∀ l ∈ ls, l ∈ s.polygons.keys := by
    intro l hl
    obtain ⟨p, hp⟩ := hk l hl
    rw [polygon_ok] at hp
    rw [Dict.mem_keys_iff, hp]; rfl
  obtain ⟨t, h1, h2, h3, h4, h5⟩ := fromSurface_spec h.ginv h.rootsOK t0 (some ls) ls (Or.inl rfl) hn hk'
  refine ⟨t, h1, h2.2.1, fun l hl => polygon_of_get (by rw [h3, if_pos hl]), fun l hl => ?_, fun l hl e => ?_⟩
  · unfold polygon; rw [h3, if_neg hl]
  · have hiff : t.IsEdge l e ↔ s.IsEdge l e := by unfold IsEdge; rw [h3, if_pos hl]
    by_cases he : t.IsEdge l e
    · rw [oppositeEdge_eq_opp h2.1.toShape he, oppositeEdge_eq_opp h.ginv.toShape (hiff.1 he)]
      simp only [Except.map]
      congr 1
      apply Option.ext
      intro c
      rw [h4, Option.filter_eq_some_iff]
      simp [hl]
    · rw [oppositeEdge_error h2.1.toShape he, oppositeEdge_error h.ginv.toShape (fun h' => he (hiff.2 h'))]
      simp only [Except.map]
      congr 1
      have : l ∈ t.polygons.keys := by rw [Dict.mem_keys_iff, h3, if_pos hl, ← Dict.mem_keys_iff]; exact hk' l hl
      rw [if_pos this, if_pos (hk' l hl)]

/-- The hypotheses are satisfiable: one of the two triangles of the torus. -/
example : ∃ t, fromSurface exTorus (some [0]) MSurf.empty = .ok () t ∧ t.mutable = true ∧
      (∀ l ∈ [0], t.polygon l = exTorus.polygon l) ∧ (∀ l ∉ [0], t.polygon l = .error .keyError) ∧
      (∀ l ∈ [0], ∀ e : ℕ, t.oppositeEdge l (e : Int) =
        (exTorus.oppositeEdge l (e : Int)).map (Option.filter (fun c => decide (c.1 ∈ [0])))) :=
  C23_from_surface_labels exTorus_reachable _ [0] (by simp) (fun l hl => by
    simp only [List.mem_singleton] at hl
    subst hl
    exact ⟨tri, by decide⟩)

end MSurf
end Flat
