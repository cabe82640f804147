import Verif.Lemmas.GlueAll
import Verif.Lemmas.Content

/-!
# Success of `set_roots`; adding, removing and gluing in batches
-/

namespace Flat
namespace MSurf
section
variable {L P : Type} [LinearOrder L] [NumVertices P]

/-- `set_roots` succeeds for labels in different components. -/
theorem setRoots_ok {s : MSurf L P} (h : GInv s) (hr : RootsOK s) (hm : s.mutable = true) (rs : List L)
    (hmem : ∀ r ∈ rs, r ∈ s.polygons.keys) (hsep : rs.Pairwise (fun a b => ¬ s.Conn a b)) :
    wp (setRoots rs) (fun _ s' => s' = { s with roots := rs }) (fun _ _ => False) s := by
  obtain ⟨qs, cs, -, hcs, hF, -, -, hcov⟩ := components_spec h hr
  obtain ⟨ls, hls, hln, hlm⟩ := labels_spec h hr
  unfold setRoots
  rw [wp_bind, wp_checkMutable]
  refine ⟨fun _ => ?_, fun h' => by rw [hm] at h'; cases h'⟩
  rw [wp_bind, wp_get]
  have hcomp : ∀ c ∈ cs, ∃ q, ∀ l, l ∈ c ↔ s.Conn q l := by
    intro c hc
    clear hcs hcov
    induction hF with
    | nil => cases hc
    | cons h1 h2 ih =>
      rcases List.mem_cons.1 hc with rfl | hc
      · exact ⟨_, h1.2.2⟩
      · exact ih hc
  have tail : wp (do
      let cs ← liftE s.components
      if cs.any (fun c => (rs.filter (fun r => r ∈ c)).length > 1) then throw Err.valueError
      set { s with roots := rs } : Act L P Unit)
      (fun _ s' => s' = { s with roots := rs }) (fun _ _ => False) s := by
    rw [wp_bind, wp_liftE, hcs]
    refine ⟨fun a ha => ?_, fun _ h' => by cases h'⟩
    injection ha with ha
    subst ha
    rw [wp_ite]
    refine ⟨fun hany => ?_, fun _ => by rw [wp_set]⟩
    exfalso
    rw [List.any_eq_true] at hany
    obtain ⟨c, hc, hlen⟩ := hany
    simp only [decide_eq_true_eq] at hlen
    obtain ⟨q, hq⟩ := hcomp c hc
    have hp := hsep.sublist (List.filter_sublist (p := fun r => decide (r ∈ c)) (l := rs))
    have hm' : ∀ r ∈ rs.filter (fun r => r ∈ c), s.Conn q r := fun r hr' =>
      (hq r).1 (by simpa using (List.mem_filter.1 hr').2)
    revert hlen hp hm'
    generalize rs.filter (fun r => r ∈ c) = fs
    intro hlen hp hm'
    match fs, hlen, hp, hm' with
    | a :: b :: r, _, hp, hm' =>
      rw [List.pairwise_cons] at hp
      exact hp.1 b (by simp) (conn_trans (conn_symm h (hm' a (by simp))) (hm' b (by simp)))
  rw [wp_ite]
  refine ⟨fun hne => ?_, fun he => tail⟩
  rw [wp_bind, wp_liftE, hls]
  refine ⟨fun a ha => ?_, fun _ h' => by cases h'⟩
  injection ha with ha
  subst ha
  have h1 : ∀ r ∈ rs, (ls.filter (fun l => l = r)).length = 1 := by
    intro r hrr
    have hr1 : r ∈ ls := (hlm r).2 (hmem r hrr)
    have := List.count_eq_one_of_mem hln hr1
    rw [List.count_eq_length_filter] at this
    rw [← this]
    congr 1
  rw [wp_ite]
  refine ⟨fun hz => ?_, fun _ => ?_⟩
  · exfalso
    rw [List.any_eq_true] at hz
    obtain ⟨x, hx, hx0⟩ := hz
    obtain ⟨r, hrr, rfl⟩ := List.mem_map.1 hx
    rw [h1 r hrr] at hx0
    simp at hx0
  rw [wp_ite]
  refine ⟨fun hz => ?_, fun _ => tail⟩
  exfalso
  apply hz
  rw [List.all_eq_true]
  intro x hx
  obtain ⟨r, hrr, rfl⟩ := List.mem_map.1 hx
  simp [h1 r hrr]

/-- `set_immutable` succeeds. -/
theorem setImmutable_ok {s : MSurf L P} (h : GInv s) (hr : RootsOK s) :
    wp setImmutable (fun _ _ => True) (fun _ _ => False) s := by
  unfold setImmutable
  rw [wp_bind, wp_get, wp_ite]
  refine ⟨fun hm => ?_, fun _ => trivial⟩
  obtain ⟨rs, h1, h2, h3, _⟩ := rootsList_spec h hr
  rw [wp_bind, wp_liftE, h1]
  refine ⟨fun a ha => ?_, fun _ h' => by cases h'⟩
  injection ha with ha
  subst ha
  rw [wp_bind]
  refine wp_mono (setRoots_ok h hr hm _ h2 h3) ?_ (fun _ _ hh => hh)
  rintro _ s' rfl
  rw [wp_bind, wp_get, wp_set]
  trivial

/-- `gluings()` lists exactly the gluings. -/
theorem gluingPairs_spec {s : MSurf L P} (h : GInv s) (hr : RootsOK s) :
    ∃ gs, s.gluingPairs = .ok gs ∧
      ∀ x, x ∈ gs ↔ ∃ e : ℕ, x.1.2 = e ∧ s.opp x.1.1 e = some x.2 := by
  obtain ⟨ls, hls, hln, hlm⟩ := labels_spec h hr
  have one : ∀ l ∈ ls, ∃ g, (do
      let p ← s.polygon l
      let cs ← s.oppositeEdges l (nv p)
      return cs.zipIdx.filterMap (fun (c : Option (L × Int) × ℕ) => c.1.map (fun c' => ((l, (c.2 : Int)), c'))) :
        Except Err (List ((L × Int) × (L × Int)))) = .ok g ∧
      ∀ x, x ∈ g ↔ x.1.1 = l ∧ ∃ e : ℕ, x.1.2 = e ∧ s.opp x.1.1 e = some x.2 := by
    intro l hl
    have hk := (hlm l).1 hl
    rw [Dict.mem_keys_iff] at hk
    obtain ⟨p, hp⟩ := Option.isSome_iff_exists.1 hk
    have hcs : s.oppositeEdges l (nv p) = .ok ((List.range (nv p)).map (fun e => s.opp l e)) := by
      unfold oppositeEdges
      rw [mapM_ok_iff, List.forall₂_map_right_iff]
      exact List.forall₂_same.2 fun e he => oppositeEdge_eq_opp h.toShape ⟨p, hp, by simpa using he⟩
    have hpl : s.polygon l = .ok p := by unfold polygon; rw [hp]
    simp only [bind, Except.bind, hpl, hcs, pure, Except.pure]
    refine ⟨_, rfl, fun x => ?_⟩
    rw [List.mem_filterMap]
    constructor
    · rintro ⟨⟨c, e⟩, hce, hmap⟩
      rw [Option.map_eq_some_iff] at hmap
      obtain ⟨c', rfl, rfl⟩ := hmap
      have hidx := List.mem_zipIdx_iff_getElem?.1 hce
      dsimp only at hidx
      rw [List.getElem?_map, Option.map_eq_some_iff] at hidx
      obtain ⟨e', he', ho⟩ := hidx
      rw [List.getElem?_range] at he'
      · injection he' with he'
        subst he'
        exact ⟨rfl, e, rfl, ho⟩
      · by_contra hlt
        rw [List.getElem?_eq_none (by simpa using hlt)] at he'
        cases he'
    · obtain ⟨⟨a, b⟩, c⟩ := x
      rintro ⟨rfl, e, rfl, ho⟩
      dsimp only at ho
      obtain ⟨p', hp', hlt⟩ := opp_isEdge h.toShape ho
      dsimp only at hp
      rw [hp] at hp'
      injection hp' with hp'
      subst hp'
      refine ⟨(some c, e), ?_, rfl⟩
      rw [List.mem_zipIdx_iff_getElem?]
      simp [hlt, ho]
  have all : ∀ ls' : List L, (∀ l ∈ ls', l ∈ ls) → ∃ gs, ls'.mapM (fun l => do
      let p ← s.polygon l
      let cs ← s.oppositeEdges l (nv p)
      return cs.zipIdx.filterMap (fun (c : Option (L × Int) × ℕ) => c.1.map (fun c' => ((l, (c.2 : Int)), c'))) :
        L → Except Err (List ((L × Int) × (L × Int)))) = .ok gs ∧
      ∀ x, x ∈ gs.flatten ↔ x.1.1 ∈ ls' ∧ ∃ e : ℕ, x.1.2 = e ∧ s.opp x.1.1 e = some x.2 := by
    intro ls'
    induction ls' with
    | nil => intro _; exact ⟨[], rfl, by simp⟩
    | cons l ls' ih =>
      intro hsub
      obtain ⟨gs, h1, h2⟩ := ih (fun x hx => hsub x (by simp [hx]))
      obtain ⟨g, h3, h4⟩ := one l (hsub l (by simp))
      refine ⟨g :: gs, ?_, fun x => ?_⟩
      · rw [mapM_ok_iff] at h1 ⊢
        exact List.Forall₂.cons h3 h1
      · rw [List.flatten_cons, List.mem_append, h4, h2, List.mem_cons, ← or_and_right]
  obtain ⟨gs, h1, h2⟩ := all ls (fun _ h => h)
  refine ⟨gs.flatten, ?_, fun x => ?_⟩
  · unfold gluingPairs
    simp only [bind, Except.bind, hls, pure, Except.pure] at h1 ⊢
    rw [h1]
  · rw [h2, hlm]
    constructor
    · exact fun hh => hh.2
    · rintro ⟨e, he, ho⟩
      exact ⟨isEdge_mem (opp_isEdge h.toShape ho), e, he, ho⟩

end

section
variable {L K : Type} [LinearOrder L] [Field K] [LinearOrder K] [IsStrictOrderedRing K]

/-- What is left after removing polygons. -/
theorem removeAll_spec {s : MSurf L (Poly K)} (hs : Good s) (ls : List L) (hn : ls.Nodup)
    (hk : ∀ l ∈ ls, l ∈ s.polygons.keys) :
    wp (removeAll ls) (fun _ t => Good t ∧ (∀ l, l ∈ t.polygons.keys ↔ l ∈ s.polygons.keys ∧ l ∉ ls) ∧
      t.nextLabel = s.nextLabel)
      (fun _ _ => False) s := by
  induction ls generalizing s with
  | nil => exact ⟨hs, by simp, rfl⟩
  | cons a ls ih =>
    unfold removeAll
    rw [wp_bind]
    rw [List.nodup_cons] at hn
    refine wp_mono (wp_and (removePolygon_spec hs.1 hs.2.1 a) (keeps_removePolygon hs a)) ?_ ?_
    · rintro _ s1 ⟨⟨_, hr⟩, hg⟩
      refine wp_mono (ih hg hn.2 ?_) ?_ (fun _ _ hh => hh)
      · intro l hl
        rw [hr.polygons, Dict.mem_keys_erase _ hs.1.nodupP]
        exact ⟨fun he => hn.1 (he ▸ hl), hk l (by simp [hl])⟩
      · rintro _ t ⟨ht, hkeys, hnext⟩
        refine ⟨ht, fun l => ?_, by rw [hnext, hr.nextLabel]⟩
        rw [hkeys, hr.polygons, Dict.mem_keys_erase _ hs.1.nodupP, List.mem_cons]
        tauto
    · rintro x s1 ⟨⟨_, h', _⟩, _⟩
      exact h' (hk a (by simp))

variable [LabelNum L]

/-- Adding polygons with new labels. -/
theorem addAll_spec {s : MSurf L (Poly K)} (hs : Good s) (ps : List (L × Poly K)) (hn : (Dict.keys ps).Nodup)
    (hk : ∀ l ∈ (Dict.keys ps), l ∉ s.polygons.keys) :
    wp (addAll ps) (fun _ t => Good t ∧ (∀ l, t.polygons.get l = (Dict.get ps l).or (s.polygons.get l)) ∧
        (∀ l e, t.opp l e = s.opp l e) ∧ (s.roots = [] → t.roots = []) ∧ (FullRoots s → FullRoots t))
      (fun _ _ => False) s := by
  induction ps generalizing s with
  | nil => exact ⟨hs, fun l => by simp [Dict.get], fun _ _ => rfl, id, id⟩
  | cons x ps ih =>
    unfold addAll
    rw [wp_bind]
    simp only [Dict.keys, List.map_cons, List.nodup_cons] at hn
    refine wp_mono (wp_and (addPolygon_spec hs.1.toShape x.2 (some x.1)) (keeps_addPolygon hs x.2 (some x.1))) ?_ ?_
    · rintro l0 s1 ⟨⟨_, hl0, ha⟩, hg⟩
      have := hl0 x.1 rfl
      subst this
      refine wp_mono (ih hg hn.2 ?_) ?_ (fun _ _ hh => hh)
      · intro l hl
        rw [ha.polygons, Dict.mem_keys_set]
        rintro (rfl | h1)
        · exact hn.1 hl
        · exact hk l (by simp only [Dict.keys, List.map_cons, List.mem_cons]; exact Or.inr hl) h1
      · rintro _ t ⟨ht, hp, ho, hr, hf⟩
        refine ⟨ht, fun l => ?_, fun l e => by rw [ho, ha.opp], fun h0 => hr (by rw [ha.roots, if_pos h0]),
          fun h0 => hf ((ha.roots_ok hs.1 hs.2.2).2 h0)⟩
        rw [hp, ha.polygons, Dict.get_set]
        obtain ⟨k, v⟩ := x
        simp only [Dict.get]
        by_cases hkl : l = k
        · subst hkl
          have : Dict.get ps l = none := (Dict.get_eq_none_iff _ _).2 hn.1
          simp [this]
        · rw [if_neg hkl, if_neg (Ne.symm hkl)]
    · rintro e s1 ⟨⟨_, h' | ⟨_, l, hl, hl'⟩⟩, _⟩
      · rw [hs.2.1] at h'; cases h'.2
      · injection hl with hl
        subst hl
        exact hk x.1 (by simp [Dict.keys]) hl'

/-- Adding two polygons with the same label, or a polygon with a label in use, fails. -/
theorem addAll_fail {s : MSurf L (Poly K)} (hs : Good s) (ps : List (L × Poly K)) 
    (hbad : ¬ ((Dict.keys ps).Nodup ∧ ∀ l ∈ (Dict.keys ps), l ∉ s.polygons.keys)) :
    wp (addAll ps) (fun _ _ => False) (fun e t => e = .valueError ∧ Good t) s := by
  induction ps generalizing s with
  | nil => exact absurd ⟨by simp [Dict.keys], by simp [Dict.keys]⟩ hbad
  | cons x ps ih =>
    unfold addAll
    rw [wp_bind]
    refine wp_mono (wp_and (addPolygon_spec hs.1.toShape x.2 (some x.1)) (keeps_addPolygon hs x.2 (some x.1))) ?_ ?_
    · rintro l0 s1 ⟨⟨_, hl0, ha⟩, hg⟩
      have := hl0 x.1 rfl
      subst this
      refine ih hg ?_
      rintro ⟨h1, h2⟩
      apply hbad
      simp only [Dict.keys, List.map_cons, List.nodup_cons, List.mem_cons]
      have h3 : ∀ l ∈ Dict.keys ps, l ≠ x.1 ∧ l ∉ s.polygons.keys := by
        intro l hl
        have := h2 l hl
        rw [ha.polygons, Dict.mem_keys_set] at this
        tauto
      refine ⟨⟨fun hx => (h3 x.1 hx).1 rfl, h1⟩, ?_⟩
      rintro l (rfl | hl)
      · exact ha.fresh
      · exact (h3 l hl).2
    · rintro e s1 ⟨⟨_, h' | ⟨he, _⟩⟩, hg⟩
      · rw [hs.2.1] at h'; cases h'.2
      · exact ⟨he, hg⟩

/-- A surface without polygons. -/
theorem empty_of_keys {s : MSurf L (Poly K)} (hs : Good s) (h : ∀ l, l ∉ s.polygons.keys) :
    s.polygons = [] ∧ s.roots = [] ∧ ∀ l e, s.opp l e = none := by
  refine ⟨?_, ?_, fun l e => ?_⟩
  · cases hp : s.polygons with
    | nil => rfl
    | cons x d => exact absurd (by rw [hp]; simp [Dict.keys]) (h x.1)
  · cases hp : s.roots with
    | nil => rfl
    | cons x d => exact absurd (hs.2.2.mem x (by rw [hp]; simp)) (h x)
  · cases ho : s.opp l e with
    | none => rfl
    | some c => exact absurd (isEdge_mem (opp_isEdge hs.1.toShape ho)) (h l)

end
end MSurf
end Flat
