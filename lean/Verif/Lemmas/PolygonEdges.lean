import Verif.Lemmas.PolygonSides

/-!
# Edges of hyperbolic polygons

Helper lemmas about `Verif.Model.HyperbolicEdges`: what `edges` returns.
-/

namespace Flat
namespace Hyp

variable {K F : Type} [Field K] [LinearOrder K] [IsStrictOrderedRing K] [Field F] [LinearOrder F] [IsStrictOrderedRing F]

/-- The finite corner of consecutive half spaces of a polygon. -/
def cornerAt (l : List (Geo K)) (i : ℕ) : Option (K × K) :=
  (if 0 < (seqOf l i).cross (seqOf l (i + 1)) then (seqOf l i).inter (seqOf l (i + 1)) else none).filter finitePoint

/-- The edge of a half space of a polygon. -/
def edgeAt (l : List (Geo K)) (i : ℕ) : Edge K := ⟨seqOf l i, cornerAt l (i + (l.length - 1)), cornerAt l i⟩

theorem edgeCorner_spec {A B : Geo K} (vA : A.Valid) (vB : B.Valid) (h : Distinct A B) : edgeCorner A B = .ok ((if 0 < A.cross B then A.inter B else none).filter finitePoint) := by
  rcases lt_trichotomy (A.cross B) 0 with h0 | h0 | h0
  · simp only [edgeCorner, config_concave h0, bind, Except.bind, pure, Except.pure]
    rw [if_neg (not_lt.mpr h0.le)]
    rfl
  · have hc := config_parallel vA vB h0 (h h0)
    rw [if_neg h0.not_gt]
    rcases hc with ⟨-, hc⟩ | ⟨-, hc⟩ <;> simp only [edgeCorner, hc, bind, Except.bind, pure, Except.pure] <;> rfl
  · simp only [edgeCorner, config_convex h0, bind, Except.bind, pure, Except.pure]
    rw [if_pos h0]

omit [IsStrictOrderedRing K] in
theorem edgeList_map : ∀ (t : List (Geo K × Geo K × Geo K)) (es : List (Edge K)), List.Forall₂ (fun x e => polyEdge x.1 x.2.1 x.2.2 = .ok e) t es → edgeList t = .ok es
  | [], _, h => by cases h; rfl
  | (A, B, C) :: t, _, h => by
    cases h with
    | cons h1 h2 =>
      simp only [edgeList, h1, edgeList_map t _ h2, bind, Except.bind, pure, Except.pure]

theorem list_seqOf (l : List (Geo K)) : (List.range l.length).map (seqOf l) = l := by
  refine List.ext_getElem (by simp) fun i h1 h2 => ?_
  simp [seqOf_lt h2]

theorem cornerAt_spec {l : List (Geo K)} (j : ℕ) : ∀ p ∈ cornerAt l j, 0 < (seqOf l j).cross (seqOf l (j + 1)) ∧ (seqOf l j).val p = 0 ∧ (seqOf l (j + 1)).val p = 0 ∧ finitePoint p = true := by
  intro p hp
  rw [cornerAt, Option.mem_def, Option.filter_eq_some_iff] at hp
  obtain ⟨hp, hf⟩ := hp
  by_cases h0 : 0 < (seqOf l j).cross (seqOf l (j + 1))
  · rw [if_pos h0] at hp
    obtain ⟨v, h1, h2, h3⟩ := exists_inter h0.ne'
    rw [h1, Option.some.injEq] at hp
    exact ⟨h0, hp ▸ h2, hp ▸ h3, hf⟩
  · rw [if_neg h0] at hp; cases hp

/-- What `edges` returns. -/
theorem polyEdges_eq {l : List (Geo K)} (hl : (ConvexSet.polygon l).Reduced) : polyEdges l = .ok ((List.range l.length).map (edgeAt l)) ∧
    ∀ i, (seqOf l i).Valid ∧ Normal (seqOf l i) (cornerAt l (i + (l.length - 1))) (cornerAt l i) ∧
      ∀ (F : Type) [Field F] [LinearOrder F] [IsStrictOrderedRing F] (f : K →+* F), StrictMono f → ∀ z : F × F, InDisk z →
        (Between f (seqOf l i) (cornerAt l (i + (l.length - 1))) (cornerAt l i) z ↔ ((seqOf l i).map f).val z = 0 ∧ InAll f l z) := by
  obtain ⟨E, hE, hedge⟩ := polygon_diskEdges hl
  have hn : 2 ≤ l.length := hl.1
  have hc := hE.cyc
  have e1 : ∀ i, seqOf l (i + (l.length - 1) + 1) = seqOf l i := fun i => by
    rw [show i + (l.length - 1) + 1 = i + l.length by omega, seqOf_per]
  have dBC : ∀ i, Distinct (seqOf l i) (seqOf l (i + 1)) := fun i => hc.dist _ _ (by omega) (by omega)
  have dAB : ∀ i, Distinct (seqOf l (i + (l.length - 1))) (seqOf l i) := fun i => by
    have := dBC (i + (l.length - 1)); rwa [e1] at this
  have cAB : ∀ i, ((if 0 < (seqOf l (i + (l.length - 1))).cross (seqOf l i) then (seqOf l (i + (l.length - 1))).inter (seqOf l i) else none).filter finitePoint) = cornerAt l (i + (l.length - 1)) := fun i => by
    rw [cornerAt, e1]
  have hE2 : ∀ i, segment (seqOf l i) (cornerAt l (i + (l.length - 1))) (cornerAt l i) = .ok (E i) ∧ E i = segmentFinal (seqOf l i) (cornerAt l (i + (l.length - 1))) (cornerAt l i) := by
    intro i
    have h := hE.eq i
    simp only [edgeOf, cornerOf_spec (hc.valid _) (hc.valid _) (.inr (dAB i)), cornerOf_spec (hc.valid _) (hc.valid _) (.inr (dBC i)), bind, Except.bind] at h
    have := segment_filter h (IsEdge.nondegenerate (hedge i))
    rw [cAB] at this
    exact this
  have hfin := cornerAt_spec (l := l)
  have hN : ∀ i, Normal (seqOf l i) (cornerAt l (i + (l.length - 1))) (cornerAt l i) := by
    intro i
    refine ⟨fun p hp => ?_, fun p hp => ?_, fun p hp q hq => ?_⟩
    · obtain ⟨-, -, h2, h3⟩ := hfin _ p hp
      rw [e1] at h2
      exact ⟨h2, h3⟩
    · obtain ⟨-, h1, -, h3⟩ := hfin _ p hp
      exact ⟨h1, h3⟩
    · obtain ⟨-, -, h2, h3⟩ := hfin _ p hp
      rw [e1] at h2
      obtain ⟨-, h4, -, h6⟩ := hfin _ q hq
      -- compare with the points of the edge
      have hEi := (hE2 i).2
      rw [hp, hq] at hEi
      simp only [segmentFinal] at hEi
      have hnd := (IsEdge.nondegenerate (hedge i))
      have hpq : p ≠ q := by
        rintro rfl
        rw [if_pos rfl] at hEi
        rw [hEi] at hnd
        simp [ConvexSet.nondegenerate] at hnd
      rw [if_neg hpq] at hEi
      obtain ⟨s, e, hN, hse⟩ := hedge i
      rw [hEi] at hse
      rcases s with _ | s <;> rcases e with _ | e <;> simp only [segmentFinal] at hse
      · cases hse
      · cases hse
      · cases hse
      · by_cases hse' : s = e
        · rw [if_pos hse'] at hse; cases hse
        · rw [if_neg hse'] at hse
          cases hse
          exact hN.order _ rfl _ rfl
  refine ⟨?_, fun i => ⟨hc.valid i, hN i, ?_⟩⟩
  · have hlist : edgeList (triples l) = .ok ((List.range l.length).map (edgeAt l)) := by
      refine edgeList_map _ _ ?_
      rw [triples_eq, List.forall₂_map_left_iff, List.forall₂_map_right_iff, List.forall₂_same]
      intro i _
      simp only [polyEdge, edgeCorner_spec (hc.valid _) (hc.valid _) (dAB i), edgeCorner_spec (hc.valid _) (hc.valid _) (dBC i), bind, Except.bind]
      rw [cAB i]
      have h := (hE2 i).1
      rw [show ((if 0 < (seqOf l i).cross (seqOf l (i + 1)) then (seqOf l i).inter (seqOf l (i + 1)) else none).filter finitePoint) = cornerAt l i from rfl, h, (hE2 i).2]
      have hne := segmentFinal_ne (hN i)
      simp only [edgeAt]
      rcases hs : cornerAt l (i + (l.length - 1)) with _ | p <;> rcases he : cornerAt l i with _ | q <;> simp only [segmentFinal, ConvexSet.asEdge]
      rw [hs, he] at hne
      simp only [segmentFinal] at hne
      by_cases hpq : p = q
      · rw [if_pos hpq] at hne
        exact absurd rfl (hne.2 p)
      · rw [if_neg hpq]
    rw [polyEdges, if_neg (by omega)]
    simp only [hlist, bind, Except.bind, pure, Except.pure]
    rw [orderedSet_sorted]
    have hs := hl.2.1
    rw [← list_seqOf l, List.pairwise_map] at hs
    rw [List.pairwise_map]
    refine hs.imp ?_
    intro i j hij
    simp only [edgeLt, edgeAt]
    simp only [hij, if_true]
  · intro F _ _ _ f hf z hz
    have h1 := hE.mem i F f hf z
    rw [(hE2 i).2, mem_segmentFinal f (fun p hp q hq he => absurd (congrArg (seqOf l i).pos he) ((hN i).order p hp q hq).ne)] at h1
    simpa [hz] using h1

end Hyp
end Flat
