import Verif.Lemmas.LocalPosition

/-!
# C45: tangent vectors of surfaces whose polygons need not be convex
-/

namespace Flat
variable {L K : Type} [DecidableEq L] [Field K] [LinearOrder K] [IsStrictOrderedRing K]

namespace Poly
omit [DecidableEq L]

/-- A ray along a side. -/
theorem along {p : Poly K} {k : ℕ} {pt x d : Vec K} {m : K} (hm : 0 < m) (hx : ∀ s : K, 0 < s → s < m → pt + s • x ∈ p.openSide k) (hx0 : x ≠ 0)
    (h : isParallel x d = true) : ∃ ε : K, 0 < ε ∧ ∀ s : K, 0 < s → s ≤ ε → pt + s • d ∈ p.openSide k := by
  obtain ⟨t, ht, rfl⟩ := (C05_isParallel_iff x d hx0).1 h
  refine ⟨m / (2 * t), div_pos hm (by linarith), fun s s0 s1 => ?_⟩
  rw [smul_smul]
  refine hx _ (mul_pos s0 ht) ?_
  rw [le_div_iff₀ (by linarith)] at s1
  linarith

theorem along_openSide {p : Poly K} {k : ℕ} {pt : Vec K} (hpt : pt ∈ p.openSide k) : ∃ m : K, 0 < m ∧
    (∀ s : K, 0 < s → s < m → pt + s • p.edge k ∈ p.openSide k) ∧ (∀ s : K, 0 < s → s < m → pt + s • (-p.edge k) ∈ p.openSide k) := by
  obtain ⟨t, t0, t1, rfl⟩ := hpt
  refine ⟨min t (1 - t), lt_min t0 (by linarith), fun s s0 s1 => ⟨t + s, by linarith, ?_, ?_⟩, fun s s0 s1 => ⟨t - s, ?_, by linarith, ?_⟩⟩
  · have := lt_of_lt_of_le s1 (min_le_right _ _); linarith
  · rw [add_smul]; abel
  · have := lt_of_lt_of_le s1 (min_le_left _ _); linarith
  · rw [sub_smul, smul_neg]; abel

end Poly

namespace RSurf
open Poly
omit [DecidableEq L]

theorem not_side {p : Poly K} (hv : p.Valid) {q : Vec K} (h : p.pointPosition q = .interior ∨ p.pointPosition q = .outside) : ∀ i, q ∉ p.side i := by
  intro i hi
  have := (pointPosition_boundary hv).1 ⟨i, hi⟩
  rcases h with h | h <;> rw [h] at this <;> simp at this

theorem enters_interior {p : Poly K} (hv : p.Valid) {pt v : Vec K}
    (h : ∃ ε : K, 0 < ε ∧ ∀ s : K, 0 < s → s ≤ ε → p.pointPosition (pt + s • v) = .interior) : Enters p pt v := by
  obtain ⟨ε, h0, h1⟩ := h
  refine ⟨ε, h0, fun s s0 s1 => ?_⟩
  obtain ⟨δ, d0, hδ⟩ := off_local hv (not_side hv (.inl (h1 s s0 s1.le))) (-v.2, v.1)
  exact ⟨δ, d0, fun r r0 r1 => by rw [hδ r r0 r1.le, h1 s s0 s1.le]⟩

theorem not_enters_outside {p : Poly K} (hv : p.Valid) {pt v : Vec K}
    (h : ∃ ε : K, 0 < ε ∧ ∀ s : K, 0 < s → s ≤ ε → p.pointPosition (pt + s • v) = .outside) : ¬ Enters p pt v := by
  rintro ⟨ε', h0', h1'⟩
  obtain ⟨ε, h0, h1⟩ := h
  have hm : 0 < min ε (ε' / 2) := lt_min h0 (half_pos h0')
  have hs := h1 _ hm (min_le_left _ _)
  obtain ⟨δ, d0, hδ⟩ := off_local hv (not_side hv (.inr hs)) (-v.2, v.1)
  obtain ⟨δ', d0', hδ'⟩ := h1' _ hm (lt_of_le_of_lt (min_le_right _ _) (half_lt_self h0'))
  have hm' : 0 < min δ (δ' / 2) := lt_min d0 (half_pos d0')
  have e1 := hδ _ hm' (min_le_left _ _)
  have e2 := hδ' _ hm' (lt_of_le_of_lt (min_le_right _ _) (half_lt_self d0'))
  rw [e2, hs] at e1
  cases e1

theorem enters_along {p : Poly K} (hv : p.Valid) {pt v : Vec K} {k : ℕ} (h : ∃ ε : K, 0 < ε ∧ ∀ s : K, 0 < s → s ≤ ε → pt + s • v ∈ p.openSide k) :
    (0 < dot (p.edge k) v → Enters p pt v) ∧ (dot (p.edge k) v < 0 → ¬ Enters p pt v) := by
  obtain ⟨ε, h0, h1⟩ := h
  have e : ccw (p.edge k) (-v.2, v.1) = dot (p.edge k) v := by simp [ccw, dot]
  constructor
  · intro hd
    refine ⟨ε, h0, fun s s0 s1 => ?_⟩
    obtain ⟨δ, d0, hδ⟩ := (side_local hv (h1 s s0 s1.le) (-v.2, v.1)).1 (by rw [e]; exact hd)
    exact ⟨δ, d0, fun r r0 r1 => hδ r r0 r1.le⟩
  · rintro hd ⟨ε', h0', h1'⟩
    have hm : 0 < min ε (ε' / 2) := lt_min h0 (half_pos h0')
    obtain ⟨δ, d0, hδ⟩ := (side_local hv (h1 _ hm (min_le_left _ _)) (-v.2, v.1)).2 (by rw [e]; exact hd)
    obtain ⟨δ', d0', hδ'⟩ := h1' _ hm (lt_of_le_of_lt (min_le_right _ _) (half_lt_self h0'))
    have hm' : 0 < min δ (δ' / 2) := lt_min d0 (half_pos d0')
    have e1 := hδ _ hm' (min_le_left _ _)
    have e2 := hδ' _ hm' (lt_of_le_of_lt (min_le_right _ _) (half_lt_self d0'))
    rw [e2] at e1
    cases e1

/-- The vectors that are kept are those which point into the polygon. -/
theorem points_iff_enters_all {p : Poly K} (hv : p.Valid) {pt v : Vec K} (hne : v ≠ 0) : Points p pt v ↔ Enters p pt v := by
  cases h : p.pointPosition pt with
  | interior =>
    refine ⟨fun _ => enters_interior hv ?_, fun _ => ⟨hne, by rw [h]; trivial⟩⟩
    obtain ⟨ε, h0, h1⟩ := off_local hv (not_side hv (.inl h)) v
    exact ⟨ε, h0, fun s s0 s1 => by rw [h1 s s0 s1, h]⟩
  | outside =>
    refine ⟨fun hp => ?_, fun he => absurd he (not_enters_outside hv ?_)⟩
    · have := hp.2; rw [h] at this; exact absurd this (by simp)
    · obtain ⟨ε, h0, h1⟩ := off_local hv (not_side hv (.inr h)) v
      exact ⟨ε, h0, fun s s0 s1 => by rw [h1 s s0 s1, h]⟩
  | edgeInterior e =>
    obtain ⟨he, hpt⟩ := (C12_edge hv pt e).1 h
    obtain ⟨m, m0, hm1, hm2⟩ := along_openSide hpt
    rw [points_edge hv he hpt]
    rcases lt_trichotomy (ccw (p.edge e) v) 0 with hc | hc | hc
    · refine ⟨fun hp => ?_, fun hent => absurd hent (not_enters_outside hv ((side_local hv hpt v).2 hc))⟩
      rcases hp.2 with h1 | h1
      · linarith
      · exact absurd ((isParallel_iff' _ _).1 h1).1 hc.ne
    · rcases parallel_or (hv.edge_ne e) hne hc with h1 | h1
      · exact ⟨fun _ => (enters_along hv (along m0 hm1 (hv.edge_ne e) h1)).1 ((isParallel_iff' _ _).1 h1).2, fun _ => ⟨hne, .inr h1⟩⟩
      · refine ⟨fun hp => ?_, fun hent => absurd hent ((enters_along hv (along m0 hm2 (neg_ne_zero.2 (hv.edge_ne e))
          (by rw [isParallel_neg_left]; exact h1))).2 ((isAntiParallel_iff' _ _).1 h1).2)⟩
        rcases hp.2 with h2 | h2
        · linarith
        · have k1 := ((isParallel_iff' _ _).1 h2).2
          have k2 := ((isAntiParallel_iff' _ _).1 h1).2
          linarith
    · exact ⟨fun _ => enters_interior hv ((side_local hv hpt v).1 hc), fun _ => ⟨hne, .inl hc⟩⟩
  | vertex i =>
    obtain ⟨hi, rfl⟩ := (C12_vertex hv pt i).1 h
    rw [points_vertex hv hi]
    constructor
    · rintro ⟨-, h1 | h1⟩
      · exact (enters_along hv (along one_pos (ray_openSide p i) (hv.edge_ne i) h1)).1 ((isParallel_iff' _ _).1 h1).2
      · exact enters_interior hv ((vertex_local hv hi v).1 h1)
    · intro hent
      refine ⟨hne, (not_anti_of_points hv hi hne).1 ⟨?_, ?_⟩⟩
      · rw [← Bool.not_eq_true]
        intro h1
        exact not_enters_outside hv ((vertex_local hv hi v).2 h1) hent
      · rw [← Bool.not_eq_true]
        intro h1
        exact (enters_along hv (along one_pos (ray_openSide_prev hv i) (neg_ne_zero.2 (hv.edge_ne _)) (by rw [isParallel_neg_left]; exact h1))).2
          ((isAntiParallel_iff' _ _).1 h1).2 hent

variable {S : RSurf L K} {valid : L → Prop}

/-- **C45.** A tangent vector is given in the polygon into which it points, convex or not: from its point one enters the polygon along
the vector or, if the vector runs along an edge, just to the left of the vector. -/
theorem C45_enters_all (hS : S.Bordered valid) {l : L} (hl : valid l) {pt v : Vec K} {t : TVec L K} (h : S.tangentVector l pt v = .ok t)
    {p : Poly K} (hp : S.polygon t.label = .ok p) : Enters p t.point t.vector := by
  obtain ⟨-, q, hl', hq, -, hpts⟩ := C45_moved hS hl h
  rw [hp] at hq; injection hq with hq; subst hq
  exact (points_iff_enters_all (hS.valid_of_polygon hl' hp) hpts.1).1 hpts

/-- **C45.** A tangent vector is not moved if and only if it points into the polygon, convex or not. -/
theorem C45_kept_iff_all (hS : S.Bordered valid) {l : L} (hl : valid l) {p : Poly K} (hp : S.polygon l = .ok p) {pt v : Vec K}
    (hne : v ≠ 0) : S.tangentVector l pt v = .ok ⟨l, pt, v, p.pointPosition pt⟩ ↔ Enters p pt v := by
  rw [← points_iff_enters_all (hS.valid_of_polygon hl hp) hne]
  refine ⟨fun h => ?_, C45_fixed hS hl hp⟩
  obtain ⟨-, q, -, hq, -, hpts⟩ := C45_moved hS hl h
  dsimp only at hq hpts
  rw [hp] at hq; injection hq with hq; subst hq
  exact hpts

end RSurf
end Flat
