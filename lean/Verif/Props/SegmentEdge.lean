import Verif.Props.Trajectory

/-!
# C67: segments along edges
-/

namespace Flat
variable {L K : Type} [Field K] [LinearOrder K] [IsStrictOrderedRing K]

namespace RSurf
open Poly
variable {S : RSurf L K} {valid : L → Prop}

/-- A segment through the inside of a polygon does not start along an edge. -/
theorem chord_not_edge (hS : S.Bordered valid) {s : Seg L K} {p : Poly K} {τ : K} (h : S.IsChord valid s p τ) {i : ℕ} (hi : s.start.position = .vertex i) :
    isParallel s.start.vector (p.edge i) = false := by
  have hv := hS.valid_of_polygon h.valid h.polygon
  have hpos := h.position
  rw [hi] at hpos
  obtain ⟨hlt, hpt⟩ := (C12_vertex hv _ i).1 hpos.symm
  by_contra hn
  rw [Bool.not_eq_false, isParallel_iff'] at hn
  have hp : isParallel (p.edge i) s.start.vector = true := by
    rw [isParallel_iff']
    obtain ⟨h1, h2⟩ := hn
    unfold ccw at *
    unfold dot at *
    exact ⟨by linear_combination -h1, by linarith⟩
  obtain ⟨σ, σ0, -, ho⟩ := along_end hv hp (.inr hpt)
  have m0 : 0 < min σ τ / 2 := half_pos (lt_min σ0 h.pos)
  have m1 : min σ τ / 2 < σ := lt_of_lt_of_le (half_lt_self (lt_min σ0 h.pos)) (min_le_left _ _)
  have m2 : min σ τ / 2 < τ := lt_of_lt_of_le (half_lt_self (lt_min σ0 h.pos)) (min_le_right _ _)
  have e1 := h.interior _ m0 m2
  rw [(C12_edge hv _ i).2 ⟨hlt, ho _ m0 m1⟩] at e1
  cases e1

/-- **C67.** `is_edge()` and `edge()` of a segment: it says whether the segment runs along an edge or through the inside of a polygon, and
which edge this is. -/
theorem C67_is_edge (hS : S.Bordered valid) {s : Seg L K} (h : S.IsSeg valid s) :
    (S.segIsEdge s = .ok true ∧ (∃ p p' e e' g, S.IsAlong valid s p p' e e' g ∧ S.segEdge s = .ok e) ∧ ¬ ∃ p τ, S.IsChord valid s p τ) ∨
    (S.segIsEdge s = .ok false ∧ (∃ p τ, S.IsChord valid s p τ) ∧ S.segEdge s = .error .valueError ∧
      ¬ ∃ p p' e e' g, S.IsAlong valid s p p' e e' g) := by
  have key : ∀ {p : Poly K} {τ : K}, S.IsChord valid s p τ → S.segIsEdge s = .ok false := by
    intro p τ hc
    unfold segIsEdge
    split
    · next i j h1 h2 =>
      simp only [hc.polygon, chord_not_edge hS hc h1, bind, Except.bind, pure, Except.pure]
    · rfl
  have key' : ∀ {p p' : Poly K} {e e' : ℕ} {g : Similarity K}, S.IsAlong valid s p p' e e' g → S.segIsEdge s = .ok true := by
    intro p p' e e' g ha
    have hp : isParallel s.start.vector (p.edge e) = true := by
      obtain ⟨h1, h2⟩ := (isParallel_iff' _ _).1 ha.parallel
      rw [isParallel_iff']
      unfold ccw at *
      unfold dot at *
      exact ⟨by linear_combination -h1, by linarith⟩
    unfold segIsEdge
    rw [ha.position, ha.position']
    simp only [ha.polygon, hp, bind, Except.bind, pure, Except.pure]
  rcases h with ⟨p, τ, h⟩ | ⟨p, p', e, e', g, h⟩
  · have k1 := key h
    refine .inr ⟨k1, ⟨p, τ, h⟩, ?_, ?_⟩
    · unfold segEdge
      simp only [k1, bind, Except.bind]
      rfl
    · rintro ⟨q, q', e, e', g, ha⟩
      rw [key' ha] at k1
      simp at k1
  · have k1 := key' h
    refine .inl ⟨k1, ⟨p, p', e, e', g, h, ?_⟩, ?_⟩
    · unfold segEdge
      simp only [k1, bind, Except.bind]
      rw [h.position]
      rfl
    · rintro ⟨q, τ, hc⟩
      rw [key hc] at k1
      simp at k1

end RSurf
end Flat
