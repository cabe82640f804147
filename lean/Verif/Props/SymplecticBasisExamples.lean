import Verif.Props.SymplecticBasis
import Verif.Props.HomologyGroupExamples

/-!
# C71: examples and violations
-/

namespace Flat
namespace RSurf
open Module

theorem exTorus2_joined : exTorus2.Joined (fun _ => True) := by
  have h0 : ∀ a : Bool, Relation.EqvGen (fun a b => ∃ e e', exTorus2.IsDart (fun _ => True) (a, e) ∧ exTorus2.opp a e = .ok (some (b, e'))) false a := by
    intro a
    cases a
    · exact .refl _
    · exact .rel _ _ ⟨0, 0, (exTorus2_dart _).2 (by decide), by decide +kernel⟩
  intro a b _ _
  exact .trans _ _ _ (.symm _ _ (h0 a)) (h0 b)

theorem exTorus2_not_self (d : Bool × ℕ) (hd : exTorus2.IsDart (fun _ => True) d) : exTorus2.opp d.1 d.2 ≠ .ok (some d) := by
  have h := (exTorus2_dart d).1 hd
  have : ∀ d ∈ [(false, 0), (false, 1), (false, 2), (true, 0), (true, 1), (true, 2)], exTorus2.opp d.1 d.2 ≠ .ok (some d) := by decide +kernel
  exact this d h

/-- A function that finds symplectic bases for the alternating matrices with two rows. -/
def sage2 (E : List (List ℤ)) : List (List ℤ) × List (List ℤ) :=
  let e := ofRows 2 E 0 1
  if 0 ≤ e then ([[0, e], [-e, 0]], [[1, 0], [0, 1]]) else ([[0, -e], [e, 0]], [[0, 1], [1, 0]])

theorem sage2_spec (E : List (List ℤ)) (hs : (ofRows 2 E).transpose = - ofRows 2 E) (hd : ∀ i, ofRows 2 E i i = 0) :
    IsSymplecticForm (0 < ·) 2 E (sage2 E).1 (sage2 E).2 := by
  have h1 : ofRows 2 E 1 0 = - ofRows 2 E 0 1 := congrFun (congrFun hs 0) 1
  generalize he : ofRows 2 E 0 1 = e at h1
  have hE : ofRows 2 E = !![0, e; -e, 0] := by
    ext i j
    fin_cases i <;> fin_cases j <;> first | exact hd _ | exact he | exact h1
  unfold sage2
  simp only [he]
  split_ifs with h
  · refine ⟨by simp, by simp, ?_, ?_, if e = 0 then 0 else 1, fun _ => e, ?_, ?_⟩
    · rw [Matrix.isUnit_iff_isUnit_det, Matrix.det_fin_two]
      simp [ofRows]
    · rw [hE]
      ext i j
      fin_cases i <;> fin_cases j <;> simp [ofRows, Matrix.mul_apply]
    · intro a ha
      split_ifs at ha with h0
      · omega
      · exact ⟨h0, show 0 < e by omega⟩
    · intro a b
      by_cases h0 : e = 0 <;> fin_cases a <;> fin_cases b <;> simp [ofRows, h0]
  · refine ⟨by simp, by simp, ?_, ?_, 1, fun _ => -e, ?_, ?_⟩
    · rw [Matrix.isUnit_iff_isUnit_det, Matrix.det_fin_two]
      simp [ofRows]
    · rw [hE]
      ext i j
      fin_cases i <;> fin_cases j <;> simp [ofRows, Matrix.mul_apply]
    · intro a ha
      dsimp only
      exact ⟨by omega, by omega⟩
    · intro a b
      fin_cases a <;> fin_cases b <;> simp [ofRows]

/-- `C71_symplectic_partial` for a torus: there are generators, and the function finds a symplectic basis. -/
example : ∃ (sx : List (Bool × ℕ)) (z u : Fin 2 → Fin sx.length → ℤ), exTorus2.simplices1 [false, true] = .ok sx ∧
    exTorus2.symplecticBasis 9 [(false, 0)] sage2 ((List.finRange 2).map fun i => chainOf sx (z i)) = .ok ((List.finRange 2).map fun i => chainOf sx (u i)) ∧
    exTorus2.algebraicIntersection 9 [(false, 0)] (chainOf sx (u 0)) (chainOf sx (u 1)) = .ok 1 := by
  obtain ⟨es, hes, hl⟩ : ∃ es, exTorus2.edges [false, true] = .ok es ∧ es.length = 6 := ⟨_, rfl, rfl⟩
  obtain ⟨vx, sx, M1, M2, g, h1, h2, h3, h4, h5, h6⟩ := C71_symplectic_partial exTorus2_closed exTorus2_joined exTorus2_not_self (ls := [false, true])
    (by decide) (by simp) (by decide) hes (fuel := 9) (by omega) exTorus2_starts ℤ (normal := (0 < ·)) (fun r h h' => by
      rcases Int.isUnit_iff.1 h' with rfl | rfl
      · rfl
      · exact absurd h (by decide)) sage2
  have hg : exTorus2.genus 9 [false, true] = .ok 1 := by decide +kernel
  obtain ⟨vx', sx', M1', M2', g', q1, q2, q3, q4, q5, ⟨q6⟩, -⟩ := C71_perfect_partial exTorus2_closed exTorus2_joined exTorus2_not_self (ls := [false, true])
    (by decide) (by simp) (by decide) hes (fuel := 9) (by omega) exTorus2_starts ℤ
  rw [h1] at q1; injection q1 with q1; subst q1
  rw [h2] at q2; injection q2 with q2; subst q2
  rw [h3] at q3; injection q3 with q3; subst q3
  rw [h4] at q4; injection q4 with q4; subst q4
  rw [hg] at h5 q5
  injection h5 with h5
  injection q5 with q5
  have h5 : g = 1 := by exact_mod_cast h5.symm
  have q5 : g' = 1 := by exact_mod_cast q5.symm
  subst h5
  subst q5
  let v : Basis (Fin 2) ℤ (Homology1 M1 M2 2 sx.length vx.length) := Basis.ofEquivFun q6
  have hz : ∀ i, ∃ z : LinearMap.ker (rowMap M1 sx.length vx.length), v i = Submodule.Quotient.mk z := fun i => by
    obtain ⟨z, hz⟩ := Submodule.Quotient.mk_surjective _ (v i)
    exact ⟨z, hz.symm⟩
  choose z hz using hz
  obtain ⟨-, u, w, hu, h7, h8⟩ := h6 2 z v hz (fun E _ _ _ hs hd => sage2_spec E hs hd)
  exact ⟨sx, fun i => (z i).1, fun i => (u i).1, h2, h7, h8 0 1⟩

/-- **C71, violation.** For a triangle whose edges are glued to themselves, all intersections vanish, but `C70_self_glued_violation` says that the homology
has rank 2. -/
theorem C71_self_glued_violation (m o : Unit × ℕ → ℤ) : exPillow.algebraicIntersection 9 [((), 0)] m o = .ok 0 := by
  have h1 : exPillow.edgesCcw 9 ((), 0) = .ok [((), 0), ((), 2), ((), 1)] := by decide +kernel
  unfold algebraicIntersection intersectionLoop
  rw [h1]
  have h2 : ∀ e, exPillow.opp! () e = .ok ((), e) := fun e => rfl
  simp [crossLoop, h2, bind, Except.bind, intersectionLoop]

end RSurf
end Flat
