import Verif.Model.SymplecticBasis
import Verif.Lemmas.HomologyRows
import Mathlib.LinearAlgebra.PerfectPairing.Basic
import Mathlib.LinearAlgebra.Matrix.ToLinearEquiv

/-!
# Matrices of alternating forms
-/

namespace Flat
namespace RSurf
open Module
variable {L K : Type} [Field K] [LinearOrder K] [IsStrictOrderedRing K] [DecidableEq L] {R : Type} [CommRing R]

/-- The matrix of a perfect pairing is invertible. -/
theorem gram_unit {H : Type} [AddCommGroup H] [Module R H] {B : H →ₗ[R] H →ₗ[R] R} (hB : B.IsPerfPair) {n : ℕ} (v : Basis (Fin n) R H) :
    IsUnit (Matrix.of fun i j => B (v i) (v j)) := by
  have h := fun j : Fin n => (LinearMap.IsPerfPair.bijective_right B).2 (v.coord j)
  choose u hu using h
  have e : (Matrix.of fun i j => B (v i) (v j)) * (Matrix.of fun j k => v.repr (u k) j) = 1 := by
    ext i k
    rw [Matrix.mul_apply]
    have h1 : B (v i) (u k) = v.coord k (v i) := by rw [← hu]; rfl
    conv at h1 => lhs; rw [← v.sum_repr (u k), map_sum]
    simp only [map_smul, smul_eq_mul, Basis.coord_apply, Basis.repr_self] at h1
    simp only [Matrix.of_apply, Matrix.one_apply]
    rw [← Finsupp.single_apply (a := i) (a' := k) (b := (1 : R))] 
    rw [← h1]
    exact Finset.sum_congr rfl fun j _ => mul_comm _ _
  exact IsUnit.of_mul_eq_one _ e

/-- If the matrix of an alternating form in a symplectic basis is invertible then there are no null vectors, and the invariants are units. -/
theorem symplectic_unit [Nontrivial R] {n : ℕ} {F : Matrix (Fin n) (Fin n) R} (hF : IsUnit F) {k : ℕ} {d : ℕ → R} (hform : ∀ a b : Fin n, F a b =
    if a.1 < k ∧ b.1 = a.1 + k then d a.1 else if b.1 < k ∧ a.1 = b.1 + k then - d b.1 else 0) :
    (0 < n → n = 2 * k) ∧ ∀ a, a < k → a < n → IsUnit (d a) := by
  obtain ⟨G, hG⟩ := hF.exists_right_inv
  have hrow : ∀ a : Fin n, ¬ ∀ b, F a b = 0 := by
    intro a h
    have := congrFun (congrFun hG a) a
    rw [Matrix.mul_apply, Matrix.one_apply_eq] at this
    simp [h] at this
  have h1 : ∀ a, a < n → a < k → a + k < n := by
    intro a ha hk
    by_contra h
    apply hrow ⟨a, ha⟩
    intro b
    have := b.2
    rw [hform, if_neg (by dsimp only; omega), if_neg (by dsimp only; omega)]
  have h2 : ∀ a, a < n → a < 2 * k := by
    intro a ha
    by_contra h
    apply hrow ⟨a, ha⟩
    intro b
    rw [hform, if_neg (by dsimp only; omega), if_neg (by dsimp only; omega)]
  refine ⟨fun hn => ?_, fun a ha han => ?_⟩
  · have h3 := h2 (n - 1) (by omega)
    have h4 : k ≤ n := by
      by_contra h
      have := h1 0 hn (by omega)
      omega
    have h5 := h1 (k - 1) (by omega) (by omega)
    omega
  · have h3 := h1 a han ha
    have := congrFun (congrFun hG ⟨a, han⟩) ⟨a, han⟩
    rw [Matrix.mul_apply, Matrix.one_apply_eq, Finset.sum_eq_single (⟨a + k, h3⟩ : Fin n)] at this
    · rw [hform, if_pos ⟨ha, rfl⟩] at this
      exact IsUnit.of_mul_eq_one _ this
    · intro b _ hb
      rw [hform, if_neg, if_neg, zero_mul]
      · dsimp only; omega
      · rintro ⟨-, h⟩
        exact hb (Fin.ext h)
    · simp

/-- Combinations of a basis with an invertible matrix. -/
theorem basis_change {H : Type} [AddCommGroup H] [Module R H] {n : ℕ} (v : Basis (Fin n) R H) {C : Matrix (Fin n) (Fin n) R} (hC : IsUnit C) :
    ∃ w : Basis (Fin n) R H, ∀ i, w i = ∑ j, C i j • v j := by
  have hdet : IsUnit (C.transpose).det := by
    rw [Matrix.det_transpose]
    exact (Matrix.isUnit_iff_isUnit_det _).1 hC
  refine ⟨v.map (Matrix.toLinearEquiv v C.transpose hdet), fun i => ?_⟩
  rw [Basis.map_apply]
  exact Matrix.toLin_self v v C.transpose i

theorem ofRows_map {n : ℕ} (b : Fin n → Fin n → R) : ofRows n ((List.finRange n).map fun i => (List.finRange n).map fun j => b i j) = Matrix.of b := by
  ext i j
  simp [ofRows, List.getD_eq_getElem?_getD]

theorem ofRows_get {n : ℕ} {M : List (List R)} (h : M.length = n ∧ ∀ row ∈ M, row.length = n) (i j : ℕ) (hi : i < M.length) (hj : j < (M[i]).length) :
    ∃ (hi' : i < n) (hj' : j < n), (M[i])[j] = ofRows n M ⟨i, hi'⟩ ⟨j, hj'⟩ := by
  have h1 := h.2 M[i] (List.getElem_mem hi)
  refine ⟨by omega, by omega, ?_⟩
  simp [ofRows, List.getD_eq_getElem?_getD, hi, hj]

/-- The sum of the generators with the coefficients of a row. -/
theorem zip_sum {A : Type} [AddCommMonoid A] [Module R A] {n : ℕ} {row : List R} (h : row.length = n) (g : Fin n → A) :
    ((row.zip ((List.finRange n).map g)).map fun cg => cg.1 • cg.2).sum = ∑ j : Fin n, row[j.1]'(by omega) • g j := by
  rw [← List.sum_ofFn]
  congr 1
  refine List.ext_getElem (by simp [h]) fun i h1 h2 => ?_
  simp

end RSurf
end Flat
