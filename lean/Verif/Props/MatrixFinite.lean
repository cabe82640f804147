import Verif.Props.MatrixGroup
import Mathlib.Algebra.Order.Archimedean.Basic
import Mathlib.Order.Interval.Finset.Defs
import Mathlib.Data.Fintype.Pi
import Mathlib.Order.Interval.Finset.Basic
import Mathlib.Data.Int.Interval
import Mathlib.Data.Pi.Interval
import Mathlib.Algebra.BigOperators.Group.Finset.Basic
import Mathlib.Algebra.Order.BigOperators.Group.Finset
import Mathlib.LinearAlgebra.Matrix.Determinant.Basic
import Mathlib.LinearAlgebra.Matrix.NonsingularInverse
import Mathlib.LinearAlgebra.LinearIndependent.Lemmas
import Mathlib.LinearAlgebra.FiniteDimensional.Basic
import Mathlib.LinearAlgebra.Dimension.Constructions
import Mathlib.Algebra.Order.Ring.Abs
import Mathlib.Tactic.Linarith
import Mathlib.Tactic.FieldSimp
import Mathlib.Tactic.Positivity
import Mathlib.Tactic.FinCases

/-!
# C42: finiteness of matrix groups
-/

namespace Flat
namespace MatGroup
variable {K : Type} [Field K] [LinearOrder K] [IsStrictOrderedRing K]
open Matrix

/-- The quadratic form with matrix `[[A, B], [B, C]]` is preserved by `m`. -/
def Preserves (m : Matrix (Fin 2) (Fin 2) K) (A C B : K) : Prop := mᵀ * !![A, B; B, C] * m = !![A, B; B, C]

theorem preserves_iff {m : Matrix (Fin 2) (Fin 2) K} {A C B : K} : Preserves m A C B ↔
    m 0 0 * m 0 0 * A + 2 * m 0 0 * m 1 0 * B + m 1 0 * m 1 0 * C = A ∧
    m 0 0 * m 0 1 * A + (m 0 0 * m 1 1 + m 0 1 * m 1 0) * B + m 1 0 * m 1 1 * C = B ∧
    m 0 1 * m 0 1 * A + 2 * m 0 1 * m 1 1 * B + m 1 1 * m 1 1 * C = C := by
  unfold Preserves
  rw [← Matrix.ext_iff]
  simp only [Fin.forall_fin_two, Matrix.mul_apply, Fin.sum_univ_two, Matrix.transpose_apply, Matrix.of_apply, Matrix.cons_val', Matrix.cons_val_zero,
    Matrix.cons_val_one, Matrix.cons_val_fin_one]
  constructor
  · rintro ⟨⟨h1, h2⟩, h3, h4⟩
    exact ⟨by linear_combination h1, by linear_combination h2, by linear_combination h4⟩
  · rintro ⟨h1, h2, h3⟩
    exact ⟨⟨by linear_combination h1, by linear_combination h2⟩, by linear_combination h2, by linear_combination h3⟩

/-- The kernel that is computed consists of the invariant forms. -/
theorem mem_invariantForms {m : Matrix (Fin 2) (Fin 2) K} {A C B : K} (hs : m.det = 1 ∨ m.det = -1) : (A, C, B) ∈ invariantForms m ↔ Preserves m A C B := by
  rw [preserves_iff]
  have hd := Matrix.det_fin_two m
  show (_ ∧ _ ∧ _ ∧ _) ↔ _
  dsimp only
  have hs2 : m.det * m.det = 1 := by rcases hs with h | h <;> rw [h] <;> ring
  generalize m.det = s at hs2 hd
  generalize m 0 0 = a at *
  generalize m 0 1 = b at *
  generalize m 1 0 = c at *
  generalize m 1 1 = d at *
  constructor
  · rintro ⟨h1, h2, h3, h4⟩
    refine ⟨?_, ?_, ?_⟩
    · linear_combination a * h1 + c * h2 - s * A * hd + A * hs2
    · linear_combination a * h3 + c * h4 - s * B * hd + B * hs2
    · linear_combination b * h3 + d * h4 - s * C * hd + C * hs2
  · rintro ⟨h1, h2, h3⟩
    refine ⟨?_, ?_, ?_, ?_⟩
    · linear_combination -(a * A + c * B) * hs2 + s * (a * A + c * B) * hd + s * d * h1 - s * c * h2
    · linear_combination -(a * B + c * C) * hs2 + s * (a * B + c * C) * hd - s * b * h1 + s * a * h2
    · linear_combination -(b * A + d * B) * hs2 + s * (b * A + d * B) * hd + s * d * h2 - s * c * h3
    · linear_combination -(b * B + d * C) * hs2 + s * (b * B + d * C) * hd - s * b * h2 + s * a * h3

theorem Preserves.mul {m n : Matrix (Fin 2) (Fin 2) K} {A C B : K} (hm : Preserves m A C B) (hn : Preserves n A C B) : Preserves (m * n) A C B := by
  unfold Preserves at *
  rw [Matrix.transpose_mul, show nᵀ * mᵀ * !![A, B; B, C] * (m * n) = nᵀ * (mᵀ * !![A, B; B, C] * m) * n by simp only [Matrix.mul_assoc], hm, hn]

theorem Preserves.inv {m : GL (Fin 2) K} {A C B : K} (hm : Preserves (m : Matrix (Fin 2) (Fin 2) K) A C B) : Preserves ((m⁻¹ : GL (Fin 2) K) : Matrix (Fin 2) (Fin 2) K) A C B := by
  unfold Preserves at *
  set M : Matrix (Fin 2) (Fin 2) K := (m : Matrix (Fin 2) (Fin 2) K) with hM
  set N : Matrix (Fin 2) (Fin 2) K := ((m⁻¹ : GL (Fin 2) K) : Matrix (Fin 2) (Fin 2) K) with hN
  have h1 : M * N = 1 := by rw [hM, hN, ← Units.val_mul, mul_inv_cancel]; rfl
  have h2 : Nᵀ * Mᵀ = 1 := by rw [← Matrix.transpose_mul, h1, Matrix.transpose_one]
  calc Nᵀ * !![A, B; B, C] * N = Nᵀ * (Mᵀ * !![A, B; B, C] * M) * N := by rw [hm]
    _ = (Nᵀ * Mᵀ) * !![A, B; B, C] * (M * N) := by simp only [Matrix.mul_assoc]
    _ = _ := by rw [h1, h2, Matrix.one_mul, Matrix.mul_one]

theorem Preserves.one (A C B : K) : Preserves 1 A C B := by
  unfold Preserves
  rw [Matrix.transpose_one, Matrix.one_mul, Matrix.mul_one]

/-- A form that is preserved by the generators is preserved by the group. -/
theorem preserves_gen {gens : List (GL (Fin 2) K)} {A C B : K} (h : ∀ g ∈ gens, Preserves (g : Matrix (Fin 2) (Fin 2) K) A C B) {x : GL (Fin 2) K} (hx : x ∈ gen gens) :
    Preserves (x : Matrix (Fin 2) (Fin 2) K) A C B := by
  unfold gen at hx
  induction hx using Subgroup.closure_induction with
  | mem x hx => exact h x hx
  | one => exact Preserves.one A C B
  | mul x y _ _ hx hy => rw [Units.val_mul]; exact hx.mul hy
  | inv x _ hx => exact hx.inv

/-- A finite group preserves a definite form: the average of a definite form. -/
theorem exists_form {gens : List (GL (Fin 2) K)} (hfin : (gen gens : Set (GL (Fin 2) K)).Finite) :
    ∃ A C B : K, 0 < A ∧ 0 < C ∧ B ^ 2 < A * C ∧ ∀ x ∈ gen gens, Preserves (x : Matrix (Fin 2) (Fin 2) K) A C B := by
  classical
  have : Finite (gen gens) := hfin.to_subtype
  have := Fintype.ofFinite (gen gens)
  let m : gen gens → Matrix (Fin 2) (Fin 2) K := fun g => ((g : GL (Fin 2) K) : Matrix (Fin 2) (Fin 2) K)
  let Q : Matrix (Fin 2) (Fin 2) K := ∑ g : gen gens, (m g)ᵀ * m g
  have hA : Q 0 0 = ∑ g : gen gens, (m g 0 0 ^ 2 + m g 1 0 ^ 2) := by
    simp only [Q, Matrix.sum_apply, Matrix.mul_apply, Fin.sum_univ_two, Matrix.transpose_apply]
    exact Finset.sum_congr rfl (fun g _ => by ring)
  have hC : Q 1 1 = ∑ g : gen gens, (m g 0 1 ^ 2 + m g 1 1 ^ 2) := by
    simp only [Q, Matrix.sum_apply, Matrix.mul_apply, Fin.sum_univ_two, Matrix.transpose_apply]
    exact Finset.sum_congr rfl (fun g _ => by ring)
  have hB : Q 0 1 = ∑ g : gen gens, (m g 0 0 * m g 0 1 + m g 1 0 * m g 1 1) := by
    simp only [Q, Matrix.sum_apply, Matrix.mul_apply, Fin.sum_univ_two, Matrix.transpose_apply]
  have hB' : Q 1 0 = Q 0 1 := by
    rw [hB]
    simp only [Q, Matrix.sum_apply, Matrix.mul_apply, Fin.sum_univ_two, Matrix.transpose_apply]
    exact Finset.sum_congr rfl (fun g _ => by ring)
  have hQ : Q = !![Q 0 0, Q 0 1; Q 0 1, Q 1 1] := by
    ext i j
    fin_cases i <;> fin_cases j <;> simp [hB']
  have hinv : ∀ x ∈ gen gens, Preserves (x : Matrix (Fin 2) (Fin 2) K) (Q 0 0) (Q 1 1) (Q 0 1) := by
    intro x hx
    unfold Preserves
    rw [← hQ]
    have h1 : (x : Matrix (Fin 2) (Fin 2) K)ᵀ * Q * (x : Matrix (Fin 2) (Fin 2) K) = ∑ g : gen gens, (m (g * ⟨x, hx⟩))ᵀ * m (g * ⟨x, hx⟩) := by
      simp only [Q, Matrix.mul_sum, Matrix.sum_mul]
      refine Finset.sum_congr rfl (fun g _ => ?_)
      have : m (g * ⟨x, hx⟩) = m g * (x : Matrix (Fin 2) (Fin 2) K) := rfl
      rw [this, Matrix.transpose_mul]
      simp only [Matrix.mul_assoc]
    rw [h1]
    exact Equiv.sum_comp (Equiv.mulRight (⟨x, hx⟩ : gen gens)) (fun g => (m g)ᵀ * m g)
  -- the values of the form
  have hval : ∀ x y : K, Q 0 0 * x ^ 2 + 2 * Q 0 1 * x * y + Q 1 1 * y ^ 2 = ∑ g : gen gens, ((m g 0 0 * x + m g 0 1 * y) ^ 2 + (m g 1 0 * x + m g 1 1 * y) ^ 2) := by
    intro x y
    rw [hA, hB, hC, Finset.sum_mul, Finset.mul_sum, Finset.sum_mul, Finset.sum_mul, Finset.sum_mul, ← Finset.sum_add_distrib, ← Finset.sum_add_distrib]
    exact Finset.sum_congr rfl (fun g _ => by ring)
  have hpos : ∀ x y : K, x ≠ 0 ∨ y ≠ 0 → 0 < Q 0 0 * x ^ 2 + 2 * Q 0 1 * x * y + Q 1 1 * y ^ 2 := by
    intro x y hxy
    rw [hval]
    refine Finset.sum_pos' (fun g _ => by positivity) ⟨1, Finset.mem_univ _, ?_⟩
    have h1 : m 1 = 1 := rfl
    rw [h1]
    simp only [Matrix.one_apply_eq, one_mul, ne_eq, zero_ne_one, not_false_eq_true, Matrix.one_apply_ne, zero_mul, add_zero, one_ne_zero, zero_add]
    rcases hxy with h | h
    · have := sq_pos_of_ne_zero h; positivity
    · have := sq_pos_of_ne_zero h; positivity
  have hA0 : 0 < Q 0 0 := by have := hpos 1 0 (by simp); simpa using this
  have hC0 : 0 < Q 1 1 := by have := hpos 0 1 (by simp); simpa using this
  refine ⟨Q 0 0, Q 1 1, Q 0 1, hA0, hC0, ?_, hinv⟩
  have h1 := hpos (-Q 0 1) (Q 0 0) (.inr hA0.ne')
  have h2 : 0 < Q 0 0 * (Q 0 0 * Q 1 1 - Q 0 1 ^ 2) := by linarith [h1, show Q 0 0 * (-Q 0 1) ^ 2 + 2 * Q 0 1 * -Q 0 1 * Q 0 0 + Q 1 1 * Q 0 0 ^ 2 = Q 0 0 * (Q 0 0 * Q 1 1 - Q 0 1 ^ 2) by ring]
  have h3 := (mul_pos_iff_of_pos_left hA0).1 h2
  linarith

/-- A matrix that preserves a definite form passes the tests for the generators. -/
theorem not_bad {m : Matrix (Fin 2) (Fin 2) K} (hs : m.det = 1 ∨ m.det = -1) {A C B : K} (hdef : B ^ 2 < A * C) (h : Preserves m A C B) : badGenerator m = false ∧
    (m.det = -1 → m.trace = 0) := by
  obtain ⟨h1, h2, h3, h4⟩ := (mem_invariantForms hs).2 h
  dsimp only at h1 h2 h3 h4
  have hA : A ≠ 0 := by
    rintro rfl
    nlinarith [sq_nonneg B]
  have htr := Matrix.trace_fin_two m
  have hd := Matrix.det_fin_two m
  rcases hs with hs | hs
  · rw [hs] at h1 h2 h3 h4 hd
    have e1 : (m 0 0 - m 1 1) * A = -2 * m 1 0 * B := by linear_combination h1
    have e2 : m 0 1 * A = - m 1 0 * C := by linear_combination h2
    have key : (4 - m.trace ^ 2) * A ^ 2 = 4 * m 1 0 ^ 2 * (A * C - B ^ 2) := by
      rw [htr]
      linear_combination 4 * A ^ 2 * hd - ((m 0 0 - m 1 1) * A - 2 * m 1 0 * B) * e1 - 4 * m 1 0 * A * e2
    have hAsq : 0 < A ^ 2 := by positivity
    have hnn : 0 ≤ (4 - m.trace ^ 2) * A ^ 2 := by
      rw [key]
      have : 0 ≤ A * C - B ^ 2 := by linarith
      positivity
    have h5 : 0 ≤ 4 - m.trace ^ 2 := nonneg_of_mul_nonneg_left hnn hAsq
    refine ⟨?_, fun h => by rw [hs] at h; norm_num at h⟩
    unfold badGenerator
    rw [decide_eq_false_iff_not]
    rintro (h6 | h6 | ⟨h6, h7⟩)
    · exact h6.1 hs
    · have h8 : 2 ^ 2 < |m.trace| ^ 2 := pow_lt_pow_left₀ h6 (by norm_num) (by norm_num)
      rw [sq_abs] at h8
      linarith
    · have h8 : m.trace ^ 2 = 4 := by rw [← sq_abs, h6]; norm_num
      rw [h8] at key
      have h9 : m 1 0 ^ 2 * (A * C - B ^ 2) = 0 := by linarith
      rcases mul_eq_zero.1 h9 with h10 | h10
      · have h11 : m 1 0 = 0 := by simpa using h10
        rcases h7 with h7 | h7
        · rw [h11] at e2
          have : m 0 1 * A = 0 := by rw [e2]; ring
          exact (mul_ne_zero h7 hA) this
        · exact h7 h11
      · linarith
  · rw [hs] at h1
    have e1 : (m 0 0 + m 1 1) * A = 0 := by linear_combination h1
    have e2 : m.trace = 0 := by
      rw [htr]
      exact (mul_eq_zero.1 e1).resolve_right hA
    refine ⟨?_, fun _ => e2⟩
    unfold badGenerator
    rw [decide_eq_false_iff_not]
    rintro (h6 | h6 | ⟨h6, h7⟩)
    · exact h6.2 hs
    · rw [e2] at h6; norm_num at h6
    · rw [e2] at h6; norm_num at h6

/-- The vectors that Sage returns as a basis of a vector space are a basis of it. -/
def IsBasis (basis : Submodule K (K × K × K) → List (K × K × K)) : Prop :=
  ∀ V, Submodule.span K {v | v ∈ basis V} = V ∧ LinearIndependent K (fun i : Fin (basis V).length => (basis V)[i])

theorem containsDefiniteForm_of_mem {bs : List (K × K × K)} {v : K × K × K} (hv : v ∈ Submodule.span K {v | v ∈ bs}) (hdef : v.2.2 ^ 2 < v.1 * v.2.1) :
    containsDefiniteForm bs = true := by
  match bs with
  | [] =>
    have : v = 0 := by simpa using hv
    rw [this] at hdef
    simp at hdef
  | [u] =>
    have h1 : ({v | v ∈ [u]} : Set (K × K × K)) = {u} := by ext; simp
    rw [h1, Submodule.mem_span_singleton] at hv
    obtain ⟨t, rfl⟩ := hv
    simp only [Prod.smul_fst, Prod.smul_snd, smul_eq_mul] at hdef
    simp only [containsDefiniteForm, decide_eq_true_eq]
    by_contra hcon
    push Not at hcon
    have : 0 ≤ t ^ 2 * (u.2.2 ^ 2 - u.1 * u.2.1) := mul_nonneg (sq_nonneg t) (by linarith)
    nlinarith
  | [u, w] =>
    have h1 : ({v | v ∈ [u, w]} : Set (K × K × K)) = {u, w} := by ext; simp
    rw [h1, Submodule.mem_span_pair] at hv
    obtain ⟨x, y, rfl⟩ := hv
    simp only [Prod.smul_fst, Prod.smul_snd, smul_eq_mul, Prod.fst_add, Prod.snd_add] at hdef
    simp only [containsDefiniteForm]
    by_cases h2 : u.2.2 ^ 2 < u.1 * u.2.1 ∨ w.2.2 ^ 2 < w.1 * w.2.1
    · rw [if_pos h2]
    · rw [if_neg h2, decide_eq_true_eq]
      push Not at h2
      obtain ⟨h3, h4⟩ := h2
      by_contra hcon
      push Not at hcon
      set D1 := u.2.2 ^ 2 - u.1 * u.2.1 with hD1
      set D2 := w.2.2 ^ 2 - w.1 * w.2.1 with hD2
      set E := 2 * u.2.2 * w.2.2 - w.1 * u.2.1 - u.1 * w.2.1 with hE
      have hval : x ^ 2 * D1 + x * y * E + y ^ 2 * D2 < 0 := by
        have : x ^ 2 * D1 + x * y * E + y ^ 2 * D2 = (x * u.2.2 + y * w.2.2) ^ 2 - (x * u.1 + y * w.1) * (x * u.2.1 + y * w.2.1) := by
          rw [hD1, hD2, hE]; ring
        rw [this]
        linarith
      have hD1n : 0 ≤ D1 := by rw [hD1]; linarith
      have hD2n : 0 ≤ D2 := by rw [hD2]; linarith
      rcases hD1n.eq_or_lt with h5 | h5
      · rw [← h5] at hcon hval
        have hE0 : E = 0 := by
          have : E ^ 2 ≤ 0 := by linarith
          exact pow_eq_zero_iff (by norm_num) |>.1 (le_antisymm this (sq_nonneg E))
        rw [hE0] at hval
        have := mul_nonneg (sq_nonneg y) hD2n
        linarith
      · have h6 : 0 ≤ 4 * D1 * (x ^ 2 * D1 + x * y * E + y ^ 2 * D2) := by
          have h7 : 4 * D1 * (x ^ 2 * D1 + x * y * E + y ^ 2 * D2) = (2 * x * D1 + y * E) ^ 2 + y ^ 2 * (4 * D1 * D2 - E ^ 2) := by ring
          rw [h7]
          have h8 : 0 ≤ 4 * D1 * D2 - E ^ 2 := by linarith
          positivity
        have h9 : 4 * D1 * (x ^ 2 * D1 + x * y * E + y ^ 2 * D2) < 0 := mul_neg_of_pos_of_neg (by linarith) hval
        linarith
  | _ :: _ :: _ :: _ => rfl

theorem intersectLoop_true {basis : Submodule K (K × K × K) → List (K × K × K)} (hb : IsBasis basis) {v : K × K × K} (hdef : v.2.2 ^ 2 < v.1 * v.2.1)
    (gens : List (Matrix (Fin 2) (Fin 2) K)) (V : Submodule K (K × K × K)) (hV : v ∈ V) (h : ∀ g ∈ gens, v ∈ invariantForms g) : intersectLoop basis V gens = true := by
  induction gens generalizing V with
  | nil => rfl
  | cons g gens ih =>
    unfold intersectLoop
    have h1 : v ∈ V ⊓ invariantForms g := ⟨hV, h g (by simp)⟩
    rw [if_pos, ih _ h1 (fun g' hg' => h g' (by simp [hg']))]
    refine containsDefiniteForm_of_mem (v := v) ?_ hdef
    rw [(hb _).1]
    exact h1

theorem Preserves.det {m : Matrix (Fin 2) (Fin 2) K} {A C B : K} (hdef : B ^ 2 < A * C) (h : Preserves m A C B) : m.det = 1 ∨ m.det = -1 := by
  unfold Preserves at h
  have h1 := congrArg Matrix.det h
  rw [Matrix.det_mul, Matrix.det_mul, Matrix.det_transpose, Matrix.det_fin_two_of] at h1
  have h2 : A * C - B * B ≠ 0 := by nlinarith
  have h3 : (m.det - 1) * (m.det + 1) = 0 := by
    apply mul_right_cancel₀ h2
    linear_combination h1
  rcases mul_eq_zero.1 h3 with h4 | h4
  · left; linear_combination h4
  · right; linear_combination h4

theorem isFinite_true {basis : Submodule K (K × K × K) → List (K × K × K)} (hb : IsBasis basis) {gens : List (GL (Fin 2) K)} {A C B : K} (hdef : B ^ 2 < A * C)
    (hgood : ∀ g ∈ gens, Preserves (g : Matrix (Fin 2) (Fin 2) K) A C B) : isFinite basis (gens.map (fun g : GL (Fin 2) K => (g : Matrix (Fin 2) (Fin 2) K))) = true := by
  unfold isFinite
  rw [if_neg]
  · dsimp only
    split_ifs with h1
    · rfl
    rw [intersectLoop_true hb (v := (A, C, B)) hdef]
    · trivial
    · intro m hm
      obtain ⟨g, hg, rfl⟩ := List.mem_map.1 (List.mem_filter.1 hm).1
      exact (mem_invariantForms ((hgood g hg).det hdef)).2 (hgood g hg)
  · rw [List.any_eq_true]
    rintro ⟨m, hm, hbad⟩
    obtain ⟨g, hg, rfl⟩ := List.mem_map.1 hm
    rw [(not_bad ((hgood g hg).det hdef) hdef (hgood g hg)).1] at hbad
    cases hbad

/-- **C42**. If `is_finite()` is `False` then the group is infinite. -/
theorem C42_is_finite_false {basis : Submodule K (K × K × K) → List (K × K × K)} (hb : IsBasis basis) (gens : List (GL (Fin 2) K))
    (h : isFinite basis (gens.map (fun g : GL (Fin 2) K => (g : Matrix (Fin 2) (Fin 2) K))) = false) : (gen gens : Set (GL (Fin 2) K)).Infinite := by
  intro hfin
  obtain ⟨A, C, B, -, -, hdef, hinv⟩ := exists_form hfin
  have hgood : ∀ g ∈ gens, Preserves (g : Matrix (Fin 2) (Fin 2) K) A C B := fun g hg => hinv g (Subgroup.subset_closure hg)
  rw [isFinite_true hb hdef hgood] at h
  cases h

theorem mem_of_containsDefiniteForm {V : Submodule K (K × K × K)} {bs : List (K × K × K)} (hspan : Submodule.span K {v | v ∈ bs} = V)
    (hind : LinearIndependent K (fun i : Fin bs.length => bs[i])) (h : containsDefiniteForm bs = true) : ∃ v ∈ V, v.2.2 ^ 2 < v.1 * v.2.1 := by
  have hmem : ∀ u ∈ bs, u ∈ V := fun u hu => by rw [← hspan]; exact Submodule.subset_span hu
  match bs with
  | [] => simp [containsDefiniteForm] at h
  | [u] =>
    simp only [containsDefiniteForm, decide_eq_true_eq] at h
    exact ⟨u, hmem u (by simp), h⟩
  | [u, w] =>
    simp only [containsDefiniteForm] at h
    by_cases h2 : u.2.2 ^ 2 < u.1 * u.2.1 ∨ w.2.2 ^ 2 < w.1 * w.2.1
    · rcases h2 with h2 | h2
      · exact ⟨u, hmem u (by simp), h2⟩
      · exact ⟨w, hmem w (by simp), h2⟩
    · rw [if_neg h2, decide_eq_true_eq] at h
      push Not at h2
      obtain ⟨h3, h4⟩ := h2
      have key : ∀ x y : K, (x * u.2.2 + y * w.2.2) ^ 2 - (x * u.1 + y * w.1) * (x * u.2.1 + y * w.2.1) =
          x ^ 2 * (u.2.2 ^ 2 - u.1 * u.2.1) + x * y * (2 * u.2.2 * w.2.2 - w.1 * u.2.1 - u.1 * w.2.1) + y ^ 2 * (w.2.2 ^ 2 - w.1 * w.2.1) := by
        intro x y; ring
      set D1 := u.2.2 ^ 2 - u.1 * u.2.1 with hD1
      set D2 := w.2.2 ^ 2 - w.1 * w.2.1 with hD2
      set E := 2 * u.2.2 * w.2.2 - w.1 * u.2.1 - u.1 * w.2.1 with hE
      have hex : ∃ x y : K, x ^ 2 * D1 + x * y * E + y ^ 2 * D2 < 0 := by
        have hD1n : 0 ≤ D1 := by rw [hD1]; linarith
        rcases hD1n.eq_or_lt with h5 | h5
        · rw [← h5] at h ⊢
          have hE0 : E ≠ 0 := by
            intro hE0
            rw [hE0] at h
            norm_num at h
          refine ⟨-(D2 + 1) / E, 1, ?_⟩
          have : (-(D2 + 1) / E) ^ 2 * 0 + -(D2 + 1) / E * 1 * E + 1 ^ 2 * D2 = -1 := by field_simp; ring
          rw [this]
          norm_num
        · refine ⟨-E, 2 * D1, ?_⟩
          have : (-E) ^ 2 * D1 + -E * (2 * D1) * E + (2 * D1) ^ 2 * D2 = D1 * -(E ^ 2 - 4 * D1 * D2) := by ring
          rw [this]
          exact mul_neg_of_pos_of_neg h5 (by linarith)
      obtain ⟨x, y, hxy⟩ := hex
      refine ⟨x • u + y • w, V.add_mem (V.smul_mem _ (hmem u (by simp))) (V.smul_mem _ (hmem w (by simp))), ?_⟩
      simp only [Prod.smul_fst, Prod.smul_snd, smul_eq_mul, Prod.fst_add, Prod.snd_add]
      have := key x y
      linarith
  | u :: v :: w :: rest =>
    have hfr : Module.finrank K (K × K × K) = 3 := by simp
    have h1 : V = ⊤ := by
      apply Submodule.eq_top_of_finrank_eq
      apply le_antisymm (Submodule.finrank_le V)
      rw [hfr]
      have h2 : (Set.range (fun i : Fin (u :: v :: w :: rest).length => (u :: v :: w :: rest)[i])) = {x | x ∈ u :: v :: w :: rest} := by
        ext x
        simp only [Set.mem_range, Set.mem_setOf_eq]
        constructor
        · rintro ⟨i, rfl⟩
          exact List.getElem_mem _
        · intro hx
          obtain ⟨i, hi, rfl⟩ := List.getElem_of_mem hx
          exact ⟨⟨i, hi⟩, rfl⟩
      have h3 := finrank_span_eq_card hind
      rw [h2, hspan] at h3
      rw [h3, Fintype.card_fin]
      simp
    exact ⟨(1, 1, 0), by rw [h1]; trivial, by norm_num⟩

theorem exists_of_intersectLoop {basis : Submodule K (K × K × K) → List (K × K × K)} (hb : IsBasis basis) (gens : List (Matrix (Fin 2) (Fin 2) K)) (V : Submodule K (K × K × K))
    (hV : ∃ v ∈ V, v.2.2 ^ 2 < v.1 * v.2.1) (h : intersectLoop basis V gens = true) :
    ∃ v : K × K × K, v ∈ V ∧ v.2.2 ^ 2 < v.1 * v.2.1 ∧ ∀ g ∈ gens, v ∈ invariantForms g := by
  induction gens generalizing V with
  | nil =>
    obtain ⟨v, h1, h2⟩ := hV
    exact ⟨v, h1, h2, by simp⟩
  | cons g gens ih =>
    unfold intersectLoop at h
    split_ifs at h with h1
    obtain ⟨v, h2, h3, h4⟩ := ih _ (mem_of_containsDefiniteForm (hb _).1 (hb _).2 h1) h
    refine ⟨v, h2.1, h3, ?_⟩
    intro g' hg'
    rcases List.mem_cons.1 hg' with rfl | hg'
    · exact h2.2
    · exact h4 g' hg'

/-- A single matrix that passes the test preserves a definite form. -/
theorem exists_form_single {m : Matrix (Fin 2) (Fin 2) K} (hbad : badGenerator m = false) (htr : m.det = -1 → m.trace = 0) (hns : isScalar m = false) :
    ∃ A C B : K, B ^ 2 < A * C ∧ Preserves m A C B := by
  unfold badGenerator at hbad
  rw [decide_eq_false_iff_not] at hbad
  push Not at hbad
  obtain ⟨h1, h2, h3⟩ := hbad
  have ht := Matrix.trace_fin_two m
  have hd := Matrix.det_fin_two m
  by_cases hdet : m.det = -1
  · have h0 := htr hdet
    rw [ht] at h0
    rw [hdet] at hd
    refine ⟨1 + m 0 0 ^ 2 + m 1 0 ^ 2, 1 + m 0 1 ^ 2 + m 1 1 ^ 2, m 0 0 * m 0 1 + m 1 0 * m 1 1, ?_, ?_⟩
    · have : (1 + m 0 0 ^ 2 + m 1 0 ^ 2) * (1 + m 0 1 ^ 2 + m 1 1 ^ 2) - (m 0 0 * m 0 1 + m 1 0 * m 1 1) ^ 2 =
          1 + m 0 0 ^ 2 + m 1 0 ^ 2 + m 0 1 ^ 2 + m 1 1 ^ 2 + (m 0 0 * m 1 1 - m 0 1 * m 1 0) ^ 2 := by ring
      have h5 : 0 < 1 + m 0 0 ^ 2 + m 1 0 ^ 2 + m 0 1 ^ 2 + m 1 1 ^ 2 + (m 0 0 * m 1 1 - m 0 1 * m 1 0) ^ 2 := by positivity
      linarith
    · rw [preserves_iff]
      have h5 : m 1 1 = - m 0 0 := by linarith
      rw [h5] at hd ⊢
      generalize m 0 0 = a at *
      generalize m 0 1 = b at *
      generalize m 1 0 = c at *
      have h6 : b * c = 1 - a ^ 2 := by linarith
      refine ⟨?_, ?_, ?_⟩
      · linear_combination (a ^ 2 + b * c + 1) * h6
      · ring
      · linear_combination (a ^ 2 + b * c + 1) * h6
  · have hdet1 : m.det = 1 := by
      by_contra hne
      exact hdet (h1 hne)
    rw [hdet1] at hd
    have hlt : |m.trace| < 2 := by
      rcases h2.lt_or_eq with h | h
      · exact h
      · exfalso
        obtain ⟨hb0, hc0⟩ := h3 h
        rw [hb0, hc0] at hd
        have hsq : m.trace ^ 2 = 4 := by rw [← sq_abs, h]; norm_num
        rw [ht] at hsq
        have : (m 0 0 - m 1 1) ^ 2 = 0 := by linear_combination hsq + 4 * hd
        have h5 : m 0 0 = m 1 1 := by
          have := pow_eq_zero_iff (by norm_num) |>.1 this
          linarith
        have : isScalar m = true := by
          unfold isScalar
          rw [decide_eq_true_eq]
          exact ⟨hb0, hc0, h5⟩
        rw [this] at hns
        cases hns
    have hsq : m.trace ^ 2 < 4 := by
      have h5 : |m.trace| ^ 2 < 2 ^ 2 := pow_lt_pow_left₀ hlt (abs_nonneg _) (by norm_num)
      rw [sq_abs] at h5
      linarith
    rw [ht] at hsq
    refine ⟨m 1 0, - m 0 1, (m 1 1 - m 0 0) / 2, ?_, ?_⟩
    · have : ((m 1 1 - m 0 0) / 2) ^ 2 - m 1 0 * - m 0 1 = ((m 0 0 + m 1 1) ^ 2 - 4) / 4 := by linear_combination hd
      linarith
    · rw [preserves_iff]
      generalize m 0 0 = a at *
      generalize m 0 1 = b at *
      generalize m 1 0 = c at *
      generalize m 1 1 = d at *
      refine ⟨?_, ?_, ?_⟩
      · linear_combination -c * hd
      · linear_combination -((d - a) / 2) * hd
      · linear_combination b * hd

/-- A scalar matrix that passes the test preserves every form. -/
theorem preserves_scalar {m : Matrix (Fin 2) (Fin 2) K} (hbad : badGenerator m = false) (hs : isScalar m = true) (A C B : K) : Preserves m A C B := by
  unfold badGenerator at hbad
  rw [decide_eq_false_iff_not] at hbad
  push Not at hbad
  obtain ⟨h1, h2, h3⟩ := hbad
  unfold isScalar at hs
  rw [decide_eq_true_eq] at hs
  obtain ⟨hb, hc, hd⟩ := hs
  have hdet := Matrix.det_fin_two m
  rw [hb, hc, ← hd] at hdet
  have hdet1 : m.det = 1 := by
    by_contra hne
    have := h1 hne
    nlinarith [mul_self_nonneg (m 0 0)]
  rw [hdet1] at hdet
  rw [preserves_iff, hb, hc, ← hd]
  refine ⟨?_, ?_, ?_⟩
  · linear_combination -A * hdet
  · linear_combination -B * hdet
  · linear_combination -C * hdet

/-- **C42**. Up to generators that reverse the orientation and are not involutions: `is_finite()` is `True` exactly for the groups that preserve a definite quadratic form, i.e., that are conjugate to a group of isometries. -/
theorem C42_is_finite_form_partial {basis : Submodule K (K × K × K) → List (K × K × K)} (hb : IsBasis basis) (gens : List (GL (Fin 2) K))
    (htr : ∀ g ∈ gens, (g : Matrix (Fin 2) (Fin 2) K).det = -1 → (g : Matrix (Fin 2) (Fin 2) K).trace = 0) :
    isFinite basis (gens.map (fun g : GL (Fin 2) K => (g : Matrix (Fin 2) (Fin 2) K))) = true ↔
      ∃ A C B : K, B ^ 2 < A * C ∧ ∀ x ∈ gen gens, Preserves (x : Matrix (Fin 2) (Fin 2) K) A C B := by
  constructor
  · intro h
    suffices h' : ∃ A C B : K, B ^ 2 < A * C ∧ ∀ g ∈ gens, isScalar (g : Matrix (Fin 2) (Fin 2) K) = false → Preserves (g : Matrix (Fin 2) (Fin 2) K) A C B by
      obtain ⟨A, C, B, hdef, hp⟩ := h'
      refine ⟨A, C, B, hdef, fun x hx => preserves_gen (fun g hg => ?_) hx⟩
      cases hsc : isScalar (g : Matrix (Fin 2) (Fin 2) K) with
      | false => exact hp g hg hsc
      | true =>
        refine preserves_scalar ?_ hsc A C B
        unfold isFinite at h
        split_ifs at h with h1
        all_goals
          rw [List.any_eq_true] at h1
          push Not at h1
          simpa using h1 _ (List.mem_map_of_mem hg)
    have hbad : ∀ g ∈ gens, badGenerator (g : Matrix (Fin 2) (Fin 2) K) = false := by
      intro g hg
      unfold isFinite at h
      split_ifs at h with h1
      all_goals
        rw [List.any_eq_true] at h1
        push Not at h1
        simpa using h1 _ (List.mem_map_of_mem hg)
    have hdet : ∀ g ∈ gens, (g : Matrix (Fin 2) (Fin 2) K).det = 1 ∨ (g : Matrix (Fin 2) (Fin 2) K).det = -1 := by
      intro g hg
      have := hbad g hg
      unfold badGenerator at this
      rw [decide_eq_false_iff_not] at this
      by_contra hcon
      push Not at hcon
      exact this (.inl hcon)
    have hfilt : ∀ g ∈ gens, isScalar (g : Matrix (Fin 2) (Fin 2) K) = false →
        (g : Matrix (Fin 2) (Fin 2) K) ∈ (gens.map (fun g : GL (Fin 2) K => (g : Matrix (Fin 2) (Fin 2) K))).filter (fun g => ¬ isScalar g) := by
      intro g hg hsc
      exact List.mem_filter.2 ⟨List.mem_map_of_mem hg, by simp [hsc]⟩
    have hany : ¬ (gens.map (fun g : GL (Fin 2) K => (g : Matrix (Fin 2) (Fin 2) K))).any badGenerator = true := by
      rw [List.any_eq_true]
      rintro ⟨m, hm, hmb⟩
      obtain ⟨g, hg, rfl⟩ := List.mem_map.1 hm
      rw [hbad g hg] at hmb
      cases hmb
    unfold isFinite at h
    rw [if_neg hany] at h
    dsimp only at h
    split_ifs at h with h1
    · match hl : (gens.map (fun g : GL (Fin 2) K => (g : Matrix (Fin 2) (Fin 2) K))).filter (fun g => ¬ isScalar g) with
      | [] =>
        refine ⟨1, 1, 0, by norm_num, fun g hg hsc => ?_⟩
        have := hfilt g hg hsc
        rw [hl] at this
        cases this
      | [m] =>
        have hm : m ∈ (gens.map (fun g : GL (Fin 2) K => (g : Matrix (Fin 2) (Fin 2) K))).filter (fun g => ¬ isScalar g) := by rw [hl]; simp
        obtain ⟨hm1, hm2⟩ := List.mem_filter.1 hm
        obtain ⟨g0, hg0, rfl⟩ := List.mem_map.1 hm1
        obtain ⟨A, C, B, hdef, hp⟩ := exists_form_single (hbad g0 hg0) (htr g0 hg0) (by simpa using hm2)
        refine ⟨A, C, B, hdef, fun g hg hsc => ?_⟩
        have := hfilt g hg hsc
        rw [hl, List.mem_singleton] at this
        rw [this]
        exact hp
      | _ :: _ :: _ => rw [hl] at h1; simp at h1
    · obtain ⟨v, -, h2, h3⟩ := exists_of_intersectLoop hb _ ⊤ ⟨(1, 1, 0), trivial, by norm_num⟩ h
      exact ⟨v.1, v.2.1, v.2.2, h2, fun g hg hsc => (mem_invariantForms (hdet g hg)).1 (h3 _ (hfilt g hg hsc))⟩
  · rintro ⟨A, C, B, hdef, hp⟩
    have hgood : ∀ g ∈ gens, Preserves (g : Matrix (Fin 2) (Fin 2) K) A C B := fun g hg => hp g (Subgroup.subset_closure hg)
    exact isFinite_true hb hdef hgood

/-- The entries of a matrix that preserves a definite form are bounded. -/
theorem Preserves.bounded {m : Matrix (Fin 2) (Fin 2) K} {A C B : K} (hdef : B ^ 2 < A * C) (h : Preserves m A C B) (i j : Fin 2) :
    (m i j) ^ 2 * (A * C - B ^ 2) ≤ (A ^ 2 + C ^ 2 + A * C) := by
  obtain ⟨h1, h2, h3⟩ := preserves_iff.1 h
  have e1 : (A * C - B ^ 2) * m 1 0 ^ 2 + (A * m 0 0 + B * m 1 0) ^ 2 = A ^ 2 := by linear_combination A * h1
  have e2 : (A * C - B ^ 2) * m 0 0 ^ 2 + (B * m 0 0 + C * m 1 0) ^ 2 = A * C := by linear_combination C * h1
  have e3 : (A * C - B ^ 2) * m 1 1 ^ 2 + (A * m 0 1 + B * m 1 1) ^ 2 = A * C := by linear_combination A * h3
  have e4 : (A * C - B ^ 2) * m 0 1 ^ 2 + (B * m 0 1 + C * m 1 1) ^ 2 = C ^ 2 := by linear_combination C * h3
  have hAC : 0 ≤ A * C := by nlinarith [sq_nonneg B]
  have hA := sq_nonneg A
  have hC := sq_nonneg C
  fin_cases i <;> fin_cases j
  · show m 0 0 ^ 2 * _ ≤ _
    linarith [sq_nonneg (B * m 0 0 + C * m 1 0)]
  · show m 0 1 ^ 2 * _ ≤ _
    linarith [sq_nonneg (B * m 0 1 + C * m 1 1)]
  · show m 1 0 ^ 2 * _ ≤ _
    linarith [sq_nonneg (A * m 0 0 + B * m 1 0)]
  · show m 1 1 ^ 2 * _ ≤ _
    linarith [sq_nonneg (A * m 0 1 + B * m 1 1)]

/-- The integral matrices as rational matrices. -/
noncomputable abbrev overQ : GL (Fin 2) ℤ →* GL (Fin 2) ℚ := Matrix.GeneralLinearGroup.map (Int.castRingHom ℚ)

theorem overQ_apply (g : GL (Fin 2) ℤ) (i j : Fin 2) : (overQ g : Matrix (Fin 2) (Fin 2) ℚ) i j = ((g : Matrix (Fin 2) (Fin 2) ℤ) i j : ℚ) := rfl

theorem overQ_injective : Function.Injective overQ := by
  intro g g' h
  ext i j
  have h1 := overQ_apply g i j
  rw [h, overQ_apply] at h1
  exact_mod_cast h1.symm

/-- **C42**. For integral matrices (up to generators that reverse the orientation and are not involutions), `is_finite()` is right. -/
theorem C42_is_finite_integral_partial {basis : Submodule ℚ (ℚ × ℚ × ℚ) → List (ℚ × ℚ × ℚ)} (hb : IsBasis basis) (gens : List (GL (Fin 2) ℤ))
    (htr : ∀ g ∈ gens, (g : Matrix (Fin 2) (Fin 2) ℤ).det = -1 → (g : Matrix (Fin 2) (Fin 2) ℤ).trace = 0) :
    isFinite basis (gens.map (fun g : GL (Fin 2) ℤ => (overQ g : Matrix (Fin 2) (Fin 2) ℚ))) = true ↔ (gen gens : Set (GL (Fin 2) ℤ)).Finite := by
  have hmap : gens.map (fun g : GL (Fin 2) ℤ => (overQ g : Matrix (Fin 2) (Fin 2) ℚ)) = (gens.map overQ).map (fun g : GL (Fin 2) ℚ => (g : Matrix (Fin 2) (Fin 2) ℚ)) := by
    rw [List.map_map]; rfl
  have hgen : gen (gens.map overQ) = (gen gens).map overQ := by
    unfold gen
    rw [MonoidHom.map_closure]
    congr 1
    ext x
    simp only [Set.mem_setOf_eq, List.mem_map, Set.mem_image]
  rw [hmap]
  constructor
  · intro h
    rw [C42_is_finite_form_partial hb] at h
    · obtain ⟨A, C, B, hdef, hp⟩ := h
      obtain ⟨N, hN⟩ := exists_nat_gt ((A ^ 2 + C ^ 2 + A * C) / (A * C - B ^ 2))
      have hpos : 0 < A * C - B ^ 2 := by linarith
      have hbound : ∀ g ∈ gen gens, ∀ i j, -(N : ℤ) ≤ (g : Matrix (Fin 2) (Fin 2) ℤ) i j ∧ (g : Matrix (Fin 2) (Fin 2) ℤ) i j ≤ N := by
        intro g hg i j
        have h1 := (hp (overQ g) (by rw [hgen]; exact ⟨g, hg, rfl⟩)).bounded hdef i j
        rw [overQ_apply, ← le_div_iff₀ hpos] at h1
        have h2 : (((g : Matrix (Fin 2) (Fin 2) ℤ) i j : ℤ) : ℚ) ^ 2 < (N : ℚ) := lt_of_le_of_lt h1 hN
        have h3 : ((g : Matrix (Fin 2) (Fin 2) ℤ) i j) ^ 2 < (N : ℤ) := by exact_mod_cast h2
        have hN0 : (0 : ℤ) ≤ N := by positivity
        constructor <;> nlinarith [sq_nonneg ((g : Matrix (Fin 2) (Fin 2) ℤ) i j), sq_nonneg ((g : Matrix (Fin 2) (Fin 2) ℤ) i j + 1), sq_nonneg ((g : Matrix (Fin 2) (Fin 2) ℤ) i j - 1)]
      have hfin : (Set.Icc (fun _ _ => -(N : ℤ)) (fun _ _ => (N : ℤ)) : Set (Fin 2 → Fin 2 → ℤ)).Finite := Set.finite_Icc _ _
      refine Set.Finite.of_finite_image (f := fun g : GL (Fin 2) ℤ => ((g : Matrix (Fin 2) (Fin 2) ℤ) : Fin 2 → Fin 2 → ℤ)) (hfin.subset ?_) ?_
      · rintro _ ⟨g, hg, rfl⟩
        exact ⟨fun i j => (hbound g hg i j).1, fun i j => (hbound g hg i j).2⟩
      · intro g _ g' _ hgg
        exact Units.ext hgg
    · intro g hg
      obtain ⟨g0, hg0, rfl⟩ := List.mem_map.1 hg
      have h1 := htr g0 hg0
      rw [Matrix.det_fin_two, Matrix.trace_fin_two] at h1 ⊢
      simp only [overQ_apply]
      intro h2
      have h3 := h1 (by exact_mod_cast h2)
      exact_mod_cast h3
  · intro h
    by_contra hf
    rw [Bool.not_eq_true] at hf
    refine C42_is_finite_false hb _ hf ?_
    rw [hgen]
    exact h.image overQ

/-- The matrix with rows (1, 1) and (1, 0). -/
def fibonacci : GL (Fin 2) ℚ := ⟨!![1, 1; 1, 0], !![0, 1; 1, -1], by ext i j; fin_cases i <;> fin_cases j <;> simp [Matrix.mul_apply, Fin.sum_univ_two],
  by ext i j; fin_cases i <;> fin_cases j <;> simp [Matrix.mul_apply, Fin.sum_univ_two]⟩

/-- The rotation by the angle of the triangle with sides 3, 4, 5. -/
def rotation345 : GL (Fin 2) ℚ := ⟨!![3/5, -4/5; 4/5, 3/5], !![3/5, 4/5; -4/5, 3/5],
  by ext i j; fin_cases i <;> fin_cases j <;> simp [Matrix.mul_apply, Fin.sum_univ_two] <;> norm_num,
  by ext i j; fin_cases i <;> fin_cases j <;> simp [Matrix.mul_apply, Fin.sum_univ_two] <;> norm_num⟩

/-- **C42**, violation: `is_finite()` is `True` for the infinite group generated by an orientation reversing matrix of infinite order, whatever basis is used. -/
theorem C42_is_finite_violation (basis : Submodule ℚ (ℚ × ℚ × ℚ) → List (ℚ × ℚ × ℚ)) :
    isFinite basis [(fibonacci : Matrix (Fin 2) (Fin 2) ℚ)] = true ∧ (gen [fibonacci] : Set (GL (Fin 2) ℚ)).Infinite := by
  have hdet : (fibonacci : Matrix (Fin 2) (Fin 2) ℚ).det = -1 := by simp [fibonacci, Matrix.det_fin_two]
  have htr : (fibonacci : Matrix (Fin 2) (Fin 2) ℚ).trace = 1 := by simp [fibonacci, Matrix.trace_fin_two]
  constructor
  · unfold isFinite
    rw [if_neg]
    · dsimp only
      rw [if_pos]
      exact (List.length_filter_le _ _).trans (by simp)
    · simp [badGenerator, hdet, htr]
  · intro hfin
    obtain ⟨A, C, B, -, -, hdef, hp⟩ := exists_form hfin
    have := (not_bad (.inr hdet) hdef (hp fibonacci (Subgroup.subset_closure (by simp)))).2 hdet
    rw [htr] at this
    norm_num at this

/-- **C42**, violation: `is_finite()` is `True` for the infinite group generated by a rotation whose angle is not rational, whatever basis is used. -/
theorem C42_is_finite_rotation_violation (basis : Submodule ℚ (ℚ × ℚ × ℚ) → List (ℚ × ℚ × ℚ)) :
    isFinite basis [(rotation345 : Matrix (Fin 2) (Fin 2) ℚ)] = true ∧ (gen [rotation345] : Set (GL (Fin 2) ℚ)).Infinite := by
  have hdet : (rotation345 : Matrix (Fin 2) (Fin 2) ℚ).det = 1 := by simp [rotation345, Matrix.det_fin_two]; norm_num
  have htr : (rotation345 : Matrix (Fin 2) (Fin 2) ℚ).trace = 6 / 5 := by simp [rotation345, Matrix.trace_fin_two]; norm_num
  constructor
  · unfold isFinite
    rw [if_neg]
    · dsimp only
      rw [if_pos]
      exact (List.length_filter_le _ _).trans (by simp)
    · have h1 : |(6 / 5 : ℚ)| = 6 / 5 := abs_of_pos (by norm_num)
      simp [badGenerator, hdet, htr, h1]
      norm_num
  · intro hfin
    have : Finite (gen [rotation345]) := hfin.to_subtype
    have h1 := (gen [rotation345]).subtype.isOfFinOrder (isOfFinOrder_of_finite (⟨rotation345, Subgroup.subset_closure (by simp)⟩ : gen [rotation345]))
    obtain ⟨n, hn, hgn⟩ := isOfFinOrder_iff_pow_eq_one.1 h1
    have hpow : ∀ k : ℕ, ∃ x y : ℤ, x % 5 = 3 ∧ y % 5 = 4 ∧
        ((rotation345 ^ (k + 1) : GL (Fin 2) ℚ) : Matrix (Fin 2) (Fin 2) ℚ) 0 0 = x / 5 ^ (k + 1) ∧
        ((rotation345 ^ (k + 1) : GL (Fin 2) ℚ) : Matrix (Fin 2) (Fin 2) ℚ) 0 1 = -y / 5 ^ (k + 1) := by
      intro k
      induction k with
      | zero => exact ⟨3, 4, by norm_num, by norm_num, by simp [rotation345], by simp [rotation345]⟩
      | succ k ih =>
        obtain ⟨x, y, hx, hy, h2, h3⟩ := ih
        refine ⟨3 * x - 4 * y, 4 * x + 3 * y, by omega, by omega, ?_, ?_⟩
        · rw [pow_succ, Units.val_mul, Matrix.mul_apply, Fin.sum_univ_two, h2, h3]
          simp only [rotation345, Matrix.of_apply, Matrix.cons_val', Matrix.cons_val_zero, Matrix.cons_val_one, Matrix.cons_val_fin_one]
          push_cast
          field_simp
          ring
        · rw [pow_succ, Units.val_mul, Matrix.mul_apply, Fin.sum_univ_two, h2, h3]
          simp only [rotation345, Matrix.of_apply, Matrix.cons_val', Matrix.cons_val_zero, Matrix.cons_val_one, Matrix.cons_val_fin_one]
          push_cast
          field_simp
          ring
    obtain ⟨k, rfl⟩ : ∃ k, n = k + 1 := ⟨n - 1, by omega⟩
    obtain ⟨x, y, hx, -, h2, -⟩ := hpow k
    have h3 : rotation345 ^ (k + 1) = 1 := hgn
    rw [h3] at h2
    have h4 : (1 : ℚ) = x / 5 ^ (k + 1) := by simpa using h2
    rw [eq_div_iff (by positivity), one_mul] at h4
    have h5 : (5 : ℤ) ^ (k + 1) = x := by exact_mod_cast h4
    rw [← h5, pow_succ] at hx
    omega

/-- **C42**. A number returned by `matrix_multiplicative_order` is the order of the matrix, and if it returns infinity then no power of the matrix is the identity. -/
theorem C42_order_partial (g : GL (Fin 2) K) (o : Option ℕ) (h : multiplicativeOrder (g : Matrix (Fin 2) (Fin 2) K) = .ok o) :
    (∀ n, o = some n → orderOf g = n ∧ 0 < n) ∧ (o = none → ∀ n, 0 < n → g ^ n ≠ 1) := by
  unfold multiplicativeOrder at h
  split_ifs at h with h1 h2
  · cases h
    refine ⟨?_, by simp⟩
    rintro _ ⟨⟩
    have : g = 1 := Units.ext h1
    rw [this]
    simp
  · cases h
    refine ⟨by simp, ?_⟩
    rintro - n hn hgn
    have h3 : (g : Matrix (Fin 2) (Fin 2) K).det ^ n = 1 := by
      rw [← Matrix.det_pow, ← Units.val_pow_eq_pow_val, hgn]
      simp
    have h4 : |(g : Matrix (Fin 2) (Fin 2) K).det| ^ n = 1 := by rw [← abs_pow, h3, abs_one]
    have h5 := (pow_eq_one_iff_of_nonneg (abs_nonneg _) hn.ne').1 h4
    rcases eq_or_eq_neg_of_abs_eq h5 with h6 | h6
    · exact h2.1 h6
    · exact h2.2 h6

/-- **C42**, violation: `matrix_multiplicative_order` fails with a `TypeError` for the matrix of order two. -/
theorem C42_order_violation : multiplicativeOrder (-1 : Matrix (Fin 2) (Fin 2) ℚ) = .error .typeError ∧ orderOf (-1 : Matrix (Fin 2) (Fin 2) ℚ) = 2 := by
  constructor
  · decide +kernel
  · rw [orderOf_eq_prime_iff]
    exact ⟨by simp, by decide +kernel⟩

/-- There are bases. -/
theorem exists_isBasis : ∃ basis : Submodule K (K × K × K) → List (K × K × K), IsBasis basis := by
  refine ⟨fun V => List.ofFn (fun i => ((Module.finBasis K V i : V) : K × K × K)), fun V => ⟨?_, ?_⟩⟩
  · have h1 : {v | v ∈ List.ofFn (fun i => ((Module.finBasis K V i : V) : K × K × K))} = V.subtype '' Set.range (Module.finBasis K V) := by
      ext v
      simp [List.mem_ofFn]
    rw [h1, Submodule.span_image, (Module.finBasis K V).span_eq, Submodule.map_top, Submodule.range_subtype]
  · have h1 : LinearIndependent K (fun i => ((Module.finBasis K V i : V) : K × K × K)) := (Module.finBasis K V).linearIndependent.map' V.subtype V.ker_subtype
    have h2 := h1.comp (Fin.cast (List.length_ofFn (f := fun i => ((Module.finBasis K V i : V) : K × K × K)))) (Fin.cast_injective _)
    convert h2 using 1
    ext i <;> simp [Fin.cast]

/-- The quarter turn. -/
def quarterTurn : GL (Fin 2) ℤ := ⟨!![0, -1; 1, 0], !![0, 1; -1, 0], by decide, by decide⟩
/-- The exchange of the coordinates. -/
def exchange : GL (Fin 2) ℤ := ⟨!![0, 1; 1, 0], !![0, 1; 1, 0], by decide, by decide⟩

example : ∃ basis : Submodule ℚ (ℚ × ℚ × ℚ) → List (ℚ × ℚ × ℚ), IsBasis basis ∧
    ∀ g ∈ [quarterTurn, exchange], (g : Matrix (Fin 2) (Fin 2) ℤ).det = -1 → (g : Matrix (Fin 2) (Fin 2) ℤ).trace = 0 := by
  obtain ⟨basis, hb⟩ := exists_isBasis (K := ℚ)
  exact ⟨basis, hb, by decide⟩

/-- The hypothesis of `C42_is_finite_false` holds for a hyperbolic generator. -/
example (basis : Submodule ℚ (ℚ × ℚ × ℚ) → List (ℚ × ℚ × ℚ)) : isFinite basis [!![2, 1; 1, 1]] = false := by
  unfold isFinite
  rw [if_pos]
  decide +kernel

example : multiplicativeOrder (!![2, 1; 1, 1] : Matrix (Fin 2) (Fin 2) ℚ) = .error .typeError ∧ multiplicativeOrder (!![2, 0; 0, 1] : Matrix (Fin 2) (Fin 2) ℚ) = .ok none := by
  decide +kernel

end MatGroup
end Flat
