import Verif.Model.Angles
import Mathlib.Analysis.SpecialFunctions.Complex.Arg
import Mathlib.Analysis.SpecialFunctions.Trigonometric.Angle
import Mathlib.Tactic.LinearCombination
import Mathlib.Tactic.FieldSimp

/-!
# Angles between vectors
-/

namespace Flat
open Real

section
variable {K : Type} [Field K] (ι : K →+* ℝ)

/-- A vector as a complex number. -/
noncomputable def cplx (v : Vec K) : ℂ := ⟨ι v.1, ι v.2⟩

/-- The direction of a vector. -/
noncomputable def vdir (v : Vec K) : Real.Angle := ((cplx ι v).arg : ℝ)

theorem cplx_ne_zero {v : Vec K} (hv : v ≠ 0) : cplx ι v ≠ 0 := by
  intro h
  apply hv
  have h1 := congrArg Complex.re h
  have h2 := congrArg Complex.im h
  exact Prod.ext (ι.injective (by simpa [cplx] using h1)) (ι.injective (by simpa [cplx] using h2))

theorem norm_cplx_sq (v : Vec K) : ‖cplx ι v‖ * ‖cplx ι v‖ = ι v.1 * ι v.1 + ι v.2 * ι v.2 := by
  rw [← sq, Complex.sq_norm, Complex.normSq_apply]
  rfl

theorem cos_sin_angleOf {u v : Vec K} (hu : u ≠ 0) (hv : v ≠ 0) :
    ‖cplx ι u‖ * ‖cplx ι v‖ * cos (2 * π * angleOf ι u v) = ι u.1 * ι v.1 + ι u.2 * ι v.2 ∧
      ‖cplx ι u‖ * ‖cplx ι v‖ * sin (2 * π * angleOf ι u v) = ι u.1 * ι v.2 - ι u.2 * ι v.1 := by
  have n1 := norm_pos_iff.2 (cplx_ne_zero ι hu)
  have n2 := norm_pos_iff.2 (cplx_ne_zero ι hv)
  have s1 := norm_cplx_sq ι u
  have s2 := norm_cplx_sq ι v
  have hsq : Real.sqrt ((ι u.1 * ι u.1 + ι u.2 * ι u.2) * (ι v.1 * ι v.1 + ι v.2 * ι v.2)) = ‖cplx ι u‖ * ‖cplx ι v‖ := by
    rw [← s1, ← s2, show ‖cplx ι u‖ * ‖cplx ι u‖ * (‖cplx ι v‖ * ‖cplx ι v‖) = (‖cplx ι u‖ * ‖cplx ι v‖) * (‖cplx ι u‖ * ‖cplx ι v‖) by ring]
    exact Real.sqrt_mul_self (mul_pos n1 n2).le
  set A := ‖cplx ι u‖
  set B := ‖cplx ι v‖
  set D := ι u.1 * ι v.1 + ι u.2 * ι v.2 with hD
  set C := ι u.1 * ι v.2 - ι u.2 * ι v.1 with hC
  have hAB : 0 < A * B := mul_pos n1 n2
  have hid : D ^ 2 + C ^ 2 = (A * B) ^ 2 := by
    rw [show (A * B) ^ 2 = (A * A) * (B * B) by ring, s1, s2, hD, hC]; ring
  have hle : -1 ≤ D / (A * B) ∧ D / (A * B) ≤ 1 := by
    rw [le_div_iff₀ hAB, div_le_iff₀ hAB]
    have := abs_le_of_sq_le_sq' (a := D) (b := A * B) (by nlinarith [sq_nonneg C]) hAB.le
    constructor <;> linarith [this.1, this.2]
  have hcos : cos (Real.arccos (D / (A * B))) = D / (A * B) := Real.cos_arccos hle.1 hle.2
  have hsin : A * B * sin (Real.arccos (D / (A * B))) = |C| := by
    rw [Real.sin_arccos]
    have : A * B * Real.sqrt (1 - (D / (A * B)) ^ 2) = Real.sqrt ((A * B) ^ 2 * (1 - (D / (A * B)) ^ 2)) := by
      rw [Real.sqrt_mul (sq_nonneg _), Real.sqrt_sq hAB.le]
    rw [this, show (A * B) ^ 2 * (1 - (D / (A * B)) ^ 2) = C ^ 2 by
      rw [mul_sub, mul_one, div_pow, mul_div_cancel₀ _ (pow_ne_zero 2 hAB.ne')]; linarith, Real.sqrt_sq_eq_abs]
  have hpi := Real.pi_pos
  have hang : angleOf ι u v = if C < 0 then 1 - Real.arccos (D / (A * B)) / (2 * π) else Real.arccos (D / (A * B)) / (2 * π) := by
    unfold angleOf
    simp only [hsq]
    rfl
  rw [hang]
  by_cases hc : C < 0
  · rw [if_pos hc]
    have : 2 * π * (1 - Real.arccos (D / (A * B)) / (2 * π)) = 2 * π - Real.arccos (D / (A * B)) := by field_simp
    rw [this, Real.cos_two_pi_sub, Real.sin_two_pi_sub, hcos, mul_neg, hsin, abs_of_neg hc]
    exact ⟨mul_div_cancel₀ _ hAB.ne', neg_neg C⟩
  · rw [if_neg hc]
    have : 2 * π * (Real.arccos (D / (A * B)) / (2 * π)) = Real.arccos (D / (A * B)) := by field_simp
    rw [this, hcos, hsin, abs_of_nonneg (not_lt.1 hc)]
    exact ⟨mul_div_cancel₀ _ hAB.ne', rfl⟩

theorem angleOf_nonneg (u v : Vec K) : 0 ≤ angleOf ι u v := by
  have hpi := Real.pi_pos
  unfold angleOf
  simp only
  have h : ∀ c : ℝ, Real.arccos c / (2 * π) ≤ 1 / 2 := by
    intro c
    rw [div_le_iff₀ (by positivity)]
    have := Real.arccos_le_pi c
    linarith
  split_ifs
  · have := h ((ι u.1 * ι v.1 + ι u.2 * ι v.2) / √((ι u.1 * ι u.1 + ι u.2 * ι u.2) * (ι v.1 * ι v.1 + ι v.2 * ι v.2)))
    linarith
  · exact div_nonneg (Real.arccos_nonneg _) (by positivity)

theorem angleOf_lt_one (u v : Vec K) : angleOf ι u v < 1 := by
  have hpi := Real.pi_pos
  by_cases hu : u = 0
  · subst hu
    unfold angleOf
    simp only [Prod.fst_zero, Prod.snd_zero, map_zero, zero_mul, sub_zero, lt_irrefl, if_false]
    rw [div_lt_iff₀ (by positivity)]
    have := Real.arccos_le_pi ((0 + 0) / √((0 + 0) * (ι v.1 * ι v.1 + ι v.2 * ι v.2)))
    linarith
  by_cases hv : v = 0
  · subst hv
    unfold angleOf
    simp only [Prod.fst_zero, Prod.snd_zero, map_zero, mul_zero, sub_zero, lt_irrefl, if_false]
    rw [div_lt_iff₀ (by positivity)]
    have := Real.arccos_le_pi ((0 + 0) / √((ι u.1 * ι u.1 + ι u.2 * ι u.2) * (0 + 0)))
    linarith
  have hcs := cos_sin_angleOf ι hu hv
  have hle : angleOf ι u v ≤ 1 := by
    unfold angleOf
    simp only
    have h0 : ∀ c : ℝ, 0 ≤ Real.arccos c / (2 * π) := fun c => div_nonneg (Real.arccos_nonneg _) (by positivity)
    have h : ∀ c : ℝ, Real.arccos c / (2 * π) ≤ 1 := by
      intro c
      rw [div_le_iff₀ (by positivity)]
      have := Real.arccos_le_pi c
      linarith
    split_ifs
    · have := h0 ((ι u.1 * ι v.1 + ι u.2 * ι v.2) / √((ι u.1 * ι u.1 + ι u.2 * ι u.2) * (ι v.1 * ι v.1 + ι v.2 * ι v.2)))
      linarith
    · exact h _
  refine lt_of_le_of_ne hle ?_
  intro h1
  have h2 := hcs.2
  rw [h1, mul_one, Real.sin_two_pi, mul_zero] at h2
  -- the product is not negative, so the angle is at most one half
  have : angleOf ι u v ≤ 1 / 2 := by
    unfold angleOf
    simp only
    rw [if_neg (by rw [← h2]; exact lt_irrefl _), div_le_iff₀ (by positivity)]
    have := Real.arccos_le_pi ((ι u.1 * ι v.1 + ι u.2 * ι v.2) / √((ι u.1 * ι u.1 + ι u.2 * ι u.2) * (ι v.1 * ι v.1 + ι v.2 * ι v.2)))
    linarith
  rw [h1] at this
  norm_num at this

/-- The angle modulo full turns. -/
theorem angleOf_vdir {u v : Vec K} (hu : u ≠ 0) (hv : v ≠ 0) :
    ((2 * π * angleOf ι u v : ℝ) : Real.Angle) = vdir ι v - vdir ι u := by
  have n1 := norm_pos_iff.2 (cplx_ne_zero ι hu)
  have n2 := norm_pos_iff.2 (cplx_ne_zero ι hv)
  obtain ⟨h1, h2⟩ := cos_sin_angleOf ι hu hv
  unfold vdir
  rw [← Real.Angle.coe_sub]
  have hAB := mul_pos n1 n2
  refine Real.Angle.cos_sin_inj ?_ ?_
  · refine mul_left_cancel₀ hAB.ne' ?_
    rw [h1, Real.cos_sub, Complex.cos_arg (cplx_ne_zero ι hu), Complex.cos_arg (cplx_ne_zero ι hv), Complex.sin_arg, Complex.sin_arg]
    field_simp
    simp only [cplx]
    ring
  · refine mul_left_cancel₀ hAB.ne' ?_
    rw [h2, Real.sin_sub, Complex.cos_arg (cplx_ne_zero ι hu), Complex.cos_arg (cplx_ne_zero ι hv), Complex.sin_arg, Complex.sin_arg]
    field_simp
    simp only [cplx]
    ring

/-- Two numbers of the same direction that differ by less than a full turn. -/
theorem eq_of_angle {a b : ℝ} (h : (a : Real.Angle) = b) (h1 : a - b < 2 * π) (h2 : b - a < 2 * π) : a = b := by
  obtain ⟨k, hk⟩ := Real.Angle.angle_eq_iff_two_pi_dvd_sub.1 h
  have hpi := Real.pi_pos
  have k1 : k < 1 := by
    by_contra hc
    push Not at hc
    have : (1 : ℝ) ≤ k := by exact_mod_cast hc
    nlinarith
  have k2 : -1 < k := by
    by_contra hc
    push Not at hc
    have : (k : ℝ) ≤ -1 := by exact_mod_cast hc
    nlinarith
  have : k = 0 := by omega
  rw [this] at hk
  simp only [Int.cast_zero, mul_zero] at hk
  linarith

theorem vdir_neg {v : Vec K} (hv : v ≠ 0) : vdir ι (-v) = vdir ι v + (π : ℝ) := by
  unfold vdir
  rw [show cplx ι (-v) = -cplx ι v by apply Complex.ext <;> simp [cplx]]
  exact Complex.arg_neg_coe_angle (cplx_ne_zero ι hv)

end

section
variable {K : Type} [Field K] [LinearOrder K] [IsStrictOrderedRing K] {ι : K →+* ℝ}

theorem map_ccw (u v : Vec K) : ι u.1 * ι v.2 - ι u.2 * ι v.1 = ι (ccw u v) := by
  simp [ccw]

/-- Positive product: less than half a turn. -/
theorem angleOf_pos (hι : StrictMono ι) {u v : Vec K} (h : 0 < ccw u v) : 0 < angleOf ι u v ∧ angleOf ι u v < 1 / 2 := by
  have hu : u ≠ 0 := by rintro rfl; simp [ccw] at h
  have hv : v ≠ 0 := by rintro rfl; simp [ccw] at h
  have n1 := norm_pos_iff.2 (cplx_ne_zero ι hu)
  have n2 := norm_pos_iff.2 (cplx_ne_zero ι hv)
  obtain ⟨-, h2⟩ := cos_sin_angleOf ι hu hv
  rw [map_ccw] at h2
  have hpos : 0 < ι (ccw u v) := by have := hι h; rwa [map_zero] at this
  rw [← h2] at hpos
  have hs : 0 < sin (2 * π * angleOf ι u v) := (mul_pos_iff_of_pos_left (mul_pos n1 n2)).1 hpos
  have hpi := Real.pi_pos
  have a0 := angleOf_nonneg ι u v
  have a1 := angleOf_lt_one ι u v
  constructor
  · refine lt_of_le_of_ne a0 (fun he => ?_)
    rw [← he, mul_zero, Real.sin_zero] at hs
    exact lt_irrefl _ hs
  · by_contra hc
    push Not at hc
    have : sin (2 * π * angleOf ι u v - π) ≥ 0 := Real.sin_nonneg_of_nonneg_of_le_pi (by nlinarith) (by nlinarith)
    rw [Real.sin_sub_pi] at this
    linarith

/-- Positive angles: not parallel. -/
theorem angleOf_ne_zero (hι : StrictMono ι) {u v : Vec K} (hu : u ≠ 0) (hv : v ≠ 0) (h : isParallel u v = false) : 0 < angleOf ι u v := by
  refine lt_of_le_of_ne (angleOf_nonneg ι u v) (fun he => ?_)
  obtain ⟨h1, h2⟩ := cos_sin_angleOf ι hu hv
  have n1 := norm_pos_iff.2 (cplx_ne_zero ι hu)
  have n2 := norm_pos_iff.2 (cplx_ne_zero ι hv)
  rw [← he, mul_zero, Real.sin_zero, mul_zero, map_ccw] at h2
  rw [← he, mul_zero, Real.cos_zero, mul_one] at h1
  have hc : ccw u v = 0 := ι.injective (by rw [map_zero]; exact h2.symm)
  have hd : 0 < u.1 * v.1 + u.2 * v.2 := by
    rw [← hι.lt_iff_lt, map_zero, map_add, map_mul, map_mul, ← h1]
    exact mul_pos n1 n2
  unfold isParallel at h
  rw [if_neg (not_not.2 hc)] at h
  simp [hd] at h

end
end Flat
