import Verif.Model.Euclidean
import Mathlib.Analysis.SpecialFunctions.Complex.Arg
import Mathlib.Tactic.NormNum

/-!
# `is_between` (C06)

The specification uses real angles: `f` is in the open sector from `e0` to `e1` if it is reached from `e0` by a
counterclockwise rotation by an angle smaller than the one needed to reach `e1` for the first time (a full turn if `e0`
and `e1` point in the same direction).
-/

namespace Flat
open Real

/-- Counterclockwise rotation by the angle `θ`. -/
noncomputable def rot (θ : ℝ) (v : ℝ × ℝ) : ℝ × ℝ :=
  (v.1 * cos θ - v.2 * sin θ, v.1 * sin θ + v.2 * cos θ)

/-- The specification of `is_between`. -/
def InOpenSector (e0 e1 f : ℝ × ℝ) : Prop :=
  ∃ θ φ r s : ℝ, 0 < θ ∧ θ < φ ∧ φ ≤ 2 * π ∧ 0 < r ∧ 0 < s ∧ f = r • rot θ e0 ∧ e1 = s • rot φ e0

theorem exists_polar (v w : ℝ × ℝ) (hv : v ≠ 0) (hw : w ≠ 0) :
    ∃ θ r : ℝ, 0 < θ ∧ θ ≤ 2 * π ∧ 0 < r ∧ w = r • rot θ v := by
  set a : ℂ := ⟨v.1, v.2⟩ with ha
  set b : ℂ := ⟨w.1, w.2⟩ with hb
  have ha0 : a ≠ 0 := by
    intro h; apply hv
    have h1 := congrArg Complex.re h
    have h2 := congrArg Complex.im h
    exact Prod.ext h1 h2
  have hb0 : b ≠ 0 := by
    intro h; apply hw
    have h1 := congrArg Complex.re h
    have h2 := congrArg Complex.im h
    exact Prod.ext h1 h2
  set z := b / a with hz
  have hz0 : z ≠ 0 := div_ne_zero hb0 ha0
  have hzb : z * a = b := div_mul_cancel₀ _ ha0
  have hn : 0 < ‖z‖ := norm_pos_iff.2 hz0
  have hre : z.re = ‖z‖ * cos z.arg := by rw [Complex.cos_arg hz0]; field_simp
  have him : z.im = ‖z‖ * sin z.arg := by rw [Complex.sin_arg]; field_simp
  have key : ∀ θ, cos θ = cos z.arg → sin θ = sin z.arg → w = ‖z‖ • rot θ v := by
    intro θ h1 h2
    have e1 := congrArg Complex.re hzb
    have e2 := congrArg Complex.im hzb
    simp only [Complex.mul_re, Complex.mul_im, ha, hb] at e1 e2
    rw [hre, him] at e1 e2
    ext
    · simp only [rot, Prod.smul_fst, smul_eq_mul, h1, h2]; linarith
    · simp only [rot, Prod.smul_snd, smul_eq_mul, h1, h2]; linarith
  by_cases h : 0 < z.arg
  · exact ⟨z.arg, ‖z‖, h, by linarith [Complex.arg_le_pi z, pi_pos], hn, key _ rfl rfl⟩
  · refine ⟨z.arg + 2 * π, ‖z‖, by linarith [Complex.neg_pi_lt_arg z, pi_pos], by linarith, hn,
      key _ (cos_add_two_pi _) (sin_add_two_pi _)⟩

theorem isBetween_polar (e0 : ℝ × ℝ) (h0 : e0 ≠ 0) (θ φ r s : ℝ) (hθ : 0 < θ) (hθ' : θ ≤ 2 * π)
    (hφ : 0 < φ) (hφ' : φ ≤ 2 * π) (hr : 0 < r) (hs : 0 < s) :
    isBetween e0 (s • rot φ e0) (r • rot θ e0) = true ↔ θ < φ := by
  obtain ⟨x, y⟩ := e0
  have hn : 0 < x * x + y * y := by
    have : x ≠ 0 ∨ y ≠ 0 := by
      by_contra h; push Not at h; exact h0 (Prod.ext h.1 h.2)
    rcases this with h | h
    · nlinarith [mul_self_pos.2 h, mul_self_nonneg y]
    · nlinarith [mul_self_pos.2 h, mul_self_nonneg x]
  have hpi := pi_pos
  -- the three cross products
  have c1 : x * (s • rot φ (x, y)).2 - (s • rot φ (x, y)).1 * y = s * (x * x + y * y) * sin φ := by
    simp [rot]; ring
  have c2 : x * (r • rot θ (x, y)).2 - y * (r • rot θ (x, y)).1 = r * (x * x + y * y) * sin θ := by
    simp [rot]; ring
  have c3 : (s • rot φ (x, y)).2 * (r • rot θ (x, y)).1 - (s • rot φ (x, y)).1 * (r • rot θ (x, y)).2
      = r * s * (x * x + y * y) * sin (φ - θ) := by
    rw [sin_sub]; simp [rot]; ring
  have sinθ_pos : 0 < sin θ ↔ θ < π := by
    constructor
    · intro h; by_contra hc; push Not at hc
      have : sin θ ≤ 0 := by
        have := sin_nonneg_of_nonneg_of_le_pi (x := θ - π) (by linarith) (by linarith)
        rw [sin_sub_pi] at this; linarith
      linarith
    · intro h; exact sin_pos_of_pos_of_lt_pi hθ h
  have p1 : 0 < s * (x * x + y * y) := by positivity
  have p2 : 0 < r * (x * x + y * y) := by positivity
  have p3 : 0 < r * s * (x * x + y * y) := by positivity
  have d2 : (x * (r • rot θ (x, y)).2 > y * (r • rot θ (x, y)).1) ↔ θ < π := by
    rw [← sinθ_pos, gt_iff_lt, ← sub_pos, c2]
    exact mul_pos_iff_of_pos_left p2
  have d3 : ((s • rot φ (x, y)).2 * (r • rot θ (x, y)).1 >
      (s • rot φ (x, y)).1 * (r • rot θ (x, y)).2) ↔ 0 < sin (φ - θ) := by
    rw [gt_iff_lt, ← sub_pos, c3]
    exact mul_pos_iff_of_pos_left p3
  unfold isBetween
  simp only
  rcases lt_trichotomy φ π with h | h | h
  · -- 0 < φ < π
    have hsin : 0 < sin φ := sin_pos_of_pos_of_lt_pi hφ h
    rw [if_pos (by rw [gt_iff_lt, ← sub_pos, c1]; positivity)]
    simp only [decide_eq_true_eq]
    rw [d2, d3]
    constructor
    · rintro ⟨h1, h2⟩
      by_contra hc; push Not at hc
      have := sin_nonneg_of_nonneg_of_le_pi (x := θ - φ) (by linarith) (by linarith)
      rw [← neg_sub, sin_neg] at this; linarith
    · intro h1
      exact ⟨sin_pos_of_pos_of_lt_pi (by linarith) (by linarith), by linarith⟩
  · -- φ = π
    subst h
    rw [if_neg (by rw [gt_iff_lt, ← sub_pos, c1]; simp),
      if_pos (by rw [← sub_eq_zero, c1]; simp), if_neg]
    · simp only [decide_eq_true_eq]
      exact d2
    · simp only [rot, cos_pi, sin_pi, Prod.smul_fst, Prod.smul_snd, smul_eq_mul]
      rintro ⟨h1, h2⟩
      nlinarith
  · rcases eq_or_lt_of_le hφ' with h2 | h2
    · -- φ = 2π
      subst h2
      rw [if_neg (by rw [gt_iff_lt, ← sub_pos, c1]; simp),
        if_pos (by rw [← sub_eq_zero, c1]; simp), if_pos]
      · simp only [decide_eq_true_eq]
        have c2' : (r • rot θ (x, y)).1 * y - (r • rot θ (x, y)).2 * x
            = -(r * (x * x + y * y) * sin θ) := by linarith
        rcases eq_or_lt_of_le hθ' with h3 | h3
        · subst h3
          simp only [rot, cos_two_pi, sin_two_pi, Prod.smul_fst, Prod.smul_snd, smul_eq_mul]
          simp only [lt_irrefl, iff_false, not_or, not_not, not_lt]
          refine ⟨by ring, ?_, ?_⟩ <;> nlinarith [mul_nonneg hr.le (mul_self_nonneg x), mul_nonneg hr.le (mul_self_nonneg y)]
        · simp only [h3, iff_true]
          by_cases h4 : θ = π
          · subst h4
            right
            simp only [rot, cos_pi, sin_pi, Prod.smul_fst, Prod.smul_snd, smul_eq_mul]
            by_contra hc; push Not at hc
            nlinarith
          · left
            intro h5
            have : sin θ = 0 := by
              have h6 : r * (x * x + y * y) * sin θ = 0 := by linarith
              exact (mul_eq_zero.1 h6).resolve_left p2.ne'
            rcases lt_or_gt_of_ne h4 with h6 | h6
            · have := sin_pos_of_pos_of_lt_pi hθ h6; linarith
            · have := sin_pos_of_pos_of_lt_pi (x := θ - π) (by linarith) (by linarith)
              rw [sin_sub_pi] at this; linarith
      · simp only [rot, cos_two_pi, sin_two_pi, Prod.smul_fst, Prod.smul_snd, smul_eq_mul]
        constructor <;> nlinarith [mul_nonneg hs.le (mul_self_nonneg x), mul_nonneg hs.le (mul_self_nonneg y)]
    · -- π < φ < 2π
      have hsin : sin φ < 0 := by
        have := sin_pos_of_pos_of_lt_pi (x := φ - π) (by linarith) (by linarith)
        rw [sin_sub_pi] at this; linarith
      have hneg : s * (x * x + y * y) * sin φ < 0 := mul_neg_of_pos_of_neg p1 hsin
      rw [if_neg (by rw [gt_iff_lt, ← sub_pos, c1]; linarith),
        if_neg (by rw [← sub_eq_zero, c1]; linarith)]
      simp only [decide_eq_true_eq]
      have d2' : (y * (r • rot θ (x, y)).1 < x * (r • rot θ (x, y)).2) ↔ θ < π := d2
      have d3' : ((s • rot φ (x, y)).1 * (r • rot θ (x, y)).2 <
        (s • rot φ (x, y)).2 * (r • rot θ (x, y)).1) ↔ 0 < sin (φ - θ) := d3
      rw [d2', d3']
      constructor
      · rintro (h1 | h1)
        · linarith
        · by_contra hc; push Not at hc
          have := sin_nonneg_of_nonneg_of_le_pi (x := θ - φ) (by linarith) (by linarith)
          rw [← neg_sub, sin_neg] at this; linarith
      · intro h1
        by_cases h3 : θ < π
        · exact Or.inl h3
        · exact Or.inr (sin_pos_of_pos_of_lt_pi (by linarith) (by linarith))

/-- C06 over the real numbers. -/
theorem C06_isBetween_real (e0 e1 f : ℝ × ℝ) (h0 : e0 ≠ 0) (h1 : e1 ≠ 0) (hf : f ≠ 0) :
    isBetween e0 e1 f = true ↔ InOpenSector e0 e1 f := by
  constructor
  · intro h
    obtain ⟨θ, r, a1, a2, a3, a4⟩ := exists_polar e0 f h0 hf
    obtain ⟨φ, s, b1, b2, b3, b4⟩ := exists_polar e0 e1 h0 h1
    subst a4 b4
    rw [isBetween_polar e0 h0 θ φ r s a1 a2 b1 b2 a3 b3] at h
    exact ⟨θ, φ, r, s, a1, h, b2, a3, b3, rfl, rfl⟩
  · rintro ⟨θ, φ, r, s, a1, h, b2, a3, b3, rfl, rfl⟩
    rw [isBetween_polar e0 h0 θ φ r s a1 (by linarith) (by linarith) b2 a3 b3]
    exact h

/-- C06: for vectors over any field embedded in the real numbers (rationals, embedded number fields, real algebraic numbers), `is_between(e0, e1, f)`
holds iff the direction of `f` is met strictly between those of `e0` and `e1` when turning counterclockwise. -/
theorem C06_isBetween_iff {K : Type*} [Field K] [LinearOrder K] [IsStrictOrderedRing K]
    (ι : K →+* ℝ) (hι : StrictMono ι) (e0 e1 f : Vec K) (h0 : e0 ≠ 0) (h1 : e1 ≠ 0) (hf : f ≠ 0) :
    isBetween e0 e1 f = true ↔
      InOpenSector (ι e0.1, ι e0.2) (ι e1.1, ι e1.2) (ι f.1, ι f.2) := by
  have inj := hι.injective
  have hne : ∀ v : Vec K, v ≠ 0 → ((ι v.1, ι v.2) : ℝ × ℝ) ≠ 0 := by
    intro v hv h
    apply hv
    have h1 : ι v.1 = 0 := congrArg Prod.fst h
    have h2 : ι v.2 = 0 := congrArg Prod.snd h
    exact Prod.ext (inj (by simpa using h1)) (inj (by simpa using h2))
  rw [← C06_isBetween_real _ _ _ (hne _ h0) (hne _ h1) (hne _ hf)]
  have hlt : ∀ a b : K, ι a < ι b ↔ a < b := fun a b => hι.lt_iff_lt
  have hz : ∀ a : K, (0 ≤ ι a) ↔ 0 ≤ a := fun a => by
    rw [← map_zero ι]; exact hι.le_iff_le
  have hn : ∀ a : K, (ι a < 0) ↔ a < 0 := fun a => by
    rw [← map_zero ι]; exact hι.lt_iff_lt
  have he : ∀ a b : K, ι a = ι b ↔ a = b := fun a b => inj.eq_iff
  unfold isBetween
  simp only [← map_mul, gt_iff_lt, ge_iff_le, hlt, hz, hn, he, ne_eq]

example : isBetween ((1, 0) : Vec ℚ) (1, 1) (2, 1) = true := by
  norm_num [isBetween]

end Flat
