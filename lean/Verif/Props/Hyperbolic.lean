import Verif.Model.Hyperbolic
import Mathlib.Algebra.Order.Hom.Ring
import Mathlib.Tactic.Linarith
import Mathlib.Tactic.FieldSimp
import Mathlib.Tactic.Positivity
import Mathlib.Tactic.LinearCombination
import Mathlib.Data.Rat.Sqrt

/-!
# C51: the models of the hyperbolic plane agree
-/

namespace Flat
namespace Hyp
variable {K : Type} [Field K] [LinearOrder K] [IsStrictOrderedRing K]
variable {F : Type} [Field F] [LinearOrder F] [IsStrictOrderedRing F]

/-- The square root of the base ring is the non-negative root, and exists whenever there is a root in the base ring. -/
structure IsSqrt (sqrt : K → Option K) : Prop where
  sound : ∀ x y, sqrt x = some y → 0 ≤ y ∧ y * y = x
  complete : ∀ x, sqrt x = none → ∀ y, y * y ≠ x

/-- The coefficients define a line through the open Klein disk. -/
def Geo.Valid (g : Geo K) : Prop := g.a * g.a < g.b * g.b + g.c * g.c

/-- The point is in the closed Klein disk. -/
def Pt.Valid : Pt K → Prop
  | .coords x y => x * x + y * y ≤ 1
  | .start g => g.Valid

/-- The point `(x, y)` of the unit circle is where the geodesic, which has its half space on the left, begins: it moves into the direction `(c, -b)`. -/
def IsStart (g : Geo K) (x y : K) : Prop := x * x + y * y = 1 ∧ g.a + g.b * x + g.c * y = 0 ∧ g.c * x - g.b * y < 0

instance (g : Geo K) (x y : K) : Decidable (IsStart g x y) := inferInstanceAs (Decidable (_ ∧ _ ∧ _))

/-- The same equation over a bigger field. -/
def Geo.map (f : K →+* F) (g : Geo K) : Geo F := ⟨f g.a, f g.b, f g.c⟩

/-- The position of a point in the Klein disk over a bigger field, such as the real numbers. -/
def Loc (f : K →+* F) : Pt K → F → F → Prop
  | .coords x y, X, Y => X = f x ∧ Y = f y
  | .start g, X, Y => IsStart (g.map f) X Y

theorem Geo.valid_norm {g : Geo K} (hg : g.Valid) : 0 < g.b * g.b + g.c * g.c := lt_of_le_of_lt (mul_self_nonneg _) hg

theorem Geo.check_ok {g : Geo K} : g.check = .ok () ↔ g.Valid := by
  unfold Geo.check Geo.isUltraIdeal Geo.isIdeal Geo.Valid
  by_cases h : g.a * g.a < g.b * g.b + g.c * g.c
  · have h1 : ¬ (g.b * g.b + g.c * g.c < g.a * g.a) := not_lt.2 h.le
    have h2 : ¬ (g.b * g.b + g.c * g.c = g.a * g.a) := h.ne'
    simp [h, h1, h2]
  · have h1 : g.b * g.b + g.c * g.c < g.a * g.a ∨ g.b * g.b + g.c * g.c = g.a * g.a := (not_lt.1 h).lt_or_eq
    rcases h1 with h1 | h1
    · simp [h, h1]
    · simp [h1]

theorem sgn_pos {x : K} (h : 0 < x) : sgn x = 1 := by
  unfold sgn
  rw [if_neg h.ne', if_neg (not_lt.2 h.le)]
theorem sgn_neg {x : K} (h : x < 0) : sgn x = -1 := by
  unfold sgn
  rw [if_neg h.ne, if_pos h]
theorem sgn_zero : sgn (0 : K) = 0 := if_pos rfl
theorem sgn_pos_iff {x : K} : 0 < sgn x ↔ 0 < x := by
  rcases lt_trichotomy x 0 with h | h | h
  · rw [sgn_neg h]; constructor
    · intro h'; norm_num at h'
    · intro h'; linarith
  · rw [h, sgn_zero]; simp
  · rw [sgn_pos h]; simp [h]
theorem sgn_neg_iff {x : K} : sgn x < 0 ↔ x < 0 := by
  rcases lt_trichotomy x 0 with h | h | h
  · rw [sgn_neg h]; simp [h]
  · rw [h, sgn_zero]; simp
  · rw [sgn_pos h]; constructor
    · intro h'; norm_num at h'
    · intro h'; linarith
theorem sgn_nonneg_iff {x : K} : 0 ≤ sgn x ↔ 0 ≤ x := by
  rw [← not_lt, sgn_neg_iff, not_lt]
theorem sgn_eq_zero_iff {x : K} : sgn x = 0 ↔ x = 0 := by
  rcases lt_trichotomy x 0 with h | h | h
  · rw [sgn_neg h]; simp [h.ne]
  · rw [h, sgn_zero]; simp
  · rw [sgn_pos h]; simp [h.ne']
theorem sgn_eq_iff {x y : K} (hx : x ≠ 0) : sgn x = sgn y ↔ 0 < x * y := by
  rcases lt_or_gt_of_ne hx with h | h
  · rw [sgn_neg h]
    rcases lt_trichotomy y 0 with h' | h' | h'
    · rw [sgn_neg h']; simp [mul_pos_of_neg_of_neg h h']
    · rw [h', sgn_zero]; simp
    · rw [sgn_pos h']; simp [(mul_neg_of_neg_of_pos h h').le]
  · rw [sgn_pos h]
    rcases lt_trichotomy y 0 with h' | h' | h'
    · rw [sgn_neg h']; simp [(mul_neg_of_pos_of_neg h h').le]
    · rw [h', sgn_zero]; simp
    · rw [sgn_pos h']; simp [mul_pos h h']

/-! ### Points -/

theorem toKlein_norm (x y : K) : (toKlein x y).1 * (toKlein x y).1 + (toKlein x y).2 * (toKlein x y).2 = 1 - 4 * (y * y) / ((1 + x * x + y * y) * (1 + x * x + y * y)) := by
  have h : 1 + x ^ 2 + y ^ 2 ≠ 0 := by positivity
  unfold toKlein
  dsimp only
  have h' : 1 + x * x + y * y ≠ 0 := by rw [← sq, ← sq]; exact h
  field_simp
  ring

theorem one_sub_toKlein (x y : K) : 1 - (toKlein x y).2 = 2 / (1 + x * x + y * y) := by
  have h : 1 + x ^ 2 + y ^ 2 ≠ 0 := by positivity
  have h' : 1 + x * x + y * y ≠ 0 := by rw [← sq, ← sq]; exact h
  unfold toKlein
  dsimp only
  field_simp
  ring

theorem denom_pos (x y : K) : 0 < 1 + x * x + y * y := by nlinarith [mul_self_nonneg x, mul_self_nonneg y]

theorem toKlein_valid (x y : K) : (toKlein x y).1 * (toKlein x y).1 + (toKlein x y).2 * (toKlein x y).2 ≤ 1 := by
  rw [toKlein_norm]
  have := denom_pos x y
  have h : 0 ≤ 4 * (y * y) / ((1 + x * x + y * y) * (1 + x * x + y * y)) := by
    apply div_nonneg
    · nlinarith [mul_self_nonneg y]
    · exact (mul_pos this this).le
  linarith

theorem checkPoint_ok {x y : K} : checkPoint x y = .ok () ↔ x * x + y * y ≤ 1 := by
  unfold checkPoint
  by_cases h : x * x + y * y > 1
  · rw [if_pos h]; simp [h]
  · rw [if_neg h]; simp [not_lt.1 h]

theorem point_klein {x y : K} {check : Bool} : point x y .klein check = if check = true ∧ x * x + y * y > 1 then .error .valueError else .ok (.coords x y) := by
  unfold point checkPoint
  cases check
  · rfl
  · simp only [if_true, true_and]
    split_ifs <;> rfl

/-- **C51**. A pair of coordinates in the half plane defines a point exactly if it is not below the real axis. -/
theorem C51_point (x y : K) (check : Bool) : point x y .halfPlane check = if y < 0 then .error .valueError else .ok (.coords (toKlein x y).1 (toKlein x y).2) := by
  have hc : checkPoint (toKlein x y).1 (toKlein x y).2 = .ok () := checkPoint_ok.2 (toKlein_valid x y)
  unfold point classifyPoint
  rcases lt_trichotomy y 0 with h | h | h
  · simp [h, h.ne, bind, Except.bind]
  · subst h
    cases check <;> simp [bind, Except.bind, hc, pure, Except.pure]
  · cases check <;> simp [h.ne', not_lt.2 h.le, bind, Except.bind, hc, pure, Except.pure]

theorem startEqCoords_ok {g : Geo K} (hg : g.Valid) (x y : K) : startEqCoords g x y = .ok (decide (IsStart g x y)) := by
  have hn := Geo.valid_norm hg
  unfold startEqCoords IsStart
  by_cases h1 : x * x + y * y = 1
  · rw [if_neg (not_not.2 h1)]
    by_cases h2 : g.a + g.b * x + g.c * y = 0
    · rw [if_neg (by simp [Geo.containsCoords, h2])]
      have hdet : -g.c * g.c - g.b * g.b ≠ 0 := by nlinarith
      have hel : g.anElement = .ok ((-g.c * 0 + g.b * g.a) / (-g.c * g.c - g.b * g.b), (g.b * 0 - -g.c * g.a) / (-g.c * g.c - g.b * g.b)) := by
        unfold Geo.anElement Geo.inter
        dsimp only
        rw [if_neg hdet]
      have ht : g.parametrize (x, y) = .ok ((g.c * x - g.b * y) / (g.b * g.b + g.c * g.c)) := by
        unfold Geo.parametrize
        rw [hel]
        simp only [bind, Except.bind, pure, Except.pure]
        split_ifs with hc
        · congr 1
          rw [show -g.c * g.c - g.b * g.b = -(g.b * g.b + g.c * g.c) by ring]
          field_simp
          linear_combination g.b * h2
        · congr 1
          rw [not_not] at hc
          rw [hc] at h2 hn ⊢
          have hb : g.b ≠ 0 := by
            intro hb
            rw [hb] at hn
            simp at hn
          field_simp
          linear_combination (0 : K) * h2
      rw [ht]
      simp only [bind, Except.bind, pure, Except.pure, h1, h2, true_and]
      congr 1
      rw [decide_eq_decide]
      rw [div_lt_iff₀ hn, zero_mul]
    · rw [if_pos (by simp [Geo.containsCoords, h2])]
      simp [h2]
  · rw [if_pos h1]
    simp [h1]

theorem IsStart.unique {g : Geo K} {x y x' y' : K} (h : IsStart g x y) (h' : IsStart g x' y') (hg : g.Valid) : x = x' ∧ y = y' := by
  obtain ⟨h1, h2, h3⟩ := h
  obtain ⟨k1, k2, k3⟩ := h'
  have hn := Geo.valid_norm hg
  set n := g.b * g.b + g.c * g.c with hnn
  have e : ∀ x y : K, x * x + y * y = 1 → g.a + g.b * x + g.c * y = 0 → (g.c * x - g.b * y) * (g.c * x - g.b * y) = n - g.a * g.a ∧ n * x = -g.a * g.b + g.c * (g.c * x - g.b * y) ∧
      n * y = -g.a * g.c - g.b * (g.c * x - g.b * y) := by
    intro x y h1 h2
    refine ⟨?_, ?_, ?_⟩
    · rw [hnn]; linear_combination (g.b * g.b + g.c * g.c) * h1 - (g.b * x + g.c * y - g.a) * h2
    · rw [hnn]; linear_combination g.b * h2
    · rw [hnn]; linear_combination g.c * h2
  obtain ⟨e1, e2, e3⟩ := e x y h1 h2
  obtain ⟨f1, f2, f3⟩ := e x' y' k1 k2
  have hu : g.c * x - g.b * y = g.c * x' - g.b * y' := by
    have : (g.c * x - g.b * y - (g.c * x' - g.b * y')) * (g.c * x - g.b * y + (g.c * x' - g.b * y')) = 0 := by linear_combination e1 - f1
    rcases mul_eq_zero.1 this with h | h
    · linarith
    · linarith
  constructor
  · apply mul_left_cancel₀ hn.ne'
    rw [e2, f2, hu]
  · apply mul_left_cancel₀ hn.ne'
    rw [e3, f3, hu]

/-- The starting point of a geodesic has coordinates exactly if there are such coordinates in the base ring, and then it is where the geodesic begins. -/
theorem C51_start {sqrt : K → Option K} (hs : IsSqrt sqrt) {g : Geo K} (hg : g.Valid) :
    (∃ x y, startCoordinates sqrt g = .ok (x, y) ∧ IsStart g x y) ∨ (startCoordinates sqrt g = .error .valueError ∧ ∀ x y, ¬ IsStart g x y) := by
  have hn := Geo.valid_norm hg
  unfold Geo.Valid at hg
  unfold startCoordinates Geo.equation
  dsimp only
  by_cases hA : g.a + g.c = 0
  · left
    rw [if_pos hA]
    have hc : g.c = - g.a := by linarith
    rw [hc] at hg
    have hb : g.b ≠ 0 := by
      intro hb
      rw [hb] at hg
      linarith
    by_cases hbp : 0 < sgn (2 * g.b)
    · rw [if_pos hbp]
      rw [sgn_pos_iff] at hbp
      refine ⟨0, 1, rfl, by norm_num, by linarith, by linarith⟩
    · rw [if_neg hbp]
      rw [sgn_pos_iff] at hbp
      have hbn : g.b < 0 := lt_of_le_of_ne (by linarith) hb
      refine ⟨(toKlein (-(g.a - g.c) / (2 * g.b)) 0).1, (toKlein (-(g.a - g.c) / (2 * g.b)) 0).2, rfl, ?_, ?_, ?_⟩
      · rw [toKlein_norm]; simp
      · unfold toKlein
        dsimp only
        have h1 : g.b * g.b + g.a * g.a ≠ 0 := by nlinarith [mul_self_nonneg g.a, mul_self_pos.2 hb]
        have h2 : 1 + (-(g.a - g.c) / (2 * g.b)) * (-(g.a - g.c) / (2 * g.b)) + 0 * 0 ≠ 0 := (denom_pos _ _).ne'
        rw [hc] at h2 ⊢
        have h3 : (-(g.a - -g.a) / (2 * g.b)) = - g.a / g.b := by field_simp; ring
        rw [h3] at h2 ⊢
        have h4 : 1 + -g.a / g.b * (-g.a / g.b) + 0 * 0 = (g.b * g.b + g.a * g.a) / (g.b * g.b) := by field_simp; ring
        have h5 : -1 + -g.a / g.b * (-g.a / g.b) + 0 * 0 = (-(g.b * g.b) + g.a * g.a) / (g.b * g.b) := by field_simp; ring
        rw [h4, h5]
        have h1' : g.b ^ 2 + g.a ^ 2 ≠ 0 := by rw [sq, sq]; exact h1
        field_simp
        ring
      · unfold toKlein
        dsimp only
        have h1 : 0 < g.b * g.b + g.a * g.a := by nlinarith [mul_self_nonneg g.a, mul_self_pos.2 hb]
        rw [hc]
        have h3 : (-(g.a - -g.a) / (2 * g.b)) = - g.a / g.b := by field_simp; ring
        rw [h3]
        have h4 : 1 + -g.a / g.b * (-g.a / g.b) + 0 * 0 = (g.b * g.b + g.a * g.a) / (g.b * g.b) := by field_simp; ring
        have h5 : -1 + -g.a / g.b * (-g.a / g.b) + 0 * 0 = (-(g.b * g.b) + g.a * g.a) / (g.b * g.b) := by field_simp; ring
        rw [h4, h5]
        have h6 : -g.a * (2 * (-g.a / g.b) / ((g.b * g.b + g.a * g.a) / (g.b * g.b))) - g.b * ((-(g.b * g.b) + g.a * g.a) / (g.b * g.b) / ((g.b * g.b + g.a * g.a) / (g.b * g.b))) = g.b := by
          have h1' : g.b ^ 2 + g.a ^ 2 ≠ 0 := by rw [sq, sq]; exact h1.ne'
          field_simp
          ring
        rw [h6]
        exact hbn
  · rw [if_neg hA]
    have hdisc : 2 * g.b * (2 * g.b) - 4 * (g.a + g.c) * (g.a - g.c) = 4 * (g.b * g.b + g.c * g.c - g.a * g.a) := by ring
    rw [hdisc]
    cases hr : sqrt (4 * (g.b * g.b + g.c * g.c - g.a * g.a)) with
    | none =>
      right
      refine ⟨rfl, ?_⟩
      rintro x y ⟨h1, h2, h3⟩
      refine hs.complete _ hr (2 * (g.c * x - g.b * y)) ?_
      linear_combination 4 * (g.b * g.b + g.c * g.c) * h1 - 4 * (g.b * x + g.c * y - g.a) * h2
    | some s =>
      left
      obtain ⟨hs0, hss⟩ := hs.sound _ _ hr
      have hsp : 0 < s := by
        rcases hs0.lt_or_eq with h | h
        · exact h
        · rw [← h] at hss; linarith
      have hmin : (if sgn (g.a + g.c) > 0 then min ((-(2 * g.b) - s) / (2 * (g.a + g.c))) ((-(2 * g.b) + s) / (2 * (g.a + g.c)))
          else max ((-(2 * g.b) - s) / (2 * (g.a + g.c))) ((-(2 * g.b) + s) / (2 * (g.a + g.c)))) = (-(2 * g.b) - s) / (2 * (g.a + g.c)) := by
        split_ifs with h
        · rw [gt_iff_lt, sgn_pos_iff] at h
          exact min_eq_left (div_le_div_of_nonneg_right (by linarith) (by linarith))
        · rw [gt_iff_lt, sgn_pos_iff] at h
          exact max_eq_left (div_le_div_of_nonpos_of_le (by linarith [lt_of_le_of_ne (not_lt.1 h) hA]) (by linarith))
      dsimp only
      rw [hmin]
      set X := (-(2 * g.b) - s) / (2 * (g.a + g.c)) with hX
      have hAX : (g.a + g.c) * X = - g.b - s / 2 := by rw [hX]; field_simp
      have hquad : (g.a + g.c) * (X * X) + 2 * g.b * X + (g.a - g.c) = 0 := by
        apply mul_left_cancel₀ hA
        linear_combination ((g.a + g.c) * X + g.b - s / 2) * hAX + (1 / 4 : K) * hss
      have hd := denom_pos X 0
      refine ⟨(toKlein X 0).1, (toKlein X 0).2, rfl, ?_, ?_, ?_⟩
      · rw [toKlein_norm]; simp
      · unfold toKlein
        dsimp only
        have h1' : 1 + X ^ 2 ≠ 0 := by positivity
        have hd' : 1 + X * X + 0 * 0 = 1 + X ^ 2 := by ring
        rw [hd']
        field_simp
        linear_combination hquad
      · unfold toKlein
        dsimp only
        have h1 : g.c * (2 * X / (1 + X * X + 0 * 0)) - g.b * ((-1 + X * X + 0 * 0) / (1 + X * X + 0 * 0)) = (2 * g.c * X - g.b * (X * X) + g.b) / (1 + X * X + 0 * 0) := by
          field_simp
          ring
        rw [h1]
        apply div_neg_of_neg_of_pos _ hd
        have hA2 : 0 < (g.a + g.c) * (g.a + g.c) := mul_self_pos.2 hA
        have key : (2 * g.c * X - g.b * (X * X) + g.b) * ((g.a + g.c) * (g.a + g.c)) = -(s / 2 * ((g.b + s / 2) * (g.b + s / 2) + (g.c + g.a) * (g.c + g.a))) := by
          linear_combination (-g.b * (g.a + g.c)) * hquad + 2 * (g.b * g.b + g.c * (g.a + g.c)) * hAX + (s / 8 + g.b / 2) * hss
        have h2 : 0 < s / 2 * ((g.b + s / 2) * (g.b + s / 2) + (g.c + g.a) * (g.c + g.a)) := by
          apply mul_pos (by linarith)
          have := mul_self_nonneg (g.b + s / 2)
          rw [add_comm g.c g.a]
          linarith
        by_contra hcon
        have := mul_nonneg (not_lt.1 hcon) hA2.le
        linarith

theorem startCoordinates_ok {sqrt : K → Option K} (hs : IsSqrt sqrt) {g : Geo K} (hg : g.Valid) {x y : K} : startCoordinates sqrt g = .ok (x, y) ↔ IsStart g x y := by
  rcases C51_start hs hg with ⟨x', y', h1, h2⟩ | ⟨h1, h2⟩
  · rw [h1]
    constructor
    · intro h
      cases h
      exact h2
    · intro h
      obtain ⟨rfl, rfl⟩ := h.unique h2 hg
      rfl
  · rw [h1]
    constructor
    · intro h
      cases h
    · intro h
      exact absurd h (h2 _ _)

/-! ### Geodesics -/

/-- The equation of one geodesic is a multiple of the equation of the other. -/
def Geo.smul (t : K) (g : Geo K) : Geo K := ⟨t * g.a, t * g.b, t * g.c⟩

/-- **C51**. Unoriented geodesics are equal exactly if their equations are proportional, oriented geodesics if they are positively proportional. -/
theorem C51_geodesic_eq {g h : Geo K} (hg : g.Valid) (hh : h.Valid) (oriented : Bool) : g.eq h oriented = true ↔ ∃ t, t ≠ 0 ∧ (oriented = true → 0 < t) ∧ h = g.smul t := by
  unfold Geo.Valid at hg hh
  obtain ⟨a, b, c⟩ := g
  obtain ⟨a', b', c'⟩ := h
  dsimp only at hg hh
  unfold Geo.eq Geo.smul
  dsimp only
  by_cases hb : b = 0
  · subst hb
    have hc : c ≠ 0 := by
      rintro rfl
      nlinarith [mul_self_nonneg a]
    rw [if_neg (by rw [sgn_zero]; simp)]
    simp only [Bool.and_eq_true, Bool.or_eq_true, Bool.not_eq_true', beq_iff_eq, zero_mul]
    constructor
    · rintro ⟨⟨h1, h2⟩, h3⟩
      have hb' : b' = 0 := by
        rcases mul_eq_zero.1 h3.symm with h | h
        · exact h
        · exact absurd h hc
      subst hb'
      have hc' : c' ≠ 0 := by
        rintro rfl
        nlinarith [mul_self_nonneg a']
      refine ⟨c' / c, div_ne_zero hc' hc, ?_, ?_⟩
      · intro ho
        rw [ho] at h1
        rcases h1 with h1 | h1
        · cases h1
        · rw [sgn_eq_iff hc] at h1
          have := div_pos h1 (mul_self_pos.2 hc)
          rwa [show c * c' / (c * c) = c' / c by field_simp] at this
      · ext
        · show a' = c' / c * a
          field_simp; linear_combination -h2
        · show (0 : K) = c' / c * 0
          simp
        · show c' = c' / c * c
          field_simp
    · rintro ⟨t, ht, hto, he⟩
      injection he with e1 e2 e3
      subst e1 e2 e3
      refine ⟨⟨?_, by ring⟩, by ring⟩
      cases oriented with
      | false => simp
      | true =>
        right
        rw [sgn_eq_iff hc]
        have := mul_pos (hto rfl) (mul_self_pos.2 hc)
        linarith [show c * (t * c) = t * (c * c) by ring]
  · rw [if_pos (by rw [Ne, sgn_eq_zero_iff]; exact hb)]
    simp only [Bool.and_eq_true, Bool.or_eq_true, Bool.not_eq_true', beq_iff_eq]
    constructor
    · rintro ⟨⟨h1, h2⟩, h3⟩
      have hb' : b' ≠ 0 := by
        rintro rfl
        have e1 : a' = 0 := by
          have : a' * b = 0 := by linear_combination -h2
          exact (mul_eq_zero.1 this).resolve_right hb
        have e2 : c' = 0 := by
          have : c' * b = 0 := by linear_combination -h3
          exact (mul_eq_zero.1 this).resolve_right hb
        subst e1 e2
        linarith
      refine ⟨b' / b, div_ne_zero hb' hb, ?_, ?_⟩
      · intro ho
        rw [ho] at h1
        rcases h1 with h1 | h1
        · cases h1
        · rw [sgn_eq_iff hb] at h1
          have := div_pos h1 (mul_self_pos.2 hb)
          rwa [show b * b' / (b * b) = b' / b by field_simp] at this
      · ext
        · show a' = b' / b * a
          field_simp; linear_combination -h2
        · show b' = b' / b * b
          field_simp
        · show c' = b' / b * c
          field_simp; linear_combination -h3
    · rintro ⟨t, ht, hto, he⟩
      injection he with e1 e2 e3
      subst e1 e2 e3
      refine ⟨⟨?_, by ring⟩, by ring⟩
      cases oriented with
      | false => simp
      | true =>
        right
        rw [sgn_eq_iff hb]
        have := mul_pos (hto rfl) (mul_self_pos.2 hb)
        linarith [show b * (t * b) = t * (b * b) by ring]

theorem Geo.Valid.neg {g : Geo K} (hg : g.Valid) : g.neg.Valid := by
  unfold Geo.Valid Geo.neg at *
  dsimp only
  linarith [neg_mul_neg g.a g.a, neg_mul_neg g.b g.b, neg_mul_neg g.c g.c]

theorem Geo.Valid.map {f : K →+* F} (hf : StrictMono f) {g : Geo K} (hg : g.Valid) : (g.map f).Valid := by
  unfold Geo.Valid Geo.map at *
  dsimp only
  have := hf hg
  simpa only [map_add, map_mul] using this

theorem isStart_map {f : K →+* F} (hf : StrictMono f) {g : Geo K} {x y : K} : IsStart (g.map f) (f x) (f y) ↔ IsStart g x y := by
  unfold IsStart Geo.map
  dsimp only
  rw [← map_mul, ← map_mul, ← map_add, ← map_mul, ← map_mul, ← map_add, ← map_add, ← map_mul, ← map_mul, ← map_sub]
  rw [show ((f (g.a + g.b * x + g.c * y) = 0) ↔ g.a + g.b * x + g.c * y = 0) from by rw [← map_zero f]; exact hf.injective.eq_iff,
    show (f (x * x + y * y) = 1 ↔ x * x + y * y = 1) from by rw [← map_one f]; exact hf.injective.eq_iff,
    show (f (g.c * x - g.b * y) < 0 ↔ g.c * x - g.b * y < 0) from by rw [← map_zero f]; exact hf.lt_iff_lt]

theorem on_map {f : K →+* F} (hf : StrictMono f) {g : Geo K} {x y : K} : f g.a + f g.b * f x + f g.c * f y = f (g.a + g.b * x + g.c * y) := by
  simp only [map_add, map_mul]

theorem inter_some {g h : Geo K} {p : K × K} (hi : g.inter h = some p) :
    g.b * h.c - g.c * h.b ≠ 0 ∧ g.a + g.b * p.1 + g.c * p.2 = 0 ∧ h.a + h.b * p.1 + h.c * p.2 = 0 := by
  unfold Geo.inter at hi
  dsimp only at hi
  split_ifs at hi with hd
  injection hi with hi
  subst hi
  refine ⟨hd, ?_, ?_⟩
  · dsimp only
    generalize hdd : g.b * h.c - g.c * h.b = d at *
    field_simp
    rw [← hdd]
    ring
  · dsimp only
    generalize hdd : g.b * h.c - g.c * h.b = d at *
    field_simp
    rw [← hdd]
    ring

theorem inter_none {g h : Geo K} (hi : g.inter h = none) : g.b * h.c - g.c * h.b = 0 := by
  unfold Geo.inter at hi
  dsimp only at hi
  split_ifs at hi with hd
  exact hd

/-- Two lines have at most one point in common. -/
theorem inter_unique {f : K →+* F} (hf : StrictMono f) {g h : Geo K} {p : K × K} (hi : g.inter h = some p) {X Y : F} (h1 : f g.a + f g.b * X + f g.c * Y = 0)
    (h2 : f h.a + f h.b * X + f h.c * Y = 0) : X = f p.1 ∧ Y = f p.2 := by
  obtain ⟨hd, k1, k2⟩ := inter_some hi
  have hd' : f g.b * f h.c - f g.c * f h.b ≠ 0 := by
    rw [← map_mul, ← map_mul, ← map_sub]
    intro h
    rw [← map_zero f] at h
    exact hd (hf.injective h)
  have e1 := on_map hf (g := g) (x := p.1) (y := p.2)
  have e2 := on_map hf (g := h) (x := p.1) (y := p.2)
  rw [k1, map_zero] at e1
  rw [k2, map_zero] at e2
  constructor
  · apply mul_left_cancel₀ hd'
    linear_combination f h.c * (h1 - e1) - f g.c * (h2 - e2)
  · apply mul_left_cancel₀ hd'
    linear_combination f g.b * (h2 - e2) - f h.b * (h1 - e1)

/-- Parallel lines that have a point in common are equal. -/
theorem parallel_eq {f : K →+* F} (hf : StrictMono f) {g h : Geo K} (hg : g.Valid) (hh : h.Valid) (hd : g.b * h.c - g.c * h.b = 0) {X Y : F} (h1 : f g.a + f g.b * X + f g.c * Y = 0)
    (h2 : f h.a + f h.b * X + f h.c * Y = 0) : ∃ t, t ≠ 0 ∧ h = g.smul t := by
  have hn := Geo.valid_norm hg
  have hn' := Geo.valid_norm hh
  set n := g.b * g.b + g.c * g.c with hnn
  have e1 : n * h.b = (h.b * g.b + h.c * g.c) * g.b := by rw [hnn]; linear_combination -g.c * hd
  have e2 : n * h.c = (h.b * g.b + h.c * g.c) * g.c := by rw [hnn]; linear_combination g.b * hd
  have e3 : n * h.a = (h.b * g.b + h.c * g.c) * g.a := by
    apply hf.injective
    have e1' := congrArg f e1
    have e2' := congrArg f e2
    simp only [map_mul, map_add] at e1' e2' ⊢
    linear_combination f n * h2 - (f h.b * f g.b + f h.c * f g.c) * h1 - X * e1' - Y * e2'
  have ht : h.b * g.b + h.c * g.c ≠ 0 := by
    intro ht
    rw [ht, zero_mul] at e1 e2
    have b0 := (mul_eq_zero.1 e1).resolve_left hn.ne'
    have c0 := (mul_eq_zero.1 e2).resolve_left hn.ne'
    rw [b0, c0] at hn'
    simp at hn'
  refine ⟨(h.b * g.b + h.c * g.c) / n, div_ne_zero ht hn.ne', ?_⟩
  ext
  · show h.a = _ / n * g.a
    field_simp; linear_combination e3
  · show h.b = _ / n * g.b
    field_simp; linear_combination e1
  · show h.c = _ / n * g.c
    field_simp; linear_combination e2

theorem smul_isStart {g : Geo K} {t x y : K} (ht : 0 < t) : IsStart (g.smul t) x y ↔ IsStart g x y := by
  unfold IsStart Geo.smul
  dsimp only
  rw [show t * g.a + t * g.b * x + t * g.c * y = t * (g.a + g.b * x + g.c * y) by ring, show t * g.c * x - t * g.b * y = t * (g.c * x - g.b * y) by ring]
  rw [mul_eq_zero, or_iff_right ht.ne', show t * (g.c * x - g.b * y) < 0 ↔ g.c * x - g.b * y < 0 from ⟨fun h => by
    by_contra hcon
    have := mul_nonneg ht.le (not_lt.1 hcon)
    linarith, fun h => mul_neg_of_pos_of_neg ht h⟩]

theorem map_smul {f : K →+* F} {g : Geo K} {t : K} : (g.smul t).map f = (g.map f).smul (f t) := by
  unfold Geo.smul Geo.map
  simp only [map_mul]

/-- **C51**. Points are equal exactly if they have the same position in the Klein disk, whether they are given by coordinates or as the starting points of geodesics, and even if they have no coordinates over the base ring. -/
theorem C51_point_eq {f : K →+* F} (hf : StrictMono f) {p q : Pt K} (hp : p.Valid) (hq : q.Valid) {X Y X' Y' : F} (hlp : Loc f p X Y) (hlq : Loc f q X' Y') :
    p.eq q = .ok (decide (X = X' ∧ Y = Y')) := by
  have hsc : ∀ (g : Geo K), g.Valid → ∀ x y X Y, IsStart (g.map f) X Y → startEqCoords g x y = .ok (decide (f x = X ∧ f y = Y)) := by
    intro g hg x y X Y hl
    rw [startEqCoords_ok hg]
    congr 1
    rw [decide_eq_decide]
    constructor
    · intro h
      exact IsStart.unique ((isStart_map hf).2 h) hl (hg.map hf)
    · rintro ⟨rfl, rfl⟩
      exact (isStart_map hf).1 hl
  match p, q with
  | .coords x y, .coords x' y' =>
    obtain ⟨rfl, rfl⟩ := hlp
    obtain ⟨rfl, rfl⟩ := hlq
    simp only [Pt.eq, hf.injective.eq_iff]
    congr 1
    rw [Bool.eq_iff_iff]
    simp
  | .coords x y, .start g =>
    obtain ⟨rfl, rfl⟩ := hlp
    exact hsc g hq x y X' Y' hlq
  | .start g, .coords x y =>
    obtain ⟨rfl, rfl⟩ := hlq
    change startEqCoords g x y = _
    rw [hsc g hp x y X Y hlp]
    congr 1
    rw [decide_eq_decide]
    constructor
    · rintro ⟨rfl, rfl⟩; exact ⟨rfl, rfl⟩
    · rintro ⟨rfl, rfl⟩; exact ⟨rfl, rfl⟩
  | .start g, .start h =>
    have hg : g.Valid := hp
    have hh : h.Valid := hq
    change startEqStart g h = _
    unfold startEqStart
    by_cases h1 : g.eq h true = true
    · rw [if_pos h1]
      obtain ⟨t, ht, hto, rfl⟩ := (C51_geodesic_eq hg hh true).1 h1
      have hl' : IsStart (g.map f) X' Y' := by
        have h2 : IsStart ((g.smul t).map f) X' Y' := hlq
        rw [map_smul] at h2
        have htp : 0 < f t := by rw [← map_zero f]; exact hf (hto rfl)
        exact (smul_isStart htp).1 h2
      rw [decide_eq_true (IsStart.unique hlp hl' (hg.map hf))]
    · rw [if_neg h1]
      by_cases h2 : g.eq h.neg true = true
      · rw [if_pos h2]
        obtain ⟨t, ht, hto, he⟩ := (C51_geodesic_eq hg hh.neg true).1 h2
        have ne : ¬ (X = X' ∧ Y = Y') := by
          rintro ⟨rfl, rfl⟩
          have u1 := hlp.2.2
          have u2 := hlq.2.2
          have htp : 0 < f t := by rw [← map_zero f]; exact hf (hto rfl)
          injection he with e1 e2 e3
          have e2' := congrArg f e2
          have e3' := congrArg f e3
          rw [map_neg, map_mul] at e2' e3'
          simp only [Geo.map] at u1 u2
          have : f h.c * X - f h.b * Y = - (f t * (f g.c * X - f g.b * Y)) := by linear_combination -X * e3' + Y * e2'
          have := mul_neg_of_pos_of_neg htp u1
          linarith
        rw [decide_eq_false ne]
      · rw [if_neg h2]
        have hon : ∀ (hXY : X = X' ∧ Y = Y'), f g.a + f g.b * X + f g.c * Y = 0 ∧ f h.a + f h.b * X + f h.c * Y = 0 := by
          rintro ⟨rfl, rfl⟩
          exact ⟨hlp.2.1, hlq.2.1⟩
        cases hi : g.inter h with
        | none =>
          have ne : ¬ (X = X' ∧ Y = Y') := by
            intro hXY
            obtain ⟨t, ht, rfl⟩ := parallel_eq hf hg hh (inter_none hi) (hon hXY).1 (hon hXY).2
            rcases lt_or_gt_of_ne ht with htn | htp
            · apply h2
              rw [C51_geodesic_eq hg hh.neg]
              refine ⟨-t, by linarith, fun _ => by linarith, ?_⟩
              unfold Geo.neg Geo.smul
              simp
            · apply h1
              rw [C51_geodesic_eq hg hh]
              exact ⟨t, ht, fun _ => htp, rfl⟩
          rw [decide_eq_false ne]
        | some r =>
          dsimp only
          rw [hsc g hg r.1 r.2 X Y hlp, hsc h hh r.1 r.2 X' Y' hlq]
          simp only [bind, Except.bind, pure, Except.pure]
          by_cases hXY : X = X' ∧ Y = Y'
          · obtain ⟨e1, e2⟩ := inter_unique hf hi (hon hXY).1 (hon hXY).2
            rw [if_pos (by simp [e1, e2])]
            congr 1
            rw [decide_eq_decide]
            rw [← e1, ← e2]
          · rw [decide_eq_false hXY]
            split_ifs with h3
            · congr 1
              rw [decide_eq_false_iff_not]
              rintro ⟨e1, e2⟩
              rw [decide_eq_true_eq] at h3
              exact hXY ⟨h3.1.symm.trans e1, h3.2.symm.trans e2⟩
            · rfl

/-- **C51**. A geodesic contains exactly the points that satisfy its equation. -/
theorem C51_contains {f : K →+* F} (hf : StrictMono f) {g : Geo K} (hg : g.Valid) {p : Pt K} (hp : p.Valid) {X Y : F} (hl : Loc f p X Y) :
    g.contains p = .ok (decide (f g.a + f g.b * X + f g.c * Y = 0)) := by
  match p with
  | .coords x y =>
    obtain ⟨rfl, rfl⟩ := hl
    unfold Geo.contains Geo.containsCoords
    rw [on_map hf]
    dsimp only
    congr 1
    rw [decide_eq_decide]
    rw [← map_zero f, hf.injective.eq_iff]
  | .start h =>
    have hh : h.Valid := hp
    have hl' : IsStart (h.map f) X Y := hl
    have honh : f h.a + f h.b * X + f h.c * Y = 0 := hl'.2.1
    change (if h.eq g false = true then _ else _) = _
    by_cases h1 : h.eq g false = true
    · rw [if_pos h1]
      obtain ⟨t, ht, -, rfl⟩ := (C51_geodesic_eq hh hg false).1 h1
      rw [decide_eq_true]
      simp only [Geo.smul, map_mul]
      linear_combination f t * honh
    · rw [if_neg h1]
      cases hi : g.inter h with
      | none =>
        dsimp only
        rw [decide_eq_false]
        intro hong
        obtain ⟨t, ht, he⟩ := parallel_eq hf hh hg (by linarith [inter_none hi]) honh hong
        apply h1
        rw [C51_geodesic_eq hh hg]
        exact ⟨t, ht, by simp, he⟩
      | some r =>
        dsimp only
        split_ifs with h2
        · rw [decide_eq_false]
          intro hong
          obtain ⟨rfl, rfl⟩ := inter_unique hf hi hong honh
          have h3 := hl'.1
          rw [← map_mul, ← map_mul, ← map_add, ← map_one f] at h3
          have := hf.injective h3
          linarith
        · rw [startEqCoords_ok hh]
          congr 1
          rw [decide_eq_decide]
          constructor
          · intro h3
            obtain ⟨e1, e2⟩ := IsStart.unique ((isStart_map hf).2 h3) hl' (hh.map hf)
            rw [← e1, ← e2, on_map hf, (inter_some hi).2.1, map_zero]
          · intro hong
            obtain ⟨rfl, rfl⟩ := inter_unique hf hi hong honh
            exact (isStart_map hf).1 hl'

theorem anElement_ok {g : Geo K} (hg : g.Valid) : ∃ e : K × K, g.anElement = .ok e ∧ g.a + g.b * e.1 + g.c * e.2 = 0 ∧ g.c * e.1 - g.b * e.2 = 0 ∧ e.1 * e.1 + e.2 * e.2 < 1 := by
  have hn := Geo.valid_norm hg
  unfold Geo.Valid at hg
  have hdet : -g.c * g.c - g.b * g.b ≠ 0 := by nlinarith
  refine ⟨((-g.c * 0 + g.b * g.a) / (-g.c * g.c - g.b * g.b), (g.b * 0 - -g.c * g.a) / (-g.c * g.c - g.b * g.b)), ?_, ?_, ?_, ?_⟩
  · unfold Geo.anElement Geo.inter
    dsimp only
    rw [if_neg hdet]
  · dsimp only
    generalize hd : -g.c * g.c - g.b * g.b = d at *
    field_simp
    rw [← hd]; ring
  · dsimp only
    generalize hd : -g.c * g.c - g.b * g.b = d at *
    field_simp
    ring
  · dsimp only
    rw [show -g.c * g.c - g.b * g.b = -(g.b * g.b + g.c * g.c) by ring]
    generalize hd : g.b * g.b + g.c * g.c = d at *
    have : (-g.c * 0 + g.b * g.a) / -d * ((-g.c * 0 + g.b * g.a) / -d) + (g.b * 0 - -g.c * g.a) / -d * ((g.b * 0 - -g.c * g.a) / -d) = g.a * g.a / d := by
      field_simp
      rw [← hd]; ring
    rw [this, div_lt_one hn]
    exact hg

theorem leftCoords_eq (g : Geo K) (x y : K) : g.leftCoords x y = decide (0 ≤ g.a + g.b * x + g.c * y) := by
  unfold Geo.leftCoords
  rw [decide_eq_decide]
  exact sgn_nonneg_iff

theorem same_sign {n D uP uq v w : F} (hn : 0 < n) (hP : uP < 0) (hle : uP * uP ≤ uq * uq) (hne : uq ≠ uP) (h4 : n * v = D * (uP - uq)) (h9 : n * w = D * (0 - uq)) :
    0 ≤ w ↔ 0 ≤ v := by
  have hv : 0 ≤ v ↔ 0 ≤ D * (uP - uq) := by
    rw [← h4]
    exact ⟨fun h => mul_nonneg hn.le h, fun h => nonneg_of_mul_nonneg_right h hn⟩
  have hw : 0 ≤ w ↔ 0 ≤ D * (0 - uq) := by
    rw [← h9]
    exact ⟨fun h => mul_nonneg hn.le h, fun h => nonneg_of_mul_nonneg_right h hn⟩
  rw [hv, hw]
  rcases lt_trichotomy uq 0 with hneg | h0 | hpos
  · have h10 : 0 < uP - uq := by
      rcases lt_or_gt_of_ne hne with h | h
      · linarith
      · nlinarith
    rw [mul_nonneg_iff_of_pos_right h10, mul_nonneg_iff_of_pos_right (by linarith)]
  · rw [h0] at hle
    have := mul_pos_of_neg_of_neg hP hP
    linarith
  · have h1 : uP - uq < 0 := by linarith
    have h2 : 0 - uq < 0 := by linarith
    rw [show D * (uP - uq) = (-D) * (-(uP - uq)) by ring, show D * (0 - uq) = (-D) * (-(0 - uq)) by ring]
    rw [mul_nonneg_iff_of_pos_right (by linarith), mul_nonneg_iff_of_pos_right (by linarith)]

theorem cross_sign {n D uP uq v : F} (hn : 0 < n) (hP : uP < 0) (hlt : uq * uq < uP * uP) (hD0 : D ≠ 0) (h4 : n * v = D * (uP - uq)) : D < 0 ↔ 0 ≤ v := by
  have hv : 0 ≤ v ↔ 0 ≤ D * (uP - uq) := by
    rw [← h4]
    exact ⟨fun h => mul_nonneg hn.le h, fun h => nonneg_of_mul_nonneg_right h hn⟩
  rw [hv]
  have h10 : uP - uq < 0 := by
    by_contra hcon
    push Not at hcon
    nlinarith
  constructor
  · intro h
    exact (mul_pos_of_neg_of_neg h h10).le
  · intro h
    by_contra hcon
    have h13 : 0 < D := lt_of_le_of_ne (not_lt.1 hcon) (Ne.symm hD0)
    have := mul_neg_of_pos_of_neg h13 h10
    linarith

/-- **C51**. A half space contains exactly the points that satisfy its inequality, even if they have no coordinates over the base ring. -/
theorem C51_half_space {f : K →+* F} (hf : StrictMono f) {sqrt : K → Option K} (hs : IsSqrt sqrt) {g : Geo K} (hg : g.Valid) {p : Pt K} (hp : p.Valid) {X Y : F} (hl : Loc f p X Y) :
    g.left sqrt p = .ok (decide (0 ≤ f g.a + f g.b * X + f g.c * Y)) := by
  have hpos : ∀ x y : K, g.leftCoords x y = decide (0 ≤ f g.a + f g.b * f x + f g.c * f y) := by
    intro x y
    rw [leftCoords_eq, on_map hf, decide_eq_decide, ← map_zero f, hf.le_iff_le]
  match p with
  | .coords x y =>
    obtain ⟨rfl, rfl⟩ := hl
    unfold Geo.left Pt.klein
    dsimp only
    rw [hpos]
  | .start h =>
    have hh : h.Valid := hp
    have hl' : IsStart (h.map f) X Y := hl
    unfold Geo.left
    rcases C51_start hs hh with ⟨x, y, h1, h2⟩ | ⟨h1, h2⟩
    · have h3 : (Pt.start h).klein sqrt = .ok (x, y) := h1
      rw [h3]
      dsimp only
      obtain ⟨e1, e2⟩ := IsStart.unique ((isStart_map hf).2 h2) hl' (hh.map hf)
      rw [hpos, e1, e2]
    · have h3 : (Pt.start h).klein sqrt = .error .valueError := h1
      rw [h3]
      dsimp only
      obtain ⟨e, he, he1, he2, he3⟩ := anElement_ok hh
      obtain ⟨hc1, hc2, hc3⟩ := hl'
      simp only [Geo.map] at hc2 hc3
      have fe1 := congrArg f he1
      have fe2 := congrArg f he2
      simp only [map_add, map_mul, map_sub, map_zero] at fe1 fe2
      have hn := Geo.valid_norm (hh.map hf)
      simp only [Geo.map] at hn
      set n := f h.b * f h.b + f h.c * f h.c with hnn
      -- the position of the start relative to a point on the line
      have hrel : ∀ q : K × K, h.a + h.b * q.1 + h.c * q.2 = 0 → n * (f g.a + f g.b * X + f g.c * Y) = n * (f g.a + f g.b * f q.1 + f g.c * f q.2) +
          (f g.b * f h.c - f g.c * f h.b) * ((f h.c * X - f h.b * Y) - (f h.c * f q.1 - f h.b * f q.2)) := by
        intro q hq
        have fq := congrArg f hq
        simp only [map_add, map_mul, map_zero] at fq
        rw [hnn]
        linear_combination (f g.b * f h.b + f g.c * f h.c) * (hc2 - fq)
      rw [he]
      simp only [bind, Except.bind, pure, Except.pure]
      cases hi : g.inter h with
      | none =>
        dsimp only
        rw [hpos]
        congr 1
        rw [decide_eq_decide]
        have h4 := hrel e he1
        have h5 := congrArg f (inter_none hi)
        simp only [map_mul, map_sub, map_zero] at h5
        rw [h5, zero_mul, add_zero] at h4
        rw [mul_left_cancel₀ hn.ne' h4]
      | some q =>
        dsimp only
        obtain ⟨hd, hq1, hq2⟩ := inter_some hi
        have h4 := hrel q hq2
        have hq1' := congrArg f hq1
        simp only [map_add, map_mul, map_zero] at hq1'
        have hq2' := congrArg f hq2
        simp only [map_add, map_mul, map_zero] at hq2'
        rw [hq1', mul_zero, zero_add] at h4
        have h5 := hrel e he1
        rw [fe2, sub_zero] at h5
        set D := f g.b * f h.c - f g.c * f h.b with hD
        set uP := f h.c * X - f h.b * Y with huP
        set uq := f h.c * f q.1 - f h.b * f q.2 with huq
        have hD0 : D ≠ 0 := by
          rw [hD, ← map_mul, ← map_mul, ← map_sub, ← map_zero f]
          exact fun h => hd (hf.injective h)
        have hsqP : uP * uP = n - f h.a * f h.a := by
          rw [huP, hnn]
          linear_combination (f h.b * f h.b + f h.c * f h.c) * hc1 - (f h.b * X + f h.c * Y - f h.a) * hc2
        have hsqq : uq * uq = n * (f q.1 * f q.1 + f q.2 * f q.2) - f h.a * f h.a := by
          rw [huq, hnn]
          linear_combination (-(f h.b * f q.1 + f h.c * f q.2) + f h.a) * hq2'
        by_cases h6 : ¬ q.1 * q.1 + q.2 * q.2 < 1
        · -- the lines do not meet inside the disk
          rw [if_pos h6, hpos]
          congr 1
          rw [decide_eq_decide]
          have h7 : 1 ≤ f q.1 * f q.1 + f q.2 * f q.2 := by
            rw [← map_mul, ← map_mul, ← map_add, ← map_one f, hf.le_iff_le]
            exact not_lt.1 h6
          have h8 : uP * uP ≤ uq * uq := by
            rw [hsqP, hsqq]
            nlinarith
          have hne : uq ≠ uP := by
            intro heq
            have h9 : uq * uq = uP * uP := by rw [heq]
            rw [hsqP, hsqq] at h9
            have h10 : f q.1 * f q.1 + f q.2 * f q.2 = 1 := by
              apply mul_left_cancel₀ hn.ne'
              linarith
            refine h2 q.1 q.2 ((isStart_map hf).1 ⟨h10, hq2', ?_⟩)
            show f h.c * f q.1 - f h.b * f q.2 < 0
            rw [← huq, heq]
            exact hc3
          have h9 : n * (f g.a + f g.b * f e.1 + f g.c * f e.2) = D * (0 - uq) := by
            linear_combination h4 - h5
          exact same_sign hn hc3 h8 hne h4 h9
        · rw [if_neg h6]
          rw [not_not] at h6
          have hccw : g.ccw h false = .ok (sgn (g.b * h.c - g.c * h.b)) := by
            unfold Geo.ccw
            rw [hi]
            dsimp only
            rw [if_neg (by rintro ⟨h, -⟩; linarith), if_neg (by rintro ⟨h, -⟩; linarith)]
            congr 2
            ring
          rw [hccw]
          dsimp only
          rw [if_neg (by rw [sgn_eq_zero_iff]; exact hd)]
          congr 1
          rw [decide_eq_decide, sgn_neg_iff]
          have h7 : f q.1 * f q.1 + f q.2 * f q.2 < 1 := by
            rw [← map_mul, ← map_mul, ← map_add, ← map_one f, hf.lt_iff_lt]
            exact h6
          have h8 : uq * uq < uP * uP := by
            rw [hsqP, hsqq]
            nlinarith
          have hDn : g.b * h.c - g.c * h.b < 0 ↔ D < 0 := by
            rw [hD, ← map_mul, ← map_mul, ← map_sub, ← map_zero f, hf.lt_iff_lt]
          rw [hDn]
          exact cross_sign hn hc3 h8 hD0 h4

/-! ### The upper half plane -/

/-- The coordinates of a point over the base ring are its position. -/
theorem loc_klein {sqrt : K → Option K} (hs : IsSqrt sqrt) {p : Pt K} (hp : p.Valid) {k : K × K} (h : p.klein sqrt = .ok k) : Loc (RingHom.id K) p k.1 k.2 := by
  match p with
  | .coords x y =>
    cases h
    exact ⟨rfl, rfl⟩
  | .start g => exact (startCoordinates_ok hs hp).1 h

theorem klein_valid {sqrt : K → Option K} (hs : IsSqrt sqrt) {p : Pt K} (hp : p.Valid) {k : K × K} (h : p.klein sqrt = .ok k) : k.1 * k.1 + k.2 * k.2 ≤ 1 := by
  match p with
  | .coords x y => cases h; exact hp
  | .start g => exact ((startCoordinates_ok hs hp).1 h).1.le

theorem isFinite_iff {sqrt : K → Option K} (hs : IsSqrt sqrt) {p : Pt K} (hp : p.Valid) {k : K × K} (h : p.klein sqrt = .ok k) : p.isFinite = true ↔ k.1 * k.1 + k.2 * k.2 < 1 := by
  match p with
  | .coords x y => cases h; simp [Pt.isFinite]
  | .start g =>
    have := ((startCoordinates_ok hs hp).1 h).1
    simp [Pt.isFinite, this]

theorem not_ultraIdeal {p : Pt K} (hp : p.Valid) : p.isUltraIdeal = false := by
  match p with
  | .coords x y =>
    have h : x * x + y * y ≤ 1 := hp
    simp [Pt.isUltraIdeal, h]
  | .start g => rfl

theorem eq_infinity {sqrt : K → Option K} (hs : IsSqrt sqrt) {p : Pt K} (hp : p.Valid) {k : K × K} (h : p.klein sqrt = .ok k) : p.eq infinity = .ok (decide (k.1 = 0 ∧ k.2 = 1)) :=
  C51_point_eq (f := RingHom.id K) (fun _ _ h => h) hp (by show (0 : K) * 0 + 1 * 1 ≤ 1; norm_num) (loc_klein hs hp h) ⟨rfl, rfl⟩

theorem toKlein_inverse {k1 k2 x y s : K} (hk : k2 ≠ 1) (hs : s * s = 1 - k1 * k1 - k2 * k2) (hx : x = k1 / (1 - k2)) (hy : y = s / (1 - k2)) : toKlein x y = (k1, k2) := by
  have h1 : 1 - k2 ≠ 0 := sub_ne_zero.2 (Ne.symm hk)
  have hd : 1 + x * x + y * y = 2 / (1 - k2) := by
    rw [hx, hy]
    field_simp
    linear_combination hs
  have hd' : -1 + x * x + y * y = 2 * k2 / (1 - k2) := by
    have : -1 + x * x + y * y = (1 + x * x + y * y) - 2 := by ring
    rw [this, hd]
    field_simp
    ring
  unfold toKlein
  rw [hd, hd', hx]
  ext
  · dsimp only; field_simp
  · dsimp only; field_simp

/-- **C51**. The coordinates of a point in the upper half plane are the coordinates that define the point: conversions between the two models are inverse to each other. -/
theorem C51_coordinates {sqrt : K → Option K} (hs : IsSqrt sqrt) {p : Pt K} (hp : p.Valid) (x y : K) :
    p.coordinates sqrt .halfPlane = .ok (x, y) ↔ 0 ≤ y ∧ p.klein sqrt = .ok (toKlein x y) := by
  unfold Pt.coordinates
  dsimp only
  cases hk : p.klein sqrt with
  | error e => simp [bind, Except.bind]
  | ok k =>
    have hv := klein_valid hs hp hk
    simp only [bind, Except.bind, eq_infinity hs hp hk, not_ultraIdeal hp, Bool.or_false, decide_eq_true_eq]
    by_cases hinf : k.1 = 0 ∧ k.2 = 1
    · rw [if_pos hinf]
      constructor
      · intro h; cases h
      · rintro ⟨-, h⟩
        injection h with h
        have h1 := one_sub_toKlein x y
        rw [← h, hinf.2] at h1
        have := denom_pos x y
        have h2 : 0 < 2 / (1 + x * x + y * y) := by positivity
        linarith
    · rw [if_neg hinf]
      have hk2 : k.2 ≠ 1 := by
        intro h
        rw [h] at hv
        have h3 : k.1 * k.1 ≤ 0 := by linarith
        exact hinf ⟨mul_self_eq_zero.1 (le_antisymm h3 (mul_self_nonneg _)), h⟩
      have hk2' : 0 < 1 - k.2 := by
        have : k.2 ≤ 1 := by nlinarith [mul_self_nonneg k.1, mul_self_nonneg (k.2 - 1)]
        have := lt_of_le_of_ne this hk2
        linarith
      by_cases hfin : p.isFinite = true
      · rw [if_neg (by simp [hfin])]
        rw [isFinite_iff hs hp hk] at hfin
        cases hr : sqrt (1 - k.1 * k.1 - k.2 * k.2) with
        | none =>
          constructor
          · intro h; cases h
          · rintro ⟨hy, h⟩
            injection h with h
            refine absurd ?_ (hs.complete _ hr (2 * y / (1 + x * x + y * y)))
            have hnorm := toKlein_norm x y
            rw [← h] at hnorm
            have hd := (denom_pos x y).ne'
            rw [show 1 - k.1 * k.1 - k.2 * k.2 = 4 * (y * y) / ((1 + x * x + y * y) * (1 + x * x + y * y)) by linarith]
            generalize 1 + x * x + y * y = d at *
            field_simp
            ring
        | some s =>
          obtain ⟨hs0, hss⟩ := hs.sound _ _ hr
          simp only [pure, Except.pure]
          constructor
          · intro h
            injection h with h
            injection h with h1 h2
            refine ⟨by rw [← h2]; exact div_nonneg hs0 hk2'.le, ?_⟩
            rw [toKlein_inverse hk2 hss h1.symm h2.symm]
          · rintro ⟨hy, h⟩
            injection h with h
            have h1 := one_sub_toKlein x y
            have hnorm := toKlein_norm x y
            rw [← h] at h1 hnorm
            have hd := denom_pos x y
            have h2 : s = 2 * y / (1 + x * x + y * y) := by
              have h3 : s * s = (2 * y / (1 + x * x + y * y)) * (2 * y / (1 + x * x + y * y)) := by
                rw [hss, show 1 - k.1 * k.1 - k.2 * k.2 = 4 * (y * y) / ((1 + x * x + y * y) * (1 + x * x + y * y)) by linarith]
                generalize 1 + x * x + y * y = d at *
                field_simp
                ring
              have h4 : 0 ≤ 2 * y / (1 + x * x + y * y) := div_nonneg (by linarith) hd.le
              exact (mul_self_inj hs0 h4).1 h3
            rw [h1, h2, show k.1 = 2 * x / (1 + x * x + y * y) by rw [h]; rfl]
            congr 1
            ext
            · dsimp only; field_simp
            · dsimp only; field_simp
      · rw [if_pos (by simp [hfin])]
        rw [isFinite_iff hs hp hk] at hfin
        have h1k : k.1 * k.1 + k.2 * k.2 = 1 := le_antisymm hv (not_lt.1 hfin)
        simp only [pure, Except.pure]
        constructor
        · intro h
          injection h with h
          injection h with h1 h2
          refine ⟨h2.le, ?_⟩
          rw [toKlein_inverse (s := 0) hk2 (by linarith) h1.symm (by rw [← h2]; simp)]
        · rintro ⟨hy, h⟩
          injection h with h
          have hnorm := toKlein_norm x y
          rw [← h, h1k] at hnorm
          have hd := denom_pos x y
          have hy0 : y = 0 := by
            have h3 : 4 * (y * y) / ((1 + x * x + y * y) * (1 + x * x + y * y)) = 0 := by linarith
            rcases div_eq_zero_iff.1 h3 with h4 | h4
            · have : y * y = 0 := by linarith
              exact mul_self_eq_zero.1 this
            · exact absurd h4 (mul_pos hd hd).ne'
          have h1 := one_sub_toKlein x y
          rw [← h] at h1
          rw [h1, show k.1 = 2 * x / (1 + x * x + y * y) by rw [h]; rfl, hy0]
          congr 1
          ext
          · dsimp only; rw [hy0] at hd; field_simp
          · rfl

/-- **C51**. A point that is defined by coordinates in the upper half plane has these coordinates. -/
theorem C51_roundtrip {sqrt : K → Option K} (hs : IsSqrt sqrt) {x y : K} (hy : 0 ≤ y) (check : Bool) :
    ∃ p, point x y .halfPlane check = .ok p ∧ p.Valid ∧ p.coordinates sqrt .halfPlane = .ok (x, y) := by
  rw [C51_point, if_neg (not_lt.2 hy)]
  exact ⟨_, rfl, toKlein_valid x y, (C51_coordinates hs (p := .coords (toKlein x y).1 (toKlein x y).2) (toKlein_valid x y) x y).2 ⟨hy, rfl⟩⟩

theorem form_toKlein (g : Geo K) (x y : K) : g.a + g.b * (toKlein x y).1 + g.c * (toKlein x y).2 =
    ((g.a + g.c) * (x * x + y * y) + 2 * g.b * x + (g.a - g.c)) / (1 + x * x + y * y) := by
  have hd := (denom_pos x y).ne'
  unfold toKlein
  dsimp only
  field_simp
  ring

theorem geodesic_ok {a b c : K} {model : HModel} {check : Bool} {g : Geo K} (h : geodesic a b c model check = .ok g) :
    g = (match (generalizing := false) model with | .klein => ⟨a, b, c⟩ | .halfPlane => ⟨a + c, b, a - c⟩) ∧ (check = true → g.Valid) := by
  unfold geodesic at h
  cases model <;> cases check <;> dsimp only at h
  · simp [pure, Except.pure] at h
    exact ⟨h.symm, by simp⟩
  · simp only [if_true] at h
    cases hc : Geo.check (⟨a + c, b, a - c⟩ : Geo K) with
    | error e => rw [hc] at h; simp [bind, Except.bind] at h
    | ok u =>
      rw [hc] at h
      simp [bind, Except.bind, pure, Except.pure] at h
      subst h
      exact ⟨rfl, fun _ => Geo.check_ok.1 hc⟩
  · simp [pure, Except.pure] at h
    exact ⟨h.symm, by simp⟩
  · simp only [if_true] at h
    cases hc : Geo.check (⟨a, b, c⟩ : Geo K) with
    | error e => rw [hc] at h; simp [bind, Except.bind] at h
    | ok u =>
      rw [hc] at h
      simp [bind, Except.bind, pure, Except.pure] at h
      subst h
      exact ⟨rfl, fun _ => Geo.check_ok.1 hc⟩

theorem geodesic_of_valid {a b c : K} (check : Bool) (h : (⟨a, b, c⟩ : Geo K).Valid) : geodesic a b c .klein check = .ok ⟨a, b, c⟩ := by
  unfold geodesic
  cases check
  · rfl
  · simp only [if_true, Geo.check_ok.2 h]
    rfl

/-- **C51**. A geodesic that is given by an equation in the upper half plane is accepted exactly if it defines a half circle or a vertical line, and contains the points of the upper half plane that satisfy that equation; the half space left of it contains the points that satisfy the inequality. -/
theorem C51_half_plane {sqrt : K → Option K} (hs : IsSqrt sqrt) (a b c : K) :
    (4 * a * c < b * b → ∃ g, geodesic a b c .halfPlane true = .ok g) ∧
    (¬ 4 * a * c < b * b → geodesic a b c .halfPlane true = .error .valueError) ∧
    ∀ g, geodesic a b c .halfPlane true = .ok g → g.Valid ∧ ∀ x y p, 0 ≤ y → point x y .halfPlane true = .ok p →
      g.contains p = .ok (decide (a * (x * x + y * y) + b * x + c = 0)) ∧ g.left sqrt p = .ok (decide (0 ≤ a * (x * x + y * y) + b * x + c)) := by
  have hval : (⟨a + c, b, a - c⟩ : Geo K).Valid ↔ 4 * a * c < b * b := by
    unfold Geo.Valid
    dsimp only
    rw [show (a + c) * (a + c) = 4 * a * c + (a - c) * (a - c) by ring]
    exact add_lt_add_iff_right _
  refine ⟨?_, ?_, ?_⟩
  · intro h
    refine ⟨⟨a + c, b, a - c⟩, ?_⟩
    unfold geodesic
    simp only [if_true, Geo.check_ok.2 (hval.2 h)]
    rfl
  · intro h
    rw [← hval] at h
    unfold geodesic
    simp only [if_true]
    have : Geo.check (⟨a + c, b, a - c⟩ : Geo K) = .error .valueError := by
      rw [← Geo.check_ok] at h
      unfold Geo.check at h ⊢
      split_ifs at h ⊢ with h1
      · rfl
      · exact absurd rfl h
    rw [this]
    rfl
  · intro g hg
    obtain ⟨rfl, hgv⟩ := geodesic_ok hg
    have hgv := hgv rfl
    refine ⟨hgv, ?_⟩
    intro x y p hy hp
    rw [C51_point, if_neg (not_lt.2 hy)] at hp
    injection hp with hp
    subst hp
    have hf : StrictMono (RingHom.id K) := fun _ _ h => h
    have hl : Loc (RingHom.id K) (.coords (toKlein x y).1 (toKlein x y).2) (toKlein x y).1 (toKlein x y).2 := ⟨rfl, rfl⟩
    have hpv : (Pt.coords (toKlein x y).1 (toKlein x y).2).Valid := toKlein_valid x y
    have hd := denom_pos x y
    have key := form_toKlein (⟨a + c, b, a - c⟩ : Geo K) x y
    have key2 : ((a + c + (a - c)) * (x * x + y * y) + 2 * b * x + (a + c - (a - c))) = 2 * (a * (x * x + y * y) + b * x + c) := by ring
    dsimp only at key
    rw [key2] at key
    constructor
    · rw [C51_contains hf hgv hpv hl]
      congr 1
      rw [decide_eq_decide]
      simp only [RingHom.id_apply]
      rw [key, div_eq_zero_iff, or_iff_left hd.ne']
      constructor
      · intro h; linarith
      · intro h; rw [h]; simp
    · rw [C51_half_space hf hs hgv hpv hl]
      congr 1
      rw [decide_eq_decide]
      simp only [RingHom.id_apply]
      rw [key]
      constructor
      · intro h
        have := mul_nonneg h hd.le
        rw [div_mul_cancel₀ _ hd.ne'] at this
        linarith
      · intro h
        exact div_nonneg (by linarith) hd.le

/-- **C51**. `equation(model="half_plane")` is an equation of the geodesic in the upper half plane, from which the same geodesic can be created again. -/
theorem C51_equation {g : Geo K} (hg : g.Valid) : ∃ g', geodesic (g.equation .halfPlane).1 (g.equation .halfPlane).2.1 (g.equation .halfPlane).2.2 .halfPlane true = .ok g' ∧ g.eq g' true = true := by
  have hval : (g.smul 2).Valid := by
    unfold Geo.Valid Geo.smul at *
    dsimp only
    linarith [show 2 * g.a * (2 * g.a) = 4 * (g.a * g.a) by ring, show 2 * g.b * (2 * g.b) + 2 * g.c * (2 * g.c) = 4 * (g.b * g.b + g.c * g.c) by ring]
  refine ⟨g.smul 2, ?_, (C51_geodesic_eq hg hval true).2 ⟨2, by norm_num, by norm_num, rfl⟩⟩
  unfold geodesic Geo.equation
  dsimp only
  have : (⟨g.a + g.c + (g.a - g.c), 2 * g.b, g.a + g.c - (g.a - g.c)⟩ : Geo K) = g.smul 2 := by
    unfold Geo.smul
    ext <;> dsimp only <;> ring
  rw [this]
  simp only [if_true, Geo.check_ok.2 hval]
  rfl

/-- **C51**. `half_circle` is the half circle around the center, and left of it is the outside. -/
theorem C51_half_circle {sqrt : K → Option K} (hs : IsSqrt sqrt) (center radiusSquared : K) :
    (radiusSquared ≤ 0 → halfCircle center radiusSquared = .error .valueError) ∧ (0 < radiusSquared → ∃ g, halfCircle center radiusSquared = .ok g ∧ g.Valid ∧ ∀ x y p, 0 ≤ y →
      point x y .halfPlane true = .ok p → g.contains p = .ok (decide ((x - center) * (x - center) + y * y = radiusSquared)) ∧
        g.left sqrt p = .ok (decide (radiusSquared ≤ (x - center) * (x - center) + y * y))) := by
  refine ⟨fun h => if_pos h, fun h => ?_⟩
  obtain ⟨h1, h2, h3⟩ := C51_half_plane hs 1 (-2 * center) (center * center - radiusSquared)
  obtain ⟨g, hg⟩ := h1 (by linarith [show 4 * 1 * (center * center - radiusSquared) = -2 * center * (-2 * center) - 4 * radiusSquared by ring])
  refine ⟨g, by unfold halfCircle; rw [if_neg (not_le.2 h)]; exact hg, (h3 g hg).1, ?_⟩
  intro x y p hy hp
  obtain ⟨h4, h5⟩ := (h3 g hg).2 x y p hy hp
  rw [h4, h5]
  have key : 1 * (x * x + y * y) + -2 * center * x + (center * center - radiusSquared) = (x - center) * (x - center) + y * y - radiusSquared := by ring
  rw [key]
  exact ⟨by congr 1; rw [decide_eq_decide, sub_eq_zero], by congr 1; rw [decide_eq_decide, sub_nonneg]⟩

/-- **C51**. `vertical` is the vertical line, and left of it are the points with smaller real part. -/
theorem C51_vertical {sqrt : K → Option K} (hs : IsSqrt sqrt) (real : K) : ∃ g, vertical real = .ok g ∧ g.Valid ∧ ∀ x y p, 0 ≤ y →
      point x y .halfPlane true = .ok p → g.contains p = .ok (decide (x = real)) ∧ g.left sqrt p = .ok (decide (x ≤ real)) := by
  have hval : (⟨real, -1, -real⟩ : Geo K).Valid := by
    unfold Geo.Valid
    dsimp only
    linarith [show (-1 : K) * -1 + -real * -real = 1 + real * real by ring]
  refine ⟨⟨real, -1, -real⟩, geodesic_of_valid true hval, hval, ?_⟩
  intro x y p hy hp
  rw [C51_point, if_neg (not_lt.2 hy)] at hp
  injection hp with hp
  subst hp
  have hf : StrictMono (RingHom.id K) := fun _ _ h => h
  have hl : Loc (RingHom.id K) (.coords (toKlein x y).1 (toKlein x y).2) (toKlein x y).1 (toKlein x y).2 := ⟨rfl, rfl⟩
  have hpv : (Pt.coords (toKlein x y).1 (toKlein x y).2).Valid := toKlein_valid x y
  have hd := denom_pos x y
  have key := form_toKlein (⟨real, -1, -real⟩ : Geo K) x y
  dsimp only at key
  rw [show (real + -real) * (x * x + y * y) + 2 * -1 * x + (real - -real) = 2 * (real - x) by ring] at key
  constructor
  · rw [C51_contains hf hval hpv hl]
    congr 1
    rw [decide_eq_decide]
    simp only [RingHom.id_apply]
    rw [key, div_eq_zero_iff, or_iff_left hd.ne']
    constructor
    · intro h; linarith
    · intro h; rw [h]; simp
  · rw [C51_half_space hf hs hval hpv hl]
    congr 1
    rw [decide_eq_decide]
    simp only [RingHom.id_apply]
    rw [key]
    constructor
    · intro h
      have := mul_nonneg h hd.le
      rw [div_mul_cancel₀ _ hd.ne'] at this
      linarith
    · intro h
      exact div_nonneg (by linarith) hd.le

/-- **C51**. The geodesic through two distinct points that have coordinates exists and contains both. -/
theorem C51_through_exists {sqrt : K → Option K} (hs : IsSqrt sqrt) {p q : Pt K} (hp : p.Valid) (hq : q.Valid) {k l : K × K} (hk : p.klein sqrt = .ok k) (hl : q.klein sqrt = .ok l) (hne : k ≠ l) :
    ∃ g, geodesicThrough sqrt p q true = .ok g ∧ g.Valid := by
  have hf : StrictMono (RingHom.id K) := fun _ _ h => h
  have heq : p.eq q = .ok false := by
    rw [C51_point_eq hf hp hq (loc_klein hs hp hk) (loc_klein hs hq hl), decide_eq_false]
    rintro ⟨h1, h2⟩
    exact hne (Prod.ext h1 h2)
  have hkv := klein_valid hs hp hk
  have hlv := klein_valid hs hq hl
  have hthr : ∃ g, geodesicThrough.through sqrt true p q = .ok g ∧ g.Valid := by
    unfold geodesicThrough.through
    simp only [hk, hl, bind, Except.bind]
    have hval : (⟨-((k.2 - l.2) * k.1 + (l.1 - k.1) * k.2), k.2 - l.2, l.1 - k.1⟩ : Geo K).Valid := by
      unfold Geo.Valid
      dsimp only
      have hpos : 0 < (k.2 - l.2) * (k.2 - l.2) + (l.1 - k.1) * (l.1 - k.1) := by
        rcases (add_nonneg (mul_self_nonneg (k.2 - l.2)) (mul_self_nonneg (l.1 - k.1))).lt_or_eq with h | h
        · exact h
        · exfalso
          have h1 := mul_self_nonneg (k.2 - l.2)
          have h2 := mul_self_nonneg (l.1 - k.1)
          have h3 := mul_self_eq_zero.1 (le_antisymm (by linarith) h1)
          have h4 := mul_self_eq_zero.1 (le_antisymm (by linarith) h2)
          exact hne (Prod.ext (by linarith) (by linarith))
      have hid : 4 * ((k.2 - l.2) * (k.2 - l.2) + (l.1 - k.1) * (l.1 - k.1)) - 4 * (-((k.2 - l.2) * k.1 + (l.1 - k.1) * k.2) * -((k.2 - l.2) * k.1 + (l.1 - k.1) * k.2)) =
          ((k.2 - l.2) * (k.2 - l.2) + (l.1 - k.1) * (l.1 - k.1)) * (2 * (1 - (k.1 * k.1 + k.2 * k.2)) + 2 * (1 - (l.1 * l.1 + l.2 * l.2)) + ((k.2 - l.2) * (k.2 - l.2) + (l.1 - k.1) * (l.1 - k.1)))
          + (k.1 * k.1 + k.2 * k.2 - l.1 * l.1 - l.2 * l.2) * (k.1 * k.1 + k.2 * k.2 - l.1 * l.1 - l.2 * l.2) := by ring
      have h5 : 0 < ((k.2 - l.2) * (k.2 - l.2) + (l.1 - k.1) * (l.1 - k.1)) * (2 * (1 - (k.1 * k.1 + k.2 * k.2)) + 2 * (1 - (l.1 * l.1 + l.2 * l.2)) + ((k.2 - l.2) * (k.2 - l.2) + (l.1 - k.1) * (l.1 - k.1))) :=
        mul_pos hpos (by linarith)
      have h6 := mul_self_nonneg (k.1 * k.1 + k.2 * k.2 - l.1 * l.1 - l.2 * l.2)
      linarith
    exact ⟨_, geodesic_of_valid true hval, hval⟩
  unfold geodesicThrough
  simp only [heq, bind, Except.bind]
  match p, q with
  | .coords _ _, .coords _ _ => exact hthr
  | .coords _ _, .start _ => exact hthr
  | .start _, .coords _ _ => exact hthr
  | .start g, .start h =>
    simp only [Bool.false_eq_true, if_false]
    by_cases h1 : g.eq h.neg true = true
    · rw [if_pos h1]
      exact ⟨g, rfl, hp⟩
    · rw [if_neg h1]
      exact hthr

/-- **C51**. The geodesic through two points contains both and leads from the first to the second. -/
theorem C51_through {f : K →+* F} (hf : StrictMono f) {sqrt : K → Option K} (hs : IsSqrt sqrt) {p q : Pt K} (hp : p.Valid) (hq : q.Valid) {X Y X' Y' : F} (hlp : Loc f p X Y) (hlq : Loc f q X' Y')
    {g : Geo K} (h : geodesicThrough sqrt p q true = .ok g) :
    g.Valid ∧ g.contains p = .ok true ∧ g.contains q = .ok true ∧ f g.c * X - f g.b * Y < f g.c * X' - f g.b * Y' := by
  have hloc : ∀ p : Pt K, p.Valid → ∀ X Y, Loc f p X Y → ∀ k, p.klein sqrt = .ok k → X = f k.1 ∧ Y = f k.2 := by
    intro p hp X Y hl k hk
    match p with
    | .coords x y => cases hk; exact hl
    | .start g => exact IsStart.unique hl ((isStart_map hf).2 ((startCoordinates_ok hs hp).1 hk)) (Geo.Valid.map hf hp)
  have heq := C51_point_eq hf hp hq hlp hlq
  unfold geodesicThrough at h
  rw [heq] at h
  simp only [bind, Except.bind, decide_eq_true_eq] at h
  by_cases hXY : X = X' ∧ Y = Y'
  · rw [if_pos hXY] at h; cases h
  rw [if_neg hXY] at h
  have hthr : geodesicThrough.through sqrt true p q = .ok g → g.Valid ∧ g.contains p = .ok true ∧ g.contains q = .ok true ∧ f g.c * X - f g.b * Y < f g.c * X' - f g.b * Y' := by
    intro h
    unfold geodesicThrough.through at h
    simp only [bind, Except.bind] at h
    cases hk : p.klein sqrt with
    | error e => rw [hk] at h; cases h
    | ok k =>
      cases hl : q.klein sqrt with
      | error e => rw [hk, hl] at h; cases h
      | ok l =>
        rw [hk, hl] at h
        dsimp only at h
        obtain ⟨rfl, hgv⟩ := geodesic_ok h
        have hgv := hgv rfl
        refine ⟨hgv, ?_, ?_, ?_⟩
        · rw [C51_contains hf hgv hp hlp, decide_eq_true]
          obtain ⟨rfl, rfl⟩ := hloc p hp X Y hlp k hk
          dsimp only
          simp only [map_neg, map_add, map_mul, map_sub]
          ring
        · rw [C51_contains hf hgv hq hlq, decide_eq_true]
          obtain ⟨rfl, rfl⟩ := hloc q hq X' Y' hlq l hl
          dsimp only
          simp only [map_neg, map_add, map_mul, map_sub]
          ring
        · obtain ⟨rfl, rfl⟩ := hloc p hp X Y hlp k hk
          obtain ⟨rfl, rfl⟩ := hloc q hq X' Y' hlq l hl
          dsimp only
          simp only [map_sub]
          have hpos : 0 < (f l.1 - f k.1) * (f l.1 - f k.1) + (f k.2 - f l.2) * (f k.2 - f l.2) := by
            rcases (add_nonneg (mul_self_nonneg (f l.1 - f k.1)) (mul_self_nonneg (f k.2 - f l.2))).lt_or_eq with h | h
            · exact h
            · exfalso
              have h1 := mul_self_nonneg (f l.1 - f k.1)
              have h2 := mul_self_nonneg (f k.2 - f l.2)
              have h3 := mul_self_eq_zero.1 (le_antisymm (by linarith) h1)
              have h4 := mul_self_eq_zero.1 (le_antisymm (by linarith) h2)
              exact hXY ⟨by linarith, by linarith⟩
          linarith
  match p, q with
  | .coords _ _, .coords _ _ => exact hthr h
  | .coords _ _, .start _ => exact hthr h
  | .start _, .coords _ _ => exact hthr h
  | .start g', .start h' =>
    dsimp only at h
    by_cases h1 : g'.eq h'.neg true = true
    · rw [if_pos h1] at h
      injection h with h
      subst h
      have hgv : g'.Valid := hp
      obtain ⟨t, ht, hto, he⟩ := (C51_geodesic_eq hgv (Geo.Valid.neg hq) true).1 h1
      have htp : 0 < f t := by rw [← map_zero f]; exact hf (hto rfl)
      have hl1 : IsStart (g'.map f) X Y := hlp
      have hl2 : IsStart (h'.map f) X' Y' := hlq
      injection he with e1 e2 e3
      have e1' := congrArg f e1
      have e2' := congrArg f e2
      have e3' := congrArg f e3
      rw [map_neg, map_mul] at e1' e2' e3'
      obtain ⟨a1, a2, a3⟩ := hl1
      obtain ⟨b1, b2, b3⟩ := hl2
      simp only [Geo.map] at a2 a3 b2 b3
      refine ⟨hgv, ?_, ?_, ?_⟩
      · rw [C51_contains hf hgv hp hlp, decide_eq_true a2]
      · rw [C51_contains hf hgv hq hlq, decide_eq_true]
        apply mul_left_cancel₀ htp.ne'
        linear_combination -e1' - X' * e2' - Y' * e3' - b2
      · have : 0 < f t * (f g'.c * X' - f g'.b * Y') := by
          have : f t * (f g'.c * X' - f g'.b * Y') = -(f h'.c * X' - f h'.b * Y') := by linear_combination Y' * e2' - X' * e3'
          linarith
        have := (mul_pos_iff_of_pos_left htp).1 this
        linarith
    · rw [if_neg h1] at h
      exact hthr h

/-! ### Examples -/

/-- The square root in the rational numbers. -/
def ratSqrt (x : ℚ) : Option ℚ := if Rat.sqrt x * Rat.sqrt x = x then some |Rat.sqrt x| else none

theorem ratSqrt_isSqrt : IsSqrt ratSqrt := by
  constructor
  · intro x y h
    unfold ratSqrt at h
    split_ifs at h with h1
    injection h with h
    subst h
    exact ⟨abs_nonneg _, by rw [abs_mul_abs_self, h1]⟩
  · intro x h y hy
    unfold ratSqrt at h
    split_ifs at h with h1
    exact h1 ((Rat.exists_mul_self x).1 ⟨y, hy⟩)

/-- The point `1 + 2i` and its coordinates in the Klein disk. -/
example : point (1 : ℚ) 2 .halfPlane true = .ok (.coords (1 / 3) (2 / 3)) ∧ (Pt.coords (1 / 3 : ℚ) (2 / 3)).coordinates ratSqrt .halfPlane = .ok (1, 2) := by
  refine ⟨by decide +kernel, by decide +kernel⟩

/-- A geodesic in the upper half plane over the rational numbers whose endpoints `-√2` and `√2` have no rational coordinates. -/
example : geodesic (1 : ℚ) 0 (-2) .halfPlane true = .ok ⟨-1, 0, 3⟩ ∧ (⟨-1, 0, 3⟩ : Geo ℚ).Valid ∧ (Pt.start (⟨-1, 0, 3⟩ : Geo ℚ)).klein ratSqrt = .error .valueError ∧
    (⟨-1, 0, 3⟩ : Geo ℚ).contains (.start ⟨-1, 0, 3⟩) = .ok true ∧ (⟨0, 1, 0⟩ : Geo ℚ).left ratSqrt (.start ⟨-1, 0, 3⟩) = .ok false := by
  refine ⟨by decide +kernel, ?_, by decide +kernel, by decide +kernel, by decide +kernel⟩
  show (-1 : ℚ) * -1 < 0 * 0 + 3 * 3
  norm_num



/-- The geodesic from `1 + 2i` to the end `0` of a vertical geodesic. -/
example : geodesicThrough ratSqrt (.coords (1 / 3 : ℚ) (2 / 3)) (.start ⟨0, 1, 0⟩) true = .ok ⟨1 / 3, -1 / 3, -1 / 3⟩ := by decide +kernel

end Hyp
end Flat
