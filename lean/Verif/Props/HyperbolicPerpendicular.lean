import Verif.Model.HyperbolicPerpendicular
import Verif.Props.Hyperbolic

/-!
# C88: perpendicular geodesics, poles and midpoints in the hyperbolic plane
-/

namespace Flat
namespace Hyp
variable {K : Type} [Field K] [LinearOrder K] [IsStrictOrderedRing K]

/-- The point `k` of the open Klein disk is on the two geodesics, and in the upper half plane, where the geodesics are the circles or lines `A (x² + y²) + B x + C = 0`, the normal vectors
`(2 A x + B, 2 A y)` of the two at that point are orthogonal.  (Here `x` is the real part and `y2` is the square of the imaginary part of the point, see `C51_coordinates`.) -/
def MeetAtRightAngle (g h : Geo K) (k : K × K) : Prop :=
  k.1 * k.1 + k.2 * k.2 < 1 ∧ g.a + g.b * k.1 + g.c * k.2 = 0 ∧ h.a + h.b * k.1 + h.c * k.2 = 0 ∧
  let x := k.1 / (1 - k.2)
  let y2 := (1 - k.1 * k.1 - k.2 * k.2) / ((1 - k.2) * (1 - k.2))
  let G := g.equation .halfPlane
  let H := h.equation .halfPlane
  (2 * G.1 * x + G.2.1) * (2 * H.1 * x + H.2.1) + 4 * G.1 * H.1 * y2 = 0

/-- The geodesics meet at a right angle. -/
def RightAngle (g h : Geo K) : Prop := ∃ k, MeetAtRightAngle g h k

/-- The number in `MeetAtRightAngle` is the product of the normal vectors. -/
theorem rightAngle_normals {sqrt : K → Option K} (hs : IsSqrt sqrt) {g h : Geo K} {x y : K} (hy : 0 < y) {k : K × K}
    (hk : (Pt.coords k.1 k.2).coordinates sqrt .halfPlane = .ok (x, y)) (hv : k.1 * k.1 + k.2 * k.2 ≤ 1) :
    MeetAtRightAngle g h k ↔ g.a + g.b * k.1 + g.c * k.2 = 0 ∧ h.a + h.b * k.1 + h.c * k.2 = 0 ∧
      (2 * (g.equation .halfPlane).1 * x + (g.equation .halfPlane).2.1) * (2 * (h.equation .halfPlane).1 * x + (h.equation .halfPlane).2.1) +
        (2 * (g.equation .halfPlane).1 * y) * (2 * (h.equation .halfPlane).1 * y) = 0 := by
  obtain ⟨-, hk⟩ := (C51_coordinates hs (p := .coords k.1 k.2) hv x y).1 hk
  simp only [Pt.klein, Except.ok.injEq, Prod.mk.eta] at hk
  have hd := denom_pos x y
  have h1 := one_sub_toKlein x y
  have hn := toKlein_norm x y
  have hx1 : (toKlein x y).1 = 2 * x / (1 + x * x + y * y) := rfl
  rw [← hk] at h1 hn hx1
  have e1 : k.1 / (1 - k.2) = x := by rw [h1, hx1]; field_simp
  have e2 : (1 - k.1 * k.1 - k.2 * k.2) / ((1 - k.2) * (1 - k.2)) = y * y := by
    have : 1 - k.1 * k.1 - k.2 * k.2 = 4 * (y * y) / ((1 + x * x + y * y) * (1 + x * x + y * y)) := by linear_combination -hn
    rw [this, h1]
    field_simp
    norm_num
  have hlt : k.1 * k.1 + k.2 * k.2 < 1 := by
    rw [hn]
    have : 0 < 4 * (y * y) / ((1 + x * x + y * y) * (1 + x * x + y * y)) := div_pos (by nlinarith [mul_pos hy hy]) (mul_pos hd hd)
    linarith
  unfold MeetAtRightAngle
  simp only [e1, e2]
  constructor
  · rintro ⟨-, a, b, c⟩
    exact ⟨a, b, by linear_combination c⟩
  · rintro ⟨a, b, c⟩
    exact ⟨hlt, a, b, by linear_combination c⟩

/-- The Lorentz product of two geodesics. -/
def lorentz (g h : Geo K) : K := g.b * h.b + g.c * h.c - g.a * h.a

theorem meet_lorentz {g h : Geo K} {k : K × K} (h1 : k.1 * k.1 + k.2 * k.2 < 1) (h2 : g.a + g.b * k.1 + g.c * k.2 = 0) (h3 : h.a + h.b * k.1 + h.c * k.2 = 0) :
    MeetAtRightAngle g h k ↔ lorentz g h = 0 := by
  have hk : 1 - k.2 ≠ 0 := by
    intro h0
    have : k.2 = 1 := by linarith
    rw [this] at h1
    nlinarith [mul_self_nonneg k.1]
  have key : (2 * (g.a + g.c) * (k.1 / (1 - k.2)) + 2 * g.b) * (2 * (h.a + h.c) * (k.1 / (1 - k.2)) + 2 * h.b) +
      4 * (g.a + g.c) * (h.a + h.c) * ((1 - k.1 * k.1 - k.2 * k.2) / ((1 - k.2) * (1 - k.2))) = 4 * lorentz g h := by
    unfold lorentz
    have ea : g.a = -(g.b * k.1 + g.c * k.2) := by linear_combination h2
    have eb : h.a = -(h.b * k.1 + h.c * k.2) := by linear_combination h3
    rw [ea, eb]
    field_simp
    ring
  unfold MeetAtRightAngle Geo.equation
  simp only
  rw [key]
  constructor
  · rintro ⟨-, -, -, h⟩
    linarith
  · intro h
    exact ⟨h1, h2, h3, by rw [h, mul_zero]⟩

theorem rightAngle_iff {g h : Geo K} (hg : g.Valid) (hh : h.Valid) : RightAngle g h ↔ lorentz g h = 0 := by
  constructor
  · rintro ⟨k, hk⟩
    exact (meet_lorentz hk.1 hk.2.1 hk.2.2.1).1 hk
  · intro h0
    have hD : (g.b * h.c - g.c * h.b) * (g.b * h.c - g.c * h.b) = (g.b * g.b + g.c * g.c) * (h.b * h.b + h.c * h.c) - g.a * g.a * (h.a * h.a) := by
      unfold lorentz at h0
      have : g.b * h.b + g.c * h.c = g.a * h.a := by linear_combination h0
      linear_combination (-(g.b * h.b + g.c * h.c) - g.a * h.a) * this
    have hDpos : 0 < (g.b * h.c - g.c * h.b) * (g.b * h.c - g.c * h.b) := by
      rw [hD]
      unfold Geo.Valid at hg hh
      nlinarith [mul_self_nonneg g.a, mul_self_nonneg h.a, mul_pos (sub_pos.2 hg) (sub_pos.2 hh), mul_nonneg (mul_self_nonneg g.a) (sub_pos.2 hh).le,
        mul_nonneg (sub_pos.2 hg).le (mul_self_nonneg h.a)]
    have hD0 : g.b * h.c - g.c * h.b ≠ 0 := fun h => by rw [h] at hDpos; simp at hDpos
    cases hi : g.inter h with
    | none => exact absurd (inter_none hi) hD0
    | some k =>
      obtain ⟨-, h1, h2⟩ := inter_some hi
      refine ⟨k, (meet_lorentz ?_ h1 h2).2 h0⟩
      have hk1 : (g.b * h.c - g.c * h.b) * k.1 = g.c * h.a - h.c * g.a := by linear_combination h.c * h1 - g.c * h2
      have hk2 : (g.b * h.c - g.c * h.b) * k.2 = h.b * g.a - g.b * h.a := by linear_combination -h.b * h1 + g.b * h2
      have hfin : (g.b * h.c - g.c * h.b) * (g.b * h.c - g.c * h.b) * (1 - (k.1 * k.1 + k.2 * k.2)) =
          (g.b * g.b + g.c * g.c - g.a * g.a) * (h.b * h.b + h.c * h.c - h.a * h.a) := by
        have e : (g.b * h.c - g.c * h.b) * (g.b * h.c - g.c * h.b) * (k.1 * k.1 + k.2 * k.2) =
            (g.c * h.a - h.c * g.a) * (g.c * h.a - h.c * g.a) + (h.b * g.a - g.b * h.a) * (h.b * g.a - g.b * h.a) := by
          rw [← hk1, ← hk2]; ring
        unfold lorentz at h0
        have e2 : g.b * h.b + g.c * h.c = g.a * h.a := by linear_combination h0
        rw [mul_sub, e, mul_one, hD]
        linear_combination (2 * g.a * h.a) * e2
      unfold Geo.Valid at hg hh
      have := mul_pos (sub_pos.2 hg) (sub_pos.2 hh)
      rw [← hfin] at this
      have := pos_of_mul_pos_right this hDpos.le
      linarith

/-- Two vectors that are orthogonal to two vectors which are not parallel are parallel. -/
theorem orthogonal_parallel {u1 u2 u3 v1 v2 v3 w1 w2 w3 z1 z2 z3 : K} (hn : u2 * v3 - u3 * v2 ≠ 0 ∨ u3 * v1 - u1 * v3 ≠ 0 ∨ u1 * v2 - u2 * v1 ≠ 0)
    (hwu : w1 * u1 + w2 * u2 + w3 * u3 = 0) (hwv : w1 * v1 + w2 * v2 + w3 * v3 = 0) (hzu : z1 * u1 + z2 * u2 + z3 * u3 = 0) (hzv : z1 * v1 + z2 * v2 + z3 * v3 = 0) :
    w1 * z2 = z1 * w2 ∧ w1 * z3 = z1 * w3 ∧ w2 * z3 = z2 * w3 := by
  obtain ⟨n1, e1⟩ : ∃ n, n = u2 * v3 - u3 * v2 := ⟨_, rfl⟩
  obtain ⟨n2, e2⟩ : ∃ n, n = u3 * v1 - u1 * v3 := ⟨_, rfl⟩
  obtain ⟨n3, e3⟩ : ∃ n, n = u1 * v2 - u2 * v1 := ⟨_, rfl⟩
  rw [← e1, ← e2, ← e3] at hn
  have w12 : w1 * n2 = w2 * n1 := by rw [e1, e2]; linear_combination u3 * hwv - v3 * hwu
  have w13 : w1 * n3 = w3 * n1 := by rw [e1, e3]; linear_combination v2 * hwu - u2 * hwv
  have w23 : w2 * n3 = w3 * n2 := by rw [e2, e3]; linear_combination u1 * hwv - v1 * hwu
  have z12 : z1 * n2 = z2 * n1 := by rw [e1, e2]; linear_combination u3 * hzv - v3 * hzu
  have z13 : z1 * n3 = z3 * n1 := by rw [e1, e3]; linear_combination v2 * hzu - u2 * hzv
  have z23 : z2 * n3 = z3 * n2 := by rw [e2, e3]; linear_combination u1 * hzv - v1 * hzu
  rcases hn with h | h | h
  · have h12 : w1 * z2 = z1 * w2 := mul_right_cancel₀ h (by linear_combination z1 * w12 - w1 * z12)
    refine ⟨h12, mul_right_cancel₀ h ?_, mul_right_cancel₀ h ?_⟩
    · linear_combination z1 * w13 - w1 * z13
    · linear_combination -w2 * z13 + z2 * w13 - n3 * h12
  · have h23 : w2 * z3 = z2 * w3 := mul_right_cancel₀ h (by linear_combination z2 * w23 - w2 * z23)
    refine ⟨mul_right_cancel₀ h ?_, mul_right_cancel₀ h ?_, h23⟩
    · linear_combination z2 * w12 - w2 * z12
    · linear_combination z3 * w12 - w3 * z12 + n1 * h23
  · have h23 : w2 * z3 = z2 * w3 := mul_right_cancel₀ h (by linear_combination z3 * w23 - w3 * z23)
    refine ⟨mul_right_cancel₀ h ?_, mul_right_cancel₀ h ?_, h23⟩
    · linear_combination z2 * w13 - w2 * z13 - n1 * h23
    · linear_combination z3 * w13 - w3 * z13

/-- Parallel coefficients are those of the same geodesic. -/
theorem eq_of_parallel {g h : Geo K} (h1 : g.a * h.b = h.a * g.b) (h2 : g.a * h.c = h.a * g.c) (h3 : g.b * h.c = h.b * g.c) : g.eq h false = true := by
  unfold Geo.eq
  have h3' : g.c * h.b = h.c * g.b := by linear_combination -h3
  split_ifs <;> simp [h1, h2, h3, h3']

theorem not_parallel {g h : Geo K} (hg : g.Valid) (hh : h.Valid) (hne : g.eq h false = false) :
    g.b * h.c - g.c * h.b ≠ 0 ∨ g.c * h.a - g.a * h.c ≠ 0 ∨ g.a * h.b - g.b * h.a ≠ 0 := by
  by_contra hcon
  push Not at hcon
  obtain ⟨a, b, c⟩ := hcon
  rw [eq_of_parallel (by linear_combination c) (by linear_combination -b) (by linear_combination a)] at hne
  cases hne

/-! ### Poles -/

/-- The coordinates of the end points of the geodesic are in the base ring, so that its pole can be computed. -/
def Geo.HasEnds (sqrt : K → Option K) (g : Geo K) : Prop := ∃ A B, (Pt.start g).klein sqrt = .ok A ∧ (Pt.start g.neg).klein sqrt = .ok B

theorem isDiameter_iff (g : Geo K) : g.isDiameter = true ↔ g.a = 0 := by
  unfold Geo.isDiameter Geo.containsCoords
  simp

theorem isVertical_iff (g : Geo K) : g.isVertical = true ↔ g.a + g.c = 0 := by
  unfold Geo.isVertical Geo.containsCoords
  simp

/-- The lines that are tangent to the unit circle at the end points meet. -/
theorem tangents_meet {g : Geo K} (hg : g.Valid) (ha : g.a ≠ 0) {A B : K × K} (hA : IsStart g A.1 A.2) (hB : IsStart g.neg B.1 B.2) :
    A.1 * B.2 - A.2 * B.1 ≠ 0 := by
  obtain ⟨n1, o1, s1⟩ := hA
  obtain ⟨n2, o2, s2⟩ := hB
  unfold Geo.neg at o2 s2
  simp only at o2 s2
  have hN := g.valid_norm hg
  obtain ⟨u, hu⟩ : ∃ u, u = g.c * A.1 - g.b * A.2 := ⟨_, rfl⟩
  obtain ⟨v, hv⟩ : ∃ v, v = g.c * B.1 - g.b * B.2 := ⟨_, rfl⟩
  have a1 : (g.b * g.b + g.c * g.c) * A.1 = -g.a * g.b + g.c * u := by rw [hu]; linear_combination g.b * o1
  have a2 : (g.b * g.b + g.c * g.c) * A.2 = -g.a * g.c - g.b * u := by rw [hu]; linear_combination g.c * o1
  have b1 : (g.b * g.b + g.c * g.c) * B.1 = -g.a * g.b + g.c * v := by rw [hv]; linear_combination -g.b * o2
  have b2 : (g.b * g.b + g.c * g.c) * B.2 = -g.a * g.c - g.b * v := by rw [hv]; linear_combination -g.c * o2
  intro h0
  have hz : (g.b * g.b + g.c * g.c) * ((g.b * g.b + g.c * g.c) * (A.1 * B.2 - A.2 * B.1)) = g.a * (g.b * g.b + g.c * g.c) * (v - u) := by
    have : (g.b * g.b + g.c * g.c) * ((g.b * g.b + g.c * g.c) * (A.1 * B.2 - A.2 * B.1)) =
        ((g.b * g.b + g.c * g.c) * A.1) * ((g.b * g.b + g.c * g.c) * B.2) - ((g.b * g.b + g.c * g.c) * A.2) * ((g.b * g.b + g.c * g.c) * B.1) := by ring
    rw [this, a1, a2, b1, b2]
    ring
  rw [h0, mul_zero, mul_zero] at hz
  rcases mul_eq_zero.1 hz.symm with h | h
  · rcases mul_eq_zero.1 h with h | h
    · exact ha h
    · exact hN.ne' h
  · rw [← hu] at s1
    have : -v < 0 := by rw [hv]; linarith
    linarith

omit [IsStrictOrderedRing K] in
theorem klein_error {sqrt : K → Option K} {p : Pt K} {e : Err} (h : p.klein sqrt = .error e) : e = .valueError := by
  cases p with
  | coords x y => cases h
  | start k =>
    unfold Pt.klein startCoordinates at h
    simp only at h
    split_ifs at h
    all_goals
      split at h
      · injection h with h; exact h.symm
      · cases h

/-- What is computed as the pole. -/
theorem pole_spec {sqrt : K → Option K} (hs : IsSqrt sqrt) {g : Geo K} (hg : g.Valid) :
    (g.a = 0 → g.pole sqrt = .error .notImplemented) ∧ (g.a ≠ 0 → g.HasEnds sqrt → g.pole sqrt = .ok (-g.b / g.a, -g.c / g.a)) ∧
    (g.a ≠ 0 → ¬ g.HasEnds sqrt → g.pole sqrt = .error .valueError) := by
  refine ⟨fun h => ?_, fun h hE => ?_, fun h hE => ?_⟩
  · unfold Geo.pole
    rw [if_pos ((isDiameter_iff g).2 h)]
  · obtain ⟨A, B, hA, hB⟩ := hE
    have sA := (startCoordinates_ok hs hg (x := A.1) (y := A.2)).1 hA
    have sB := (startCoordinates_ok hs hg.neg (x := B.1) (y := B.2)).1 hB
    have hd := tangents_meet hg h sA sB
    unfold Geo.pole
    rw [if_neg (by rw [isDiameter_iff]; exact h)]
    simp only [hA, hB, bind, Except.bind]
    cases hi : (kleinTangent A).inter (kleinTangent B) with
    | none => exact absurd (inter_none hi) hd
    | some p =>
      obtain ⟨-, h1, h2⟩ := inter_some hi
      unfold kleinTangent at h1 h2
      simp only at h1 h2
      rw [sA.1] at h1
      rw [sB.1] at h2
      have oA := sA.2.1
      have oB := sB.2.1
      unfold Geo.neg at oB
      simp only at oB
      have e1 : p.1 = -g.b / g.a := by
        rw [eq_div_iff h]
        exact mul_left_cancel₀ hd (by linear_combination g.a * B.2 * h1 - g.a * A.2 * h2 + B.2 * oA + A.2 * oB)
      have e2 : p.2 = -g.c / g.a := by
        rw [eq_div_iff h]
        exact mul_left_cancel₀ hd (by linear_combination -g.a * B.1 * h1 + g.a * A.1 * h2 - B.1 * oA - A.1 * oB)
      show Except.ok p = _
      rw [← e1, ← e2]
  · unfold Geo.pole
    rw [if_neg (by rw [isDiameter_iff]; exact h)]
    cases hA : (Pt.start g).klein sqrt with
    | error e => rw [klein_error hA]; rfl
    | ok A =>
      cases hB : (Pt.start g.neg).klein sqrt with
      | error e => rw [klein_error hB]; rfl
      | ok B => exact absurd ⟨A, B, hA, hB⟩ hE

/-- **C88.** The pole of a geodesic that is not a diameter: a geodesic goes through the pole exactly if it is perpendicular to the given geodesic. -/
theorem C88_pole {sqrt : K → Option K} (hs : IsSqrt sqrt) {g : Geo K} (hg : g.Valid) {p : K × K} (hp : g.pole sqrt = .ok p) {h : Geo K} (hh : h.Valid) :
    h.a + h.b * p.1 + h.c * p.2 = 0 ↔ RightAngle g h := by
  obtain ⟨h1, h2, h3⟩ := pole_spec hs hg
  by_cases ha : g.a = 0
  · rw [h1 ha] at hp; cases hp
  by_cases hE : g.HasEnds sqrt
  · rw [h2 ha hE] at hp
    injection hp with hp
    rw [rightAngle_iff hg hh, ← hp]
    unfold lorentz
    simp only
    constructor
    · intro h0
      have : g.a * (h.a + h.b * (-g.b / g.a) + h.c * (-g.c / g.a)) = 0 := by rw [h0, mul_zero]
      field_simp at this
      linear_combination -this
    · intro h0
      field_simp
      linear_combination -h0
  · rw [h3 ha hE] at hp; cases hp

/-! ### The perpendicular through a point -/

theorem perp_valid {g h : Geo K} {x y : K} (h0 : lorentz g h = 0) (hon : h.a + h.b * x + h.c * y = 0) (hp : x * x + y * y ≤ 1) (hne : 0 < h.b * h.b + h.c * h.c)
    (hno : x * x + y * y = 1 → g.a + g.b * x + g.c * y ≠ 0) : h.Valid := by
  have ha : h.a = -(h.b * x + h.c * y) := by linear_combination hon
  have key : h.b * h.b + h.c * h.c - h.a * h.a = (h.b * h.b + h.c * h.c) * (1 - (x * x + y * y)) + (h.c * x - h.b * y) * (h.c * x - h.b * y) := by rw [ha]; ring
  unfold Geo.Valid
  rcases lt_or_eq_of_le hp with hlt | heq
  · have := mul_pos hne (sub_pos.2 hlt)
    have := mul_self_nonneg (h.c * x - h.b * y)
    linarith
  · by_cases hz : h.c * x - h.b * y = 0
    · exfalso
      have e1 : h.b = -h.a * x := by rw [ha]; linear_combination -h.b * heq - y * hz
      have e2 : h.c = -h.a * y := by rw [ha]; linear_combination -h.c * heq + x * hz
      have e3 : -h.a * (g.a + g.b * x + g.c * y) = 0 := by
        unfold lorentz at h0
        linear_combination h0 - g.b * e1 - g.c * e2
      rcases mul_eq_zero.1 e3 with h | h
      · rw [e1, e2, h] at hne
        simp at hne
      · exact hno heq h
    · have h1 : 0 < (h.c * x - h.b * y) * (h.c * x - h.b * y) := mul_self_pos.2 hz
      rw [heq, sub_self, mul_zero, zero_add] at key
      linarith

theorem perp_not_valid {g h : Geo K} (hg : g.Valid) {x y : K} (h0 : lorentz g h = 0) (hon : h.a + h.b * x + h.c * y = 0) (hp : x * x + y * y = 1)
    (ho : g.a + g.b * x + g.c * y = 0) : ¬ h.Valid := by
  have ha : h.a = -(h.b * x + h.c * y) := by linear_combination hon
  have ga : g.a = -(g.b * x + g.c * y) := by linear_combination ho
  have e1 : (g.c * x - g.b * y) * (h.c * x - h.b * y) = 0 := by
    unfold lorentz at h0
    rw [ha, ga] at h0
    linear_combination h0 + (g.b * h.b + g.c * h.c) * hp
  have e2 : g.c * x - g.b * y ≠ 0 := by
    intro hz
    unfold Geo.Valid at hg
    have : g.b * g.b + g.c * g.c - g.a * g.a = (g.c * x - g.b * y) * (g.c * x - g.b * y) := by rw [ga]; linear_combination (-(g.b * g.b) - g.c * g.c) * hp
    rw [hz] at this
    linarith
  have e3 := (mul_eq_zero.1 e1).resolve_left e2
  unfold Geo.Valid
  have : h.b * h.b + h.c * h.c - h.a * h.a = (h.c * x - h.b * y) * (h.c * x - h.b * y) := by rw [ha]; linear_combination (-(h.b * h.b) - h.c * h.c) * hp
  rw [e3] at this
  linarith

theorem perp_unique {g h k : Geo K} (hg : g.Valid) {x y : K} (hp : x * x + y * y ≤ 1) (h0 : lorentz g h = 0) (hon : h.a + h.b * x + h.c * y = 0)
    (k0 : lorentz g k = 0) (kon : k.a + k.b * x + k.c * y = 0) : h.eq k false = true := by
  obtain ⟨e1, e2, e3⟩ := orthogonal_parallel (u1 := 1) (u2 := x) (u3 := y) (v1 := -g.a) (v2 := g.b) (v3 := g.c) (w1 := h.a) (w2 := h.b) (w3 := h.c)
    (z1 := k.a) (z2 := k.b) (z3 := k.c) (by
      by_contra hcon
      push Not at hcon
      obtain ⟨c1, c2, c3⟩ := hcon
      have e1 : g.b = -g.a * x := by linear_combination c3
      have e2 : g.c = -g.a * y := by linear_combination -c2
      unfold Geo.Valid at hg
      rw [e1, e2] at hg
      have := mul_le_mul_of_nonneg_left hp (mul_self_nonneg g.a)
      nlinarith) (by linear_combination hon) (by unfold lorentz at h0; linear_combination h0) (by linear_combination kon) (by unfold lorentz at k0; linear_combination k0)
  exact eq_of_parallel e1 e2 e3

instance (g : Geo K) : Decidable g.Valid := inferInstanceAs (Decidable (_ < _))

theorem geodesic_klein_true (a b c : K) : geodesic a b c .klein true = if (⟨a, b, c⟩ : Geo K).Valid then .ok ⟨a, b, c⟩ else .error .valueError := by
  by_cases h : (⟨a, b, c⟩ : Geo K).Valid
  · rw [if_pos h, geodesic_of_valid true h]
  · rw [if_neg h]
    unfold geodesic
    simp only [if_true]
    have : Geo.check (⟨a, b, c⟩ : Geo K) = .error .valueError := by
      unfold Geo.check
      rw [if_pos]
      unfold Geo.Valid at h
      unfold Geo.isUltraIdeal Geo.isIdeal
      rcases lt_or_eq_of_le (not_lt.1 h) with h | h
      · simp [h]
      · simp [h]
    rw [this]
    rfl

theorem geodesicThrough_to_point {sqrt : K → Option K} {x y : K} {p : Pt K} {k : K × K} (heq : (Pt.coords x y).eq p = .ok false) (hk : p.klein sqrt = .ok k) :
    geodesicThrough sqrt (.coords x y) p true =
      geodesic (-((y - k.2) * x + (k.1 - x) * y)) (y - k.2) (k.1 - x) .klein true := by
  unfold geodesicThrough
  rw [heq]
  cases p with
  | coords x' y' =>
    simp only [bind, Except.bind, Bool.false_eq_true, if_false]
    unfold geodesicThrough.through
    rw [hk]
    rfl
  | start f =>
    simp only [bind, Except.bind, Bool.false_eq_true, if_false]
    unfold geodesicThrough.through
    rw [hk]
    rfl

/-- The line that is tested for being a geodesic. -/
theorem perpendicularPoint_spec {sqrt : K → Option K} (hs : IsSqrt sqrt) {g : Geo K} (hg : g.Valid) {p : Pt K} (hp : p.Valid) {k : K × K} (hk : p.klein sqrt = .ok k)
    (hE : g.a ≠ 0 → g.HasEnds sqrt) :
    ∃ h : Geo K, lorentz g h = 0 ∧ h.a + h.b * k.1 + h.c * k.2 = 0 ∧ 0 < h.b * h.b + h.c * h.c ∧ g.perpendicularPoint sqrt p = if h.Valid then .ok h else .error .valueError := by
  have hf : StrictMono (RingHom.id K) := fun _ _ h => h
  have hkv := klein_valid hs hp hk
  have fin : ∀ (h : Geo K) (m : Except Err (Geo K)), h.a + h.b * k.1 + h.c * k.2 = 0 → m = (if h.Valid then Except.ok h else Except.error Err.valueError) →
      (do let h ← m
          let inside ← h.contains p
          if inside then pure h else Except.error Err.assertionError) = (if h.Valid then .ok h else .error .valueError) := by
    rintro h m hon rfl
    by_cases hv : h.Valid
    · rw [if_pos hv]
      simp only [bind, Except.bind]
      rw [C51_contains hf hv hp (loc_klein hs hp hk), decide_eq_true (by simpa using hon)]
      rfl
    · rw [if_neg hv]
      rfl
  unfold Geo.perpendicularPoint
  by_cases ha : g.a = 0
  · refine ⟨⟨-(-g.c * k.1 + g.b * k.2), -g.c, g.b⟩, ?_, ?_, ?_, ?_⟩
    · unfold lorentz; simp only; rw [ha]; ring
    · simp only; ring
    · have := g.valid_norm hg
      simp only
      linarith
    · refine fin ⟨-(-g.c * k.1 + g.b * k.2), -g.c, g.b⟩ _ (by simp only; ring) ?_
      rw [if_pos ((isDiameter_iff g).2 ha), hk, ← geodesic_klein_true]
      rfl
  · have hpole := (pole_spec hs hg).2.1 ha (hE ha)
    obtain ⟨q, hq⟩ : ∃ q : K × K, q = (-g.b / g.a, -g.c / g.a) := ⟨_, rfl⟩
    rw [← hq] at hpole
    have hq1 : g.a * q.1 = -g.b := by rw [hq]; field_simp
    have hq2 : g.a * q.2 = -g.c := by rw [hq]; field_simp
    have hqn : 1 < q.1 * q.1 + q.2 * q.2 := by
      have h1 : g.a * g.a * (q.1 * q.1 + q.2 * q.2) = g.b * g.b + g.c * g.c := by linear_combination (g.a * q.1 - g.b) * hq1 + (g.a * q.2 - g.c) * hq2
      have h2 : 0 < g.a * g.a := mul_self_pos.2 ha
      unfold Geo.Valid at hg
      rw [← h1] at hg
      by_contra hn
      have := mul_le_mul_of_nonneg_left (not_lt.1 hn) h2.le
      linarith
    have hneq : q ≠ k := by
      rintro rfl
      linarith
    refine ⟨⟨-((q.2 - k.2) * q.1 + (k.1 - q.1) * q.2), q.2 - k.2, k.1 - q.1⟩, ?_, ?_, ?_, ?_⟩
    · unfold lorentz
      simp only
      linear_combination (-(q.2 - k.2)) * hq1 - (k.1 - q.1) * hq2 + 2 * ((q.2 - k.2) * hq1 + (k.1 - q.1) * hq2)
    · simp only; ring
    · simp only
      have : q.2 - k.2 ≠ 0 ∨ k.1 - q.1 ≠ 0 := by
        by_contra hcon
        push Not at hcon
        exact hneq (Prod.ext (by linarith [hcon.2]) (by linarith [hcon.1]))
      rcases this with h | h
      · have := mul_self_pos.2 h
        have := mul_self_nonneg (k.1 - q.1)
        linarith
      · have := mul_self_pos.2 h
        have := mul_self_nonneg (q.2 - k.2)
        linarith
    · have heq : (Pt.coords q.1 q.2).eq p = .ok false := by
        cases p with
        | coords x y =>
          have : k = (x, y) := by injection hk with hk; exact hk.symm
          unfold Pt.eq
          have : ¬ (q.1 = x ∧ q.2 = y) := by
            rintro ⟨e1, e2⟩
            exact hneq (by rw [this]; exact Prod.ext e1 e2)
          simpa using this
        | start f =>
          show startEqCoords f q.1 q.2 = _
          unfold startEqCoords
          rw [if_pos hqn.ne']
      refine fin ⟨-((q.2 - k.2) * q.1 + (k.1 - q.1) * q.2), q.2 - k.2, k.1 - q.1⟩ _ (by simp only; ring) ?_
      rw [if_neg (by rw [isDiameter_iff]; exact ha), hpole, ← geodesic_klein_true, ← geodesicThrough_to_point heq hk]
      rfl

theorem perpendicularPoint_error {sqrt : K → Option K} (hs : IsSqrt sqrt) {g : Geo K} (hg : g.Valid) {p : Pt K}
    (h : (∀ k, p.klein sqrt ≠ .ok k) ∨ (g.a ≠ 0 ∧ ¬ g.HasEnds sqrt)) {k : Geo K} : g.perpendicularPoint sqrt p ≠ .ok k := by
  intro hk
  unfold Geo.perpendicularPoint at hk
  by_cases ha : g.a = 0
  · rw [if_pos ((isDiameter_iff g).2 ha)] at hk
    rcases h with h | h
    · cases hp : p.klein sqrt with
      | ok q => exact h q hp
      | error e => rw [hp] at hk; cases hk
    · exact h.1 ha
  · rw [if_neg (by rw [isDiameter_iff]; exact ha)] at hk
    by_cases hE : g.HasEnds sqrt
    · rcases h with h | h
      · rw [(pole_spec hs hg).2.1 ha hE] at hk
        cases hp : p.klein sqrt with
        | ok q => exact h q hp
        | error e =>
          cases p with
          | coords x y => cases hp
          | start f =>
            have : ∃ e', geodesicThrough sqrt (.coords (-g.b / g.a) (-g.c / g.a)) (.start f) true = .error e' := by
              unfold geodesicThrough
              cases (Pt.coords (-g.b / g.a) (-g.c / g.a)).eq (.start f) with
              | error e' => exact ⟨e', rfl⟩
              | ok b =>
                cases b
                · refine ⟨e, ?_⟩
                  simp only [bind, Except.bind, Bool.false_eq_true, if_false]
                  unfold geodesicThrough.through
                  rw [hp]
                  rfl
                · exact ⟨_, rfl⟩
            obtain ⟨e', he'⟩ := this
            simp only [bind, Except.bind, he'] at hk
            cases hk
      · exact h.2 hE
    · rw [(pole_spec hs hg).2.2 ha hE] at hk
      cases hk

/-- **C88.** The geodesic returned by `perpendicular(point)` goes through the point, meets the given geodesic at a right angle, and is the only geodesic like that. -/
theorem C88_perpendicular {sqrt : K → Option K} (hs : IsSqrt sqrt) {g : Geo K} (hg : g.Valid) {p : Pt K} (hp : p.Valid) {h : Geo K} (hh : g.perpendicularPoint sqrt p = .ok h) :
    h.Valid ∧ h.contains p = .ok true ∧ RightAngle g h ∧ ∀ k : Geo K, k.Valid → k.contains p = .ok true → RightAngle g k → h.eq k false = true := by
  have hf : StrictMono (RingHom.id K) := fun _ _ h => h
  by_cases hE : g.a ≠ 0 → g.HasEnds sqrt
  · cases hk : p.klein sqrt with
    | error e => exact absurd hh (perpendicularPoint_error hs hg (Or.inl (by rw [hk]; simp)))
    | ok k =>
      obtain ⟨h', e1, e2, e3, e4⟩ := perpendicularPoint_spec hs hg hp hk hE
      rw [e4] at hh
      by_cases hv : h'.Valid
      · rw [if_pos hv] at hh
        injection hh with hh
        subst hh
        refine ⟨hv, ?_, (rightAngle_iff hg hv).2 e1, fun k' hk' hc hr => ?_⟩
        · rw [C51_contains hf hv hp (loc_klein hs hp hk), decide_eq_true (by simpa using e2)]
        · rw [C51_contains hf hk' hp (loc_klein hs hp hk)] at hc
          injection hc with hc
          have hc := of_decide_eq_true hc
          simp only [RingHom.id_apply] at hc
          exact perp_unique hg (klein_valid hs hp hk) e1 e2 ((rightAngle_iff hg hk').1 hr) hc
      · rw [if_neg hv] at hh
        cases hh
  · push Not at hE
    exact absurd hh (perpendicularPoint_error hs hg (Or.inr hE))

/-- **C88.** When the coordinates of the point and of the end points of the geodesic are in the base ring, then `perpendicular(point)` fails only for the end points of the geodesic, and then with a
`ValueError`; there is no perpendicular geodesic in this case. -/
theorem C88_perpendicular_exists {sqrt : K → Option K} (hs : IsSqrt sqrt) {g : Geo K} (hg : g.Valid) {p : Pt K} (hp : p.Valid) {k : K × K} (hk : p.klein sqrt = .ok k)
    (hE : g.a ≠ 0 → g.HasEnds sqrt) :
    (¬ (p.isFinite = false ∧ g.contains p = .ok true) → ∃ h, g.perpendicularPoint sqrt p = .ok h) ∧
    ((p.isFinite = false ∧ g.contains p = .ok true) → g.perpendicularPoint sqrt p = .error .valueError ∧ ∀ h : Geo K, h.Valid → h.contains p = .ok true → ¬ RightAngle g h) := by
  have hf : StrictMono (RingHom.id K) := fun _ _ h => h
  have hkv := klein_valid hs hp hk
  have hfin := isFinite_iff hs hp hk
  have hcon : ∀ h : Geo K, h.Valid → (h.contains p = .ok true ↔ h.a + h.b * k.1 + h.c * k.2 = 0) := by
    intro h hh
    rw [C51_contains hf hh hp (loc_klein hs hp hk)]
    simp
  have hend : (p.isFinite = false ∧ g.contains p = .ok true) ↔ k.1 * k.1 + k.2 * k.2 = 1 ∧ g.a + g.b * k.1 + g.c * k.2 = 0 := by
    rw [hcon g hg]
    refine and_congr_left fun _ => ?_
    constructor
    · intro h
      refine le_antisymm hkv (not_lt.1 fun h' => ?_)
      rw [hfin.2 h'] at h
      cases h
    · intro h
      cases hb : p.isFinite with
      | false => rfl
      | true =>
        have := hfin.1 hb
        linarith
  obtain ⟨h', e1, e2, e3, e4⟩ := perpendicularPoint_spec hs hg hp hk hE
  rw [hend]
  constructor
  · intro hno
    have hv := perp_valid e1 e2 hkv e3 fun h1 h2 => hno ⟨h1, h2⟩
    exact ⟨h', by rw [e4, if_pos hv]⟩
  · rintro ⟨h1, h2⟩
    refine ⟨by rw [e4, if_neg (perp_not_valid hg e1 e2 h1 h2)], fun h hh hc hr => ?_⟩
    exact perp_not_valid hg ((rightAngle_iff hg hh).1 hr) ((hcon h hh).1 hc) h1 h2 hh

/-- **C88.** `perpendicular()` without a parameter returns a geodesic that meets the given one at a right angle. -/
theorem C88_perpendicular_default {sqrt : K → Option K} (hs : IsSqrt sqrt) {g : Geo K} (hg : g.Valid) :
    (∀ h, g.perpendicular sqrt = .ok h → h.Valid ∧ RightAngle g h) ∧ ((g.a ≠ 0 → g.HasEnds sqrt) → ∃ h, g.perpendicular sqrt = .ok h) := by
  obtain ⟨e, he, h1, h2, h3⟩ := anElement_ok hg
  have hE : g.perpendicular sqrt = g.perpendicularPoint sqrt (.coords e.1 e.2) := by
    unfold Geo.perpendicular
    rw [he]
    rfl
  have hp : (Pt.coords e.1 e.2).Valid := h3.le
  constructor
  · intro h hh
    rw [hE] at hh
    obtain ⟨a, -, b, -⟩ := C88_perpendicular hs hg hp hh
    exact ⟨a, b⟩
  · intro h
    rw [hE]
    refine (C88_perpendicular_exists hs hg hp (k := e) rfl h).1 fun hcon => ?_
    have : (Pt.coords e.1 e.2).isFinite = true := decide_eq_true h3
    rw [this] at hcon
    cases hcon.1

/-! ### The common perpendicular of two geodesics -/

theorem pole_point {g : Geo K} (hg : g.Valid) (ha : g.a ≠ 0) {k : Geo K} : k.a + k.b * (-g.b / g.a) + k.c * (-g.c / g.a) = 0 ↔ lorentz g k = 0 := by
  unfold lorentz
  constructor
  · intro h0
    have : g.a * (k.a + k.b * (-g.b / g.a) + k.c * (-g.c / g.a)) = 0 := by rw [h0, mul_zero]
    field_simp at this
    linear_combination -this
  · intro h0
    field_simp
    linear_combination -h0

/-- The line that is tested for being a geodesic. -/
theorem perpendicularGeodesic_spec {sqrt : K → Option K} (hs : IsSqrt sqrt) {g h : Geo K} (hg : g.Valid) (hh : h.Valid) (hne : g.eq h false = false)
    (hE : g.a ≠ 0 → g.HasEnds sqrt) (hE' : h.a ≠ 0 → h.HasEnds sqrt) :
    ∃ k : Geo K, lorentz g k = 0 ∧ lorentz h k = 0 ∧ (k.a ≠ 0 ∨ 0 < k.b * k.b + k.c * k.c) ∧
      g.perpendicularGeodesic sqrt h = if k.Valid then .ok k else .error .valueError := by
  have diam : ∀ g h : Geo K, g.Valid → h.Valid → g.a = 0 → h.a ≠ 0 → h.HasEnds sqrt → ∃ k : Geo K, lorentz g k = 0 ∧ lorentz h k = 0 ∧ (k.a ≠ 0 ∨ 0 < k.b * k.b + k.c * k.c) ∧
      g.perpendicularDiameter sqrt h = if k.Valid then .ok k else .error .valueError := by
    intro g h hg hh ha ha' hE
    refine ⟨⟨-(-g.c * (-h.b / h.a) + g.b * (-h.c / h.a)), -g.c, g.b⟩, ?_, (pole_point hh ha').1 (by simp only; ring), Or.inr ?_, ?_⟩
    · unfold lorentz; simp only; rw [ha]; ring
    · have := g.valid_norm hg
      simp only
      linarith
    · unfold Geo.perpendicularDiameter
      rw [(pole_spec hs hh).2.1 ha' hE, ← geodesic_klein_true]
      rfl
  unfold Geo.perpendicularGeodesic
  rw [if_neg (by rw [hne]; simp)]
  by_cases ha : g.a = 0
  · have da := (isDiameter_iff g).2 ha
    by_cases ha' : h.a = 0
    · have da' := (isDiameter_iff h).2 ha'
      refine ⟨⟨1, 0, 0⟩, ?_, ?_, Or.inl one_ne_zero, ?_⟩
      · unfold lorentz; simp [ha]
      · unfold lorentz; simp [ha']
      · rw [if_pos (by simp [da, da']), if_neg]
        unfold Geo.Valid
        simp
    · have da' : h.isDiameter = false := by rw [Bool.eq_false_iff, ne_eq, isDiameter_iff]; exact ha'
      rw [if_neg (by simp [da']), if_neg (by simp [da']), if_pos da]
      exact diam g h hg hh ha ha' (hE' ha')
  · have da : g.isDiameter = false := by rw [Bool.eq_false_iff, ne_eq, isDiameter_iff]; exact ha
    by_cases ha' : h.a = 0
    · have da' := (isDiameter_iff h).2 ha'
      rw [if_neg (by simp [da]), if_pos da']
      obtain ⟨k, a, b, c, d⟩ := diam h g hh hg ha' ha (hE ha)
      exact ⟨k, b, a, c, d⟩
    · have da' : h.isDiameter = false := by rw [Bool.eq_false_iff, ne_eq, isDiameter_iff]; exact ha'
      rw [if_neg (by simp [da]), if_neg (by simp [da']), if_neg (by simp [da])]
      obtain ⟨q, hq⟩ : ∃ q : K × K, q = (-g.b / g.a, -g.c / g.a) := ⟨_, rfl⟩
      obtain ⟨r, hr⟩ : ∃ r : K × K, r = (-h.b / h.a, -h.c / h.a) := ⟨_, rfl⟩
      have hpole := (pole_spec hs hg).2.1 ha (hE ha)
      have hpole' := (pole_spec hs hh).2.1 ha' (hE' ha')
      rw [← hq] at hpole
      rw [← hr] at hpole'
      have hqr : q ≠ r := by
        intro h0
        rw [hq, hr, Prod.mk.injEq, div_eq_div_iff ha ha', div_eq_div_iff ha ha'] at h0
        obtain ⟨e1, e2⟩ := h0
        rw [eq_of_parallel (by linear_combination e1) (by linear_combination e2)] at hne
        · cases hne
        · exact mul_left_cancel₀ ha (by linear_combination g.b * e2 - g.c * e1)
      have heq : (Pt.coords q.1 q.2).eq (.coords r.1 r.2) = .ok false := by
        unfold Pt.eq
        have : ¬ (q.1 = r.1 ∧ q.2 = r.2) := fun ⟨a, b⟩ => hqr (Prod.ext a b)
        simpa using this
      refine ⟨⟨-((q.2 - r.2) * q.1 + (r.1 - q.1) * q.2), q.2 - r.2, r.1 - q.1⟩, (pole_point hg ha).1 ?_, (pole_point hh ha').1 ?_, Or.inr ?_, ?_⟩
      · have e1 : -g.b / g.a = q.1 := by rw [hq]
        have e2 : -g.c / g.a = q.2 := by rw [hq]
        rw [e1, e2]
        simp only
        ring
      · have e1 : -h.b / h.a = r.1 := by rw [hr]
        have e2 : -h.c / h.a = r.2 := by rw [hr]
        rw [e1, e2]
        simp only
        ring
      · simp only
        have : q.2 - r.2 ≠ 0 ∨ r.1 - q.1 ≠ 0 := by
          by_contra hcon
          push Not at hcon
          exact hqr (Prod.ext (by linarith [hcon.2]) (by linarith [hcon.1]))
        rcases this with h | h
        · have := mul_self_pos.2 h
          have := mul_self_nonneg (r.1 - q.1)
          linarith
        · have := mul_self_pos.2 h
          have := mul_self_nonneg (q.2 - r.2)
          linarith
      · rw [hpole, hpole', ← geodesic_klein_true, ← geodesicThrough_to_point heq (p := .coords r.1 r.2) (k := r) rfl]
        rfl

theorem pole_ends {sqrt : K → Option K} (hs : IsSqrt sqrt) {g : Geo K} (hg : g.Valid) {p : K × K} (h : g.pole sqrt = .ok p) : g.a ≠ 0 ∧ g.HasEnds sqrt := by
  obtain ⟨h1, h2, h3⟩ := pole_spec hs hg
  have ha : g.a ≠ 0 := fun ha => by rw [h1 ha] at h; cases h
  refine ⟨ha, ?_⟩
  by_contra hE
  rw [h3 ha hE] at h
  cases h

theorem perpendicularGeodesic_ends {sqrt : K → Option K} (hs : IsSqrt sqrt) {g h k : Geo K} (hg : g.Valid) (hh : h.Valid) (hne : g.eq h false = false)
    (hk : g.perpendicularGeodesic sqrt h = .ok k) : (g.a ≠ 0 → g.HasEnds sqrt) ∧ (h.a ≠ 0 → h.HasEnds sqrt) := by
  have diam : ∀ g h : Geo K, h.Valid → g.perpendicularDiameter sqrt h = .ok k → h.HasEnds sqrt := by
    intro g h hh hk
    unfold Geo.perpendicularDiameter at hk
    cases hp : h.pole sqrt with
    | error e => rw [hp] at hk; cases hk
    | ok p => exact (pole_ends hs hh hp).2
  unfold Geo.perpendicularGeodesic at hk
  rw [if_neg (by rw [hne]; simp)] at hk
  by_cases ha : g.isDiameter = true
  · have ha0 := (isDiameter_iff g).1 ha
    by_cases ha' : h.isDiameter = true
    · rw [if_pos (by simp [ha, ha'])] at hk
      cases hk
    · rw [if_neg (by simp [ha']), if_neg ha', if_pos ha] at hk
      exact ⟨fun h => absurd ha0 h, fun _ => diam _ _ hh hk⟩
  · rw [if_neg (by simp [ha])] at hk
    by_cases ha' : h.isDiameter = true
    · rw [if_pos ha'] at hk
      exact ⟨fun _ => diam _ _ hg hk, fun h0 => absurd ((isDiameter_iff h).1 ha') h0⟩
    · rw [if_neg ha', if_neg ha] at hk
      cases hp : g.pole sqrt with
      | error e => rw [hp] at hk; cases hk
      | ok p =>
        cases hq : h.pole sqrt with
        | error e => rw [hp, hq] at hk; cases hk
        | ok q => exact ⟨fun _ => (pole_ends hs hg hp).2, fun _ => (pole_ends hs hh hq).2⟩

/-- **C88.** The geodesic returned by `perpendicular(geodesic)` meets both geodesics at a right angle.  If the geodesics are different, then there is no other such geodesic. -/
theorem C88_common_perpendicular {sqrt : K → Option K} (hs : IsSqrt sqrt) {g h : Geo K} (hg : g.Valid) (hh : h.Valid) {k : Geo K} (hk : g.perpendicularGeodesic sqrt h = .ok k) :
    k.Valid ∧ RightAngle g k ∧ RightAngle h k ∧
      (g.eq h false = false → ∀ k' : Geo K, k'.Valid → RightAngle g k' → RightAngle h k' → k.eq k' false = true) := by
  cases hne : g.eq h false with
  | true =>
    obtain ⟨e, he, h1, h2, h3⟩ := anElement_ok hg
    unfold Geo.perpendicularGeodesic at hk
    rw [if_pos hne, he] at hk
    obtain ⟨a, -, b, -⟩ := C88_perpendicular hs hg (p := .coords e.1 e.2) h3.le hk
    refine ⟨a, b, ?_, by simp⟩
    obtain ⟨t, ht, -, rfl⟩ := (C51_geodesic_eq hg hh false).1 hne
    rw [rightAngle_iff hh a]
    have := (rightAngle_iff hg a).1 b
    unfold lorentz at *
    unfold Geo.smul
    simp only
    linear_combination t * this
  | false =>
    obtain ⟨hE, hE'⟩ := perpendicularGeodesic_ends hs hg hh hne hk
    obtain ⟨k0, e1, e2, e3, e4⟩ := perpendicularGeodesic_spec hs hg hh hne hE hE'
    rw [e4] at hk
    by_cases hv : k0.Valid
    · rw [if_pos hv] at hk
      injection hk with hk
      subst hk
      refine ⟨hv, (rightAngle_iff hg hv).2 e1, (rightAngle_iff hh hv).2 e2, fun _ k' hk' r1 r2 => ?_⟩
      have f1 := (rightAngle_iff hg hk').1 r1
      have f2 := (rightAngle_iff hh hk').1 r2
      have hn := not_parallel hg hh hne
      obtain ⟨p1, p2, p3⟩ := orthogonal_parallel (u1 := -g.a) (u2 := g.b) (u3 := g.c) (v1 := -h.a) (v2 := h.b) (v3 := h.c)
        (w1 := k0.a) (w2 := k0.b) (w3 := k0.c) (z1 := k'.a) (z2 := k'.b) (z3 := k'.c) (by
          rcases hn with h | h | h
          · exact Or.inl h
          · exact Or.inr (Or.inl fun h0 => h (by linear_combination -h0))
          · exact Or.inr (Or.inr fun h0 => h (by linear_combination -h0)))
        (by unfold lorentz at e1; linear_combination e1) (by unfold lorentz at e2; linear_combination e2)
        (by unfold lorentz at f1; linear_combination f1) (by unfold lorentz at f2; linear_combination f2)
      exact eq_of_parallel p1 p2 p3
    · rw [if_neg hv] at hk
      cases hk

/-- **C88.** When the coordinates of the end points are in the base ring, then `perpendicular(geodesic)` fails exactly if the geodesics are different and have a point in common, which may be ideal, and then with a
`ValueError`; there is no common perpendicular in this case. -/
theorem C88_common_perpendicular_exists {sqrt : K → Option K} (hs : IsSqrt sqrt) {g h : Geo K} (hg : g.Valid) (hh : h.Valid)
    (hE : g.a ≠ 0 → g.HasEnds sqrt) (hE' : h.a ≠ 0 → h.HasEnds sqrt) :
    (g.eq h false = true → ∃ k, g.perpendicularGeodesic sqrt h = .ok k) ∧
    (g.eq h false = false → (∀ x y : K, x * x + y * y ≤ 1 → ¬ (g.a + g.b * x + g.c * y = 0 ∧ h.a + h.b * x + h.c * y = 0)) → ∃ k, g.perpendicularGeodesic sqrt h = .ok k) ∧
    (g.eq h false = false → (∃ x y : K, x * x + y * y ≤ 1 ∧ g.a + g.b * x + g.c * y = 0 ∧ h.a + h.b * x + h.c * y = 0) →
      g.perpendicularGeodesic sqrt h = .error .valueError ∧ ∀ k : Geo K, k.Valid → ¬ (RightAngle g k ∧ RightAngle h k)) := by
  have key : g.eq h false = false → ∀ x y : K, x * x + y * y ≤ 1 → g.a + g.b * x + g.c * y = 0 → h.a + h.b * x + h.c * y = 0 →
      ∀ k : Geo K, lorentz g k = 0 → lorentz h k = 0 → ¬ k.Valid := by
    intro hne x y hxy o1 o2 k f1 f2 hv
    obtain ⟨p1, p2, -⟩ := orthogonal_parallel (u1 := g.a) (u2 := g.b) (u3 := g.c) (v1 := h.a) (v2 := h.b) (v3 := h.c)
      (w1 := 1) (w2 := x) (w3 := y) (z1 := -k.a) (z2 := k.b) (z3 := k.c) (not_parallel hg hh hne)
      (by linear_combination o1) (by linear_combination o2)
      (by unfold lorentz at f1; linear_combination f1) (by unfold lorentz at f2; linear_combination f2)
    rw [one_mul] at p1 p2
    unfold Geo.Valid at hv
    rw [p1, p2] at hv
    have := mul_le_mul_of_nonneg_left hxy (mul_self_nonneg k.a)
    nlinarith
  refine ⟨fun hne => ?_, fun hne hno => ?_, fun hne ⟨x, y, hxy, o1, o2⟩ => ?_⟩
  · unfold Geo.perpendicularGeodesic
    rw [if_pos hne]
    exact (C88_perpendicular_default hs hg).2 hE
  · obtain ⟨k, e1, e2, e3, e4⟩ := perpendicularGeodesic_spec hs hg hh hne hE hE'
    refine ⟨k, ?_⟩
    rw [e4, if_pos]
    by_cases hka : k.a = 0
    · rcases e3 with h | h
      · exact absurd hka h
      · unfold Geo.Valid
        rw [hka, mul_zero]
        exact h
    · have hn := hno (-k.b / k.a) (-k.c / k.a)
      unfold Geo.Valid
      by_contra hcon
      refine hn ?_ ⟨?_, ?_⟩
      · rw [div_mul_div_comm, div_mul_div_comm, ← add_div, div_le_one (mul_self_pos.2 hka)]
        linarith
      · unfold lorentz at e1
        field_simp
        linear_combination -e1
      · unfold lorentz at e2
        field_simp
        linear_combination -e2
  · obtain ⟨k, e1, e2, e3, e4⟩ := perpendicularGeodesic_spec hs hg hh hne hE hE'
    refine ⟨by rw [e4, if_neg (key hne x y hxy o1 o2 k e1 e2)], fun k' hk' hr => ?_⟩
    exact key hne x y hxy o1 o2 k' ((rightAngle_iff hg hk').1 hr.1) ((rightAngle_iff hh hk').1 hr.2) hk'

/-! ### Midpoints of geodesics -/

/-- **C88.** The midpoint of a geodesic is a finite point on it.  For a half circle from `e₁` to `e₂` it is the point above the middle, for a vertical line the point at height one; so it is the point that
the order two isometry exchanging the end points fixes. -/
theorem C88_midpoint {sqrt : K → Option K} (hs : IsSqrt sqrt) {g : Geo K} (hg : g.Valid) {p : Pt K} (hp : g.midpoint sqrt = .ok p) :
    p.isFinite = true ∧ g.contains p = .ok true ∧
    ∃ x y : K, 0 < y ∧ p = .coords (toKlein x y).1 (toKlein x y).2 ∧
      (g.isVertical = true → y = 1) ∧
      (g.isVertical = false → ∃ e₁ e₂ : K, IsStart g (toKlein e₁ 0).1 (toKlein e₁ 0).2 ∧ IsStart g.neg (toKlein e₂ 0).1 (toKlein e₂ 0).2 ∧ x = (e₁ + e₂) / 2 ∧ y = |e₂ - e₁| / 2) := by
  have hf : StrictMono (RingHom.id K) := fun _ _ h => h
  have ideal : ∀ (k : Geo K), k.Valid → ∀ x : K × K, (Pt.start k).coordinates sqrt .halfPlane = .ok x → IsStart k (toKlein x.1 0).1 (toKlein x.1 0).2 := by
    intro k hk x hx
    obtain ⟨h0, h1⟩ := (C51_coordinates hs (p := .start k) hk x.1 x.2).1 hx
    have h2 := (startCoordinates_ok hs hk (x := (toKlein x.1 x.2).1) (y := (toKlein x.1 x.2).2)).1 h1
    have h3 := toKlein_norm x.1 x.2
    rw [h2.1] at h3
    have hd := denom_pos x.1 x.2
    have h4 : x.2 = 0 := by
      have : 4 * (x.2 * x.2) / ((1 + x.1 * x.1 + x.2 * x.2) * (1 + x.1 * x.1 + x.2 * x.2)) = 0 := by linarith
      rcases div_eq_zero_iff.1 this with h | h
      · exact mul_self_eq_zero.1 (by linarith)
      · exact absurd h (mul_pos hd hd).ne'
    rw [h4] at h2
    exact h2
  have root : ∀ e : K, g.a + g.b * (toKlein e 0).1 + g.c * (toKlein e 0).2 = 0 → (g.a + g.c) * (e * e) + 2 * g.b * e + (g.a - g.c) = 0 := by
    intro e he
    rw [form_toKlein] at he
    rcases div_eq_zero_iff.1 he with h | h
    · linear_combination h
    · exact absurd h (denom_pos e 0).ne'
  have fin : ∀ x y : K, 0 < y → (g.a + g.c) * (x * x + y * y) + 2 * g.b * x + (g.a - g.c) = 0 →
      point x y .halfPlane true = .ok (.coords (toKlein x y).1 (toKlein x y).2) ∧ (Pt.coords (toKlein x y).1 (toKlein x y).2).isFinite = true ∧
        g.contains (.coords (toKlein x y).1 (toKlein x y).2) = .ok true := by
    intro x y hy h0
    refine ⟨by rw [C51_point, if_neg (not_lt.2 hy.le)], ?_, ?_⟩
    · refine decide_eq_true ?_
      rw [toKlein_norm]
      have hd := denom_pos x y
      have : 0 < 4 * (y * y) / ((1 + x * x + y * y) * (1 + x * x + y * y)) := div_pos (by nlinarith [mul_pos hy hy]) (mul_pos hd hd)
      linarith
    · rw [C51_contains hf hg (p := .coords (toKlein x y).1 (toKlein x y).2) (toKlein_valid x y) (X := (toKlein x y).1) (Y := (toKlein x y).2) ⟨rfl, rfl⟩]
      rw [decide_eq_true]
      show g.a + g.b * (toKlein x y).1 + g.c * (toKlein x y).2 = 0
      rw [form_toKlein, h0, zero_div]
  unfold Geo.midpoint at hp
  by_cases hv : g.isVertical = true
  · rw [if_pos hv] at hp
    have hac := (isVertical_iff g).1 hv
    have hx : ∃ x : K, g.a + g.b * (toKlein x 0).1 + g.c * (toKlein x 0).2 = 0 ∧ point x 1 .halfPlane true = .ok p := by
      cases he : (Pt.start g).eq infinity with
      | error e => rw [he] at hp; cases hp
      | ok e =>
        rw [he] at hp
        cases e with
        | true =>
          cases hx : (Pt.start g.neg).coordinates sqrt .halfPlane with
          | error e => simp only [bind, Except.bind, if_true, hx] at hp; cases hp
          | ok x =>
            simp only [bind, Except.bind, if_true, hx] at hp
            have := (ideal _ hg.neg x hx).2.1
            unfold Geo.neg at this
            simp only at this
            exact ⟨x.1, by linear_combination -this, hp⟩
        | false =>
          cases hx : (Pt.start g).coordinates sqrt .halfPlane with
          | error e => simp only [bind, Except.bind, Bool.false_eq_true, if_false, hx] at hp; cases hp
          | ok x =>
            simp only [bind, Except.bind, Bool.false_eq_true, if_false, hx] at hp
            exact ⟨x.1, (ideal _ hg x hx).2.1, hp⟩
    obtain ⟨x, hx, hp⟩ := hx
    have hr := root x hx
    obtain ⟨a, b, c⟩ := fin x 1 one_pos (by rw [hac] at hr ⊢; linear_combination hr)
    rw [a] at hp
    injection hp with hp
    subst hp
    exact ⟨b, c, x, 1, one_pos, rfl, fun _ => rfl, fun h => by rw [hv] at h; cases h⟩
  · rw [if_neg hv] at hp
    cases h1 : (Pt.start g).coordinates sqrt .halfPlane with
    | error e => rw [h1] at hp; cases hp
    | ok e₁ =>
      cases h2 : (Pt.start g.neg).coordinates sqrt .halfPlane with
      | error e => rw [h1, h2] at hp; cases hp
      | ok e₂ =>
        rw [h1, h2] at hp
        simp only [bind, Except.bind] at hp
        have s1 := ideal _ hg _ h1
        have s2 := ideal _ hg.neg _ h2
        have o2 := s2.2.1
        have u2 := s2.2.2
        unfold Geo.neg at o2 u2
        simp only at o2 u2
        have r1 := root _ s1.2.1
        have r2 := root e₂.1 (by linear_combination -o2)
        have hne : e₂.1 - e₁.1 ≠ 0 := by
          intro h0
          have : e₂.1 = e₁.1 := by linarith
          rw [this] at u2
          linarith [s1.2.2]
        have hr := half_pos (abs_pos.2 hne)
        obtain ⟨a, b, c⟩ := fin ((e₁.1 + e₂.1) / 2) (|e₂.1 - e₁.1| / 2) hr (by
          have : |e₂.1 - e₁.1| / 2 * (|e₂.1 - e₁.1| / 2) = (e₂.1 - e₁.1) * (e₂.1 - e₁.1) / 4 := by
            rw [div_mul_div_comm, abs_mul_abs_self]; norm_num
          rw [this]
          linear_combination r1 / 2 + r2 / 2)
        rw [a] at hp
        injection hp with hp
        subst hp
        exact ⟨b, c, _, _, hr, rfl, fun h => absurd h hv, fun _ => ⟨e₁.1, e₂.1, s1, s2, rfl, rfl⟩⟩

/-- **C88.** The midpoint can be computed when the coordinates of the end points are in the base ring. -/
theorem C88_midpoint_exists {sqrt : K → Option K} (hs : IsSqrt sqrt) {g : Geo K} (hg : g.Valid) (hE : g.HasEnds sqrt) : ∃ p, g.midpoint sqrt = .ok p := by
  obtain ⟨A, B, hA, hB⟩ := hE
  have sA := (startCoordinates_ok hs hg (x := A.1) (y := A.2)).1 hA
  have sB := (startCoordinates_ok hs hg.neg (x := B.1) (y := B.2)).1 hB
  have real : ∀ (k : Geo K) (A : K × K), k.Valid → (Pt.start k).klein sqrt = .ok A → IsStart k A.1 A.2 → A.2 ≠ 1 → (Pt.start k).coordinates sqrt .halfPlane = .ok (A.1 / (1 - A.2), 0) := by
    intro k A hk hA sA h1
    refine (C51_coordinates hs (p := .start k) hk _ _).2 ⟨le_rfl, ?_⟩
    rw [hA, toKlein_inverse (s := 0) h1 (by linear_combination sA.1) rfl (by rw [zero_div])]
  have pt : ∀ x y : K, 0 ≤ y → ∃ p, point x y .halfPlane true = .ok p := fun x y hy => ⟨_, by rw [C51_point, if_neg (not_lt.2 hy)]⟩
  have zero : ∀ A : K × K, A.1 * A.1 + A.2 * A.2 = 1 → A.2 = 1 → A.1 = 0 := fun A h1 h2 => by
    rw [h2] at h1
    exact mul_self_eq_zero.1 (by linarith)
  unfold Geo.midpoint
  by_cases hv : g.isVertical = true
  · rw [if_pos hv, eq_infinity hs (p := .start g) hg hA]
    by_cases h1 : A.1 = 0 ∧ A.2 = 1
    · have hB1 : B.2 ≠ 1 := by
        intro h2
        have h3 := zero B sB.1 h2
        have u1 := sA.2.2
        have u2 := sB.2.2
        unfold Geo.neg at u2
        simp only at u2
        rw [h1.1, h1.2] at u1
        rw [h2, h3] at u2
        linarith
      rw [decide_eq_true h1]
      simp only [bind, Except.bind, if_true, real _ B hg.neg hB sB hB1]
      exact pt _ _ zero_le_one
    · rw [decide_eq_false h1]
      simp only [bind, Except.bind, Bool.false_eq_true, if_false, real _ A hg hA sA (fun h2 => h1 ⟨zero A sA.1 h2, h2⟩)]
      exact pt _ _ zero_le_one
  · rw [if_neg hv]
    have hac : g.a + g.c ≠ 0 := fun h => hv ((isVertical_iff g).2 h)
    have hA1 : A.2 ≠ 1 := by
      intro h2
      have := sA.2.1
      rw [zero A sA.1 h2, h2] at this
      exact hac (by linear_combination this)
    have hB1 : B.2 ≠ 1 := by
      intro h2
      have := sB.2.1
      rw [zero B sB.1 h2, h2] at this
      unfold Geo.neg at this
      simp only at this
      exact hac (by linear_combination -this)
    rw [real _ A hg hA sA hA1, real _ B hg.neg hB sB hB1]
    exact pt _ _ (by positivity)

/-! ### Examples and violation -/

/-- The vertical through 2 and the half circle with center 4 and radius 1, with the values of the documentation. -/
example : vertical (2 : ℚ) = .ok ⟨2, -1, -2⟩ ∧ halfCircle (4 : ℚ) 1 = .ok ⟨16, -8, -14⟩ ∧ (⟨2, -1, -2⟩ : Geo ℚ).Valid ∧ (⟨16, -8, -14⟩ : Geo ℚ).Valid := by
  refine ⟨by decide +kernel, by decide +kernel, ?_, ?_⟩ <;> unfold Geo.Valid <;> norm_num

/-- The common perpendicular of the two: the half circle with center 2 and squared radius 3. -/
example : ((⟨2, -1, -2⟩ : Geo ℚ).perpendicularGeodesic ratSqrt ⟨16, -8, -14⟩).toOption.map (fun k => k.eq ⟨2, -4, 0⟩ false) = some true ∧
    halfCircle (2 : ℚ) 3 = .ok ⟨2, -4, 0⟩ := by
  refine ⟨by decide +kernel, by decide +kernel⟩

/-- The perpendicular of the vertical through the point `I` is the half circle with center 2 and squared radius 5. -/
example : ((⟨2, -1, -2⟩ : Geo ℚ).perpendicularPoint ratSqrt (.coords 0 0)).toOption.map (fun k => k.eq ⟨0, -4, 2⟩ false) = some true ∧
    halfCircle (2 : ℚ) 5 = .ok ⟨0, -4, 2⟩ ∧ RightAngle (⟨2, -1, -2⟩ : Geo ℚ) ⟨0, -4, 2⟩ := by
  refine ⟨by decide +kernel, by decide +kernel, (rightAngle_iff ?_ ?_).2 ?_⟩
  · unfold Geo.Valid; norm_num
  · unfold Geo.Valid; norm_num
  · unfold lorentz; norm_num

/-- There is no perpendicular through an end point, and none of geodesics that meet. -/
example : (⟨2, -1, -2⟩ : Geo ℚ).perpendicularPoint ratSqrt infinity = .error .valueError ∧
    (⟨2, -1, -2⟩ : Geo ℚ).perpendicularGeodesic ratSqrt ⟨4, -4, -2⟩ = .error .valueError := by
  refine ⟨by decide +kernel, by decide +kernel⟩

example : (⟨16, -8, -14⟩ : Geo ℚ).midpoint ratSqrt = .ok (.coords (4 / 9) (8 / 9)) ∧ toKlein (4 : ℚ) 1 = (4 / 9, 8 / 9) := by
  refine ⟨by decide +kernel, by decide +kernel⟩

/-- **C88, violation.** The pole is computed from the end points, which need not have coordinates in the base ring, though the pole itself has: the half circle with center 0 and squared radius 2 has no perpendicular through
the point `I` according to `perpendicular`, a `ValueError` is raised, but the vertical line through 0 is perpendicular. -/
theorem C88_perpendicular_violation : ∃ (sqrt : ℚ → Option ℚ) (g h : Geo ℚ) (p : Pt ℚ), IsSqrt sqrt ∧ g.Valid ∧ h.Valid ∧ p.Valid ∧ p.isFinite = true ∧
    h.contains p = .ok true ∧ RightAngle g h ∧ g.perpendicularPoint sqrt p = .error .valueError := by
  have hg : (⟨-1, 0, 3⟩ : Geo ℚ).Valid := by unfold Geo.Valid; norm_num
  have hh : (⟨0, 1, 0⟩ : Geo ℚ).Valid := by unfold Geo.Valid; norm_num
  refine ⟨ratSqrt, ⟨-1, 0, 3⟩, ⟨0, 1, 0⟩, .coords 0 0, ratSqrt_isSqrt, hg, hh, by show (0 : ℚ) * 0 + 0 * 0 ≤ 1; norm_num, by decide +kernel, by decide +kernel, (rightAngle_iff hg hh).2 ?_, by decide +kernel⟩
  unfold lorentz
  norm_num

end Hyp
end Flat
