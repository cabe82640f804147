import Verif.Model.Circle
import Verif.Props.Similarity
import Verif.Props.Polygon
import Mathlib.Tactic.LinearCombination

/-!
# C44: circles
-/

namespace Flat
namespace Circle
variable {K : Type} [Field K] [LinearOrder K] [IsStrictOrderedRing K]

/-- The square of the distance of two points. -/
def distSq (p q : Vec K) : K := (p.1 - q.1) ^ 2 + (p.2 - q.2) ^ 2

omit [LinearOrder K] [IsStrictOrderedRing K] in
theorem dehomogenize_ok [DecidableEq K] (v : K × K × K) (r : Vec K) :
    dehomogenize v = .ok r ↔ v.2.2 ≠ 0 ∧ v.2.2 * r.1 = v.1 ∧ v.2.2 * r.2 = v.2.1 := by
  unfold dehomogenize
  split_ifs with h
  · simp [h]
  · simp only [Except.ok.injEq, Prod.ext_iff, ne_eq, h, not_false_eq_true, true_and]
    rw [div_eq_iff h, div_eq_iff h, mul_comm v.2.2, mul_comm v.2.2]
    constructor <;> rintro ⟨h1, h2⟩ <;> exact ⟨h1.symm, h2.symm⟩

omit [LinearOrder K] [IsStrictOrderedRing K] in
theorem dehomogenize_exists [DecidableEq K] (v : K × K × K) (h : v.2.2 ≠ 0) : ∃ r, dehomogenize v = .ok r := by
  unfold dehomogenize
  rw [if_neg h]
  exact ⟨_, rfl⟩

theorem sq_add_sq_ne {a b : K} (h : (a, b) ≠ ((0 : K), (0 : K))) : a ^ 2 + b ^ 2 ≠ 0 := by
  intro h0
  apply h
  have ha : a = 0 := by nlinarith [sq_nonneg a, sq_nonneg b]
  have hb : b = 0 := by nlinarith [sq_nonneg a, sq_nonneg b]
  rw [ha, hb]

/-- **C44**. `circle_from_three_points` succeeds iff the points are not on a line. -/
theorem C44_three_points_ok_iff (p q r : Vec K) :
    (∃ c, circleFromThreePoints p q r = .ok c) ↔ ccw (q - p) (r - p) ≠ 0 := by
  have hz : (cross (cross (p.1 + q.1, p.2 + q.2, 2) (p.2 - q.2, q.1 - p.1, 0))
      (cross (p.1 + r.1, p.2 + r.2, 2) (p.2 - r.2, r.1 - p.1, 0))).2.2 = 4 * ccw (q - p) (r - p) := by
    simp only [cross, ccw, Prod.fst_sub, Prod.snd_sub]
    ring
  have h4 : (4 : K) ≠ 0 := four_ne_zero
  constructor
  · rintro ⟨c, hc⟩ h
    rw [h, mul_zero] at hz
    unfold circleFromThreePoints at hc
    simp only [bind, Except.bind, dehomogenize, hz, if_true] at hc
    cases hc
  · intro h
    obtain ⟨m, hm⟩ := dehomogenize_exists _ (by rw [hz]; exact mul_ne_zero h4 h)
    unfold circleFromThreePoints
    simp only [bind, Except.bind, hm]
    exact ⟨_, rfl⟩

/-- **C44**. The circle passes through the three points and is the only one to do so. -/
theorem C44_three_points (p q r : Vec K) (c : Circle K) (hc : circleFromThreePoints p q r = .ok c) :
    distSq p c.center = c.radiusSq ∧ distSq q c.center = c.radiusSq ∧ distSq r c.center = c.radiusSq ∧
    ∀ c' : Circle K, distSq p c'.center = c'.radiusSq → distSq q c'.center = c'.radiusSq →
      distSq r c'.center = c'.radiusSq → c' = c := by
  have hne := (C44_three_points_ok_iff p q r).1 ⟨c, hc⟩
  have h4 : (4 : K) ≠ 0 := four_ne_zero
  have h2 : (2 : K) ≠ 0 := two_ne_zero
  unfold circleFromThreePoints at hc
  simp only [bind, Except.bind] at hc
  cases hd : dehomogenize (cross (cross (p.1 + q.1, p.2 + q.2, 2) (p.2 - q.2, q.1 - p.1, 0))
      (cross (p.1 + r.1, p.2 + r.2, 2) (p.2 - r.2, r.1 - p.1, 0))) with
  | error e => rw [hd] at hc; cases hc
  | ok m =>
    rw [hd] at hc
    injection hc with hc
    subst hc
    obtain ⟨hz, h1, h2'⟩ := (dehomogenize_ok _ _).1 hd
    obtain ⟨m1, m2⟩ := m
    simp only [cross, ccw, Prod.fst_sub, Prod.snd_sub] at hz h1 h2' hne
    have e1 : 2 * (m1 * (q.1 - p.1) + m2 * (q.2 - p.2)) = q.1 ^ 2 + q.2 ^ 2 - p.1 ^ 2 - p.2 ^ 2 := by
      apply mul_left_cancel₀ hz
      linear_combination 2 * (q.1 - p.1) * h1 + 2 * (q.2 - p.2) * h2'
    have e2 : 2 * (m1 * (r.1 - p.1) + m2 * (r.2 - p.2)) = r.1 ^ 2 + r.2 ^ 2 - p.1 ^ 2 - p.2 ^ 2 := by
      apply mul_left_cancel₀ hz
      linear_combination 2 * (r.1 - p.1) * h1 + 2 * (r.2 - p.2) * h2'
    refine ⟨rfl, ?_, ?_, ?_⟩
    · simp only [distSq]
      linear_combination -e1
    · simp only [distSq]
      linear_combination -e2
    · rintro ⟨⟨n1, n2⟩, R⟩ k1 k2 k3
      simp only [distSq] at k1 k2 k3
      have f1 : 2 * (n1 * (q.1 - p.1) + n2 * (q.2 - p.2)) = q.1 ^ 2 + q.2 ^ 2 - p.1 ^ 2 - p.2 ^ 2 := by
        linear_combination k1 - k2
      have f2 : 2 * (n1 * (r.1 - p.1) + n2 * (r.2 - p.2)) = r.1 ^ 2 + r.2 ^ 2 - p.1 ^ 2 - p.2 ^ 2 := by
        linear_combination k1 - k3
      have g1 : n1 = m1 := by
        apply mul_left_cancel₀ (mul_ne_zero h2 hne)
        linear_combination (r.2 - p.2) * (f1 - e1) - (q.2 - p.2) * (f2 - e2)
      have g2 : n2 = m2 := by
        apply mul_left_cancel₀ (mul_ne_zero h2 hne)
        linear_combination (q.1 - p.1) * (f2 - e2) - (r.1 - p.1) * (f1 - e1)
      subst g1; subst g2
      rw [← k1]

/-- **C44**. `point_position` compares the distance from the center with the radius. -/
theorem C44_point_position (c : Circle K) (p : Vec K) :
    (c.pointPosition p = 1 ↔ distSq p c.center < c.radiusSq) ∧
    (c.pointPosition p = 0 ↔ distSq p c.center = c.radiusSq) ∧
    (c.pointPosition p = -1 ↔ c.radiusSq < distSq p c.center) := by
  unfold pointPosition distSq
  dsimp only
  split_ifs with h1 h2
  · refine ⟨⟨fun h => by simp at h, fun h => by linarith⟩, ⟨fun h => by simp at h, fun h => by linarith⟩, ⟨fun _ => by linarith, fun _ => rfl⟩⟩
  · refine ⟨⟨fun _ => by linarith, fun _ => rfl⟩, ⟨fun h => by simp at h, fun h => by linarith⟩, ⟨fun h => by simp at h, fun h => by linarith⟩⟩
  · refine ⟨⟨fun h => by simp at h, fun h => by linarith⟩, ⟨fun _ => by linarith, fun _ => rfl⟩, ⟨fun h => by simp at h, fun h => by linarith⟩⟩

/-- The parameter of the point of a line closest to the center. -/
def footTime (c : Circle K) (p d : Vec K) : K :=
  ((c.center.1 - p.1) * d.1 + (c.center.2 - p.2) * d.2) / (d.1 ^ 2 + d.2 ^ 2)

theorem closestPointOnLine_eq (c : Circle K) (p d : Vec K) (hd : d ≠ 0) :
    c.closestPointOnLine p d = .ok (p + footTime c p d • d) := by
  have hn : d.1 ^ 2 + d.2 ^ 2 ≠ 0 := sq_add_sq_ne hd
  unfold closestPointOnLine
  dsimp only
  rw [dehomogenize_ok]
  simp only [cross, footTime, Prod.fst_add, Prod.snd_add, Prod.smul_fst, Prod.smul_snd, smul_eq_mul]
  refine ⟨?_, ?_, ?_⟩
  · intro h
    apply hn
    linear_combination h
  · field_simp
    ring
  · field_simp
    ring

theorem closestPointOnLine_zero (c : Circle K) (p : Vec K) : c.closestPointOnLine p 0 = .error .valueError := by
  unfold closestPointOnLine dehomogenize
  simp [cross]

/-- The distance to the center along a line. -/
theorem distSq_line (c : Circle K) (p d : Vec K) (hd : d ≠ 0) (t : K) :
    distSq (p + t • d) c.center =
      distSq (p + footTime c p d • d) c.center + (t - footTime c p d) ^ 2 * (d.1 ^ 2 + d.2 ^ 2) := by
  have hn : d.1 ^ 2 + d.2 ^ 2 ≠ 0 := sq_add_sq_ne hd
  have hf : footTime c p d * (d.1 ^ 2 + d.2 ^ 2) = (c.center.1 - p.1) * d.1 + (c.center.2 - p.2) * d.2 := by
    unfold footTime
    rw [div_mul_cancel₀ _ hn]
  simp only [distSq, Prod.fst_add, Prod.snd_add, Prod.smul_fst, Prod.smul_snd, smul_eq_mul]
  linear_combination 2 * (t - footTime c p d) * hf

theorem normSq_pos {d : Vec K} (hd : d ≠ 0) : 0 < d.1 ^ 2 + d.2 ^ 2 :=
  lt_of_le_of_ne (by positivity) (Ne.symm (sq_add_sq_ne hd))

/-- **C44**. `closest_point_on_line` returns a point of the line, and all other points of the line are further away from
the center; it raises only for the zero direction. -/
theorem C44_closest_point_on_line (c : Circle K) (p d : Vec K) :
    (d ≠ 0 → ∃ r, c.closestPointOnLine p d = .ok r ∧ (∃ t : K, r = p + t • d) ∧
      ∀ t : K, p + t • d ≠ r → distSq r c.center < distSq (p + t • d) c.center) ∧
    (d = 0 → c.closestPointOnLine p d = .error .valueError) := by
  refine ⟨fun hd => ⟨_, closestPointOnLine_eq c p d hd, ⟨_, rfl⟩, fun t ht => ?_⟩, fun hd => by rw [hd]; exact closestPointOnLine_zero c p⟩
  rw [distSq_line c p d hd t]
  have hne : t - footTime c p d ≠ 0 := by
    intro h
    apply ht
    rw [sub_eq_zero.1 h]
  have := mul_pos (lt_of_le_of_ne (sq_nonneg _) (Ne.symm (pow_ne_zero 2 hne))) (normSq_pos hd)
  linarith

/-- **C44**. `line_position`: 1 iff the line passes through the inside of the circle, 0 iff it only touches the circle, -1 iff
it does not meet it. -/
theorem C44_line_position (c : Circle K) (p d : Vec K) (hd : d ≠ 0) : ∃ x, c.linePosition p d = .ok x ∧
    (x = 1 ↔ ∃ t : K, distSq (p + t • d) c.center < c.radiusSq) ∧
    (x = 0 ↔ (∃ t : K, distSq (p + t • d) c.center = c.radiusSq) ∧ ∀ t : K, c.radiusSq ≤ distSq (p + t • d) c.center) ∧
    (x = -1 ↔ ∀ t : K, c.radiusSq < distSq (p + t • d) c.center) := by
  refine ⟨c.pointPosition (p + footTime c p d • d), ?_, ?_, ?_, ?_⟩
  · unfold linePosition
    rw [closestPointOnLine_eq c p d hd]
    rfl
  · rw [(C44_point_position c _).1]
    refine ⟨fun h => ⟨_, h⟩, ?_⟩
    rintro ⟨t, ht⟩
    rw [distSq_line c p d hd t] at ht
    have := mul_nonneg (sq_nonneg (t - footTime c p d)) (normSq_pos hd).le
    linarith
  · rw [(C44_point_position c _).2.1]
    constructor
    · intro h
      refine ⟨⟨_, h⟩, fun t => ?_⟩
      rw [distSq_line c p d hd t, h]
      have := mul_nonneg (sq_nonneg (t - footTime c p d)) (normSq_pos hd).le
      linarith
    · rintro ⟨⟨t, ht⟩, h⟩
      have h0 := h (footTime c p d)
      rw [distSq_line c p d hd t] at ht
      have := mul_nonneg (sq_nonneg (t - footTime c p d)) (normSq_pos hd).le
      linarith
  · rw [(C44_point_position c _).2.2]
    refine ⟨fun h t => ?_, fun h => h _⟩
    rw [distSq_line c p d hd t]
    have := mul_nonneg (sq_nonneg (t - footTime c p d)) (normSq_pos hd).le
    linarith

/-- The comparison of coordinates in `line_segment_position` is a comparison of parameters. -/
theorem between_iff (p q : Vec K) (f : K) (hpq : q - p ≠ 0) :
    (if p.1 = q.1 then ((p.2 < (p + f • (q - p)).2 ∧ (p + f • (q - p)).2 < q.2) ∨ (p.2 > (p + f • (q - p)).2 ∧ (p + f • (q - p)).2 > q.2))
      else ((p.1 < (p + f • (q - p)).1 ∧ (p + f • (q - p)).1 < q.1) ∨ (p.1 > (p + f • (q - p)).1 ∧ (p + f • (q - p)).1 > q.1)))
    ↔ 0 < f ∧ f < 1 := by
  have key : ∀ a b : K, a ≠ b → (((a < a + f * (b - a) ∧ a + f * (b - a) < b) ∨ (a > a + f * (b - a) ∧ a + f * (b - a) > b)) ↔ 0 < f ∧ f < 1) := by
    intro a b hab
    rcases lt_or_gt_of_ne hab with h | h
    · have hp : 0 < b - a := sub_pos.2 h
      constructor
      · rintro (⟨h1, h2⟩ | ⟨h1, h2⟩)
        · exact ⟨by by_contra hn; nlinarith, by by_contra hn; nlinarith⟩
        · exfalso; linarith
      · rintro ⟨h1, h2⟩
        left
        constructor <;> nlinarith
    · have hp : b - a < 0 := sub_neg.2 h
      constructor
      · rintro (⟨h1, h2⟩ | ⟨h1, h2⟩)
        · exfalso; linarith
        · exact ⟨by by_contra hn; nlinarith, by by_contra hn; nlinarith⟩
      · rintro ⟨h1, h2⟩
        right
        constructor <;> nlinarith
  simp only [Prod.fst_add, Prod.snd_add, Prod.smul_fst, Prod.smul_snd, Prod.fst_sub, Prod.snd_sub, smul_eq_mul]
  split_ifs with h
  · apply key
    intro h'
    apply hpq
    rw [show q = p from Prod.ext h.symm h'.symm, sub_self]
  · exact key _ _ h

/-- **C44**. `line_segment_position` of two different points, for the open segment between them: 1 iff the segment enters the
inside of the circle, 0 iff it touches the circle but does not enter, -1 iff it stays outside. -/
theorem C44_line_segment_position (c : Circle K) (p q : Vec K) (hpq : p ≠ q) : ∃ x, c.lineSegmentPosition p q = .ok x ∧
    (x = 1 ↔ ∃ t : K, 0 < t ∧ t < 1 ∧ distSq (p + t • (q - p)) c.center < c.radiusSq) ∧
    (x = 0 ↔ (∃ t : K, 0 < t ∧ t < 1 ∧ distSq (p + t • (q - p)) c.center = c.radiusSq) ∧
      ∀ t : K, 0 < t → t < 1 → c.radiusSq ≤ distSq (p + t • (q - p)) c.center) ∧
    (x = -1 ↔ ∀ t : K, 0 < t → t < 1 → c.radiusSq < distSq (p + t • (q - p)) c.center) := by
  have hd : q - p ≠ 0 := fun h => hpq (sub_eq_zero.1 h).symm
  set D := (q - p).1 ^ 2 + (q - p).2 ^ 2 with hD
  have hDp : 0 < D := normSq_pos hd
  set f := footTime c p (q - p) with hf
  have hline : ∀ t : K, distSq (p + t • (q - p)) c.center = distSq (p + f • (q - p)) c.center + (t - f) ^ 2 * D :=
    distSq_line c p (q - p) hd
  set m := distSq (p + f • (q - p)) c.center with hm
  have hp0 : distSq p c.center = m + f ^ 2 * D := by
    have := hline 0
    rw [zero_smul, add_zero] at this
    rw [this]; ring
  have hq1 : distSq q c.center = m + (1 - f) ^ 2 * D := by
    have := hline 1
    rwa [one_smul, add_sub_cancel] at this
  -- it suffices to classify the values of the parabola
  suffices h : ∃ x, c.lineSegmentPosition p q = .ok x ∧
      ((x = 1 ∧ ∃ t : K, 0 < t ∧ t < 1 ∧ m + (t - f) ^ 2 * D < c.radiusSq) ∨
       (x = 0 ∧ (∃ t : K, 0 < t ∧ t < 1 ∧ m + (t - f) ^ 2 * D = c.radiusSq) ∧ ∀ t : K, 0 < t → t < 1 → c.radiusSq ≤ m + (t - f) ^ 2 * D) ∨
       (x = -1 ∧ ∀ t : K, 0 < t → t < 1 → c.radiusSq < m + (t - f) ^ 2 * D)) by
    obtain ⟨x, hx, h⟩ := h
    refine ⟨x, hx, ?_⟩
    simp only [hline]
    rcases h with ⟨rfl, t, h1, h2, h3⟩ | ⟨rfl, ⟨t, h1, h2, h3⟩, h4⟩ | ⟨rfl, h4⟩
    · refine ⟨⟨fun _ => ⟨t, h1, h2, h3⟩, fun _ => rfl⟩, ⟨fun h => by simp at h, fun h => absurd (h.2 t h1 h2) (not_le.2 h3)⟩,
        ⟨fun h => by simp at h, fun h => absurd (h t h1 h2) (not_lt.2 h3.le)⟩⟩
    · refine ⟨⟨fun h => by simp at h, ?_⟩, ⟨fun _ => ⟨⟨t, h1, h2, h3⟩, h4⟩, fun _ => rfl⟩,
        ⟨fun h => by simp at h, fun h => absurd (h t h1 h2) (by rw [h3]; exact lt_irrefl _)⟩⟩
      rintro ⟨t', k1, k2, k3⟩
      exact absurd (h4 t' k1 k2) (not_le.2 k3)
    · refine ⟨⟨fun h => by simp at h, ?_⟩, ⟨fun h => by simp at h, ?_⟩, ⟨fun _ => h4, fun _ => rfl⟩⟩
      · rintro ⟨t', k1, k2, k3⟩
        exact absurd (h4 t' k1 k2) (not_lt.2 k3.le)
      · rintro ⟨⟨t', k1, k2, k3⟩, -⟩
        exact absurd (h4 t' k1 k2) (by rw [k3]; exact lt_irrefl _)
  -- a parabola that is below a value at an end of the interval is below it inside
  have near : ∀ e : K, (e = 0 ∨ e = 1) → m + (e - f) ^ 2 * D < c.radiusSq →
      ∃ t : K, 0 < t ∧ t < 1 ∧ m + (t - f) ^ 2 * D < c.radiusSq := by
    intro e he hlt
    set δ := c.radiusSq - (m + (e - f) ^ 2 * D) with hδ
    have hδp : 0 < δ := by rw [hδ]; linarith
    set B := D * (2 * |e - f| + 1) with hB
    have hBp : 0 < B := by rw [hB]; have := abs_nonneg (e - f); positivity
    set ε := min (1 / 2) (δ / (2 * B)) with hε
    have hεp : 0 < ε := lt_min (by positivity) (by positivity)
    have hε1 : ε ≤ 1 / 2 := min_le_left _ _
    have hε2 : ε * B < δ := by
      have : ε ≤ δ / (2 * B) := min_le_right _ _
      calc ε * B ≤ δ / (2 * B) * B := by gcongr
        _ = δ / 2 := by field_simp
        _ < δ := by linarith
    have bound : ∀ σ : K, (σ = 1 ∨ σ = -1) → (e + σ * ε - f) ^ 2 * D ≤ (e - f) ^ 2 * D + ε * B := by
      intro σ hσ
      have hσ2 : σ ^ 2 = 1 := by rcases hσ with rfl | rfl <;> ring
      have hab : σ * (e - f) ≤ |e - f| := by
        rcases hσ with rfl | rfl
        · rw [one_mul]; exact le_abs_self _
        · rw [neg_one_mul]; exact neg_le_abs _
      have : (e + σ * ε - f) ^ 2 = (e - f) ^ 2 + ε * (2 * (σ * (e - f)) + ε) := by
        linear_combination ε ^ 2 * hσ2
      rw [this, add_mul, hB]
      have : ε * (2 * (σ * (e - f)) + ε) ≤ ε * (2 * |e - f| + 1) := by
        apply mul_le_mul_of_nonneg_left _ hεp.le
        linarith
      nlinarith
    rcases he with he | he
    · refine ⟨ε, hεp, by linarith, ?_⟩
      have := bound 1 (Or.inl rfl)
      rw [one_mul, he, zero_add] at this
      rw [he] at hδ
      linarith
    · refine ⟨1 - ε, by linarith, by linarith, ?_⟩
      have := bound (-1) (Or.inr rfl)
      rw [he] at this hδ
      rw [show (1 : K) + -1 * ε - f = 1 - ε - f by ring] at this
      linarith
  unfold lineSegmentPosition
  simp only [(C44_point_position c _).1]
  by_cases hin : distSq p c.center < c.radiusSq
  · rw [if_pos hin]
    rw [hp0] at hin
    exact ⟨1, rfl, Or.inl ⟨rfl, near 0 (Or.inl rfl) (by rw [zero_sub, neg_sq]; exact hin)⟩⟩
  rw [if_neg hin]
  by_cases hin' : distSq q c.center < c.radiusSq
  · simp only [pure, Except.pure, bind, Except.bind, if_pos hin']
    rw [hq1] at hin'
    exact ⟨1, rfl, Or.inl ⟨rfl, near 1 (Or.inr rfl) hin'⟩⟩
  simp only [pure, Except.pure, bind, Except.bind, if_neg hin', closestPointOnLine_eq c p (q - p) hd]
  rw [← hf]
  rw [hp0] at hin
  rw [hq1] at hin'
  push Not at hin hin'
  have hpos := C44_point_position c (p + f • (q - p))
  rw [← hm] at hpos
  by_cases hout : c.pointPosition (p + f • (q - p)) = -1
  · rw [if_pos hout]
    refine ⟨-1, rfl, Or.inr (Or.inr ⟨rfl, fun t _ _ => ?_⟩)⟩
    have := hpos.2.2.1 hout
    have := mul_nonneg (sq_nonneg (t - f)) hDp.le
    linarith
  rw [if_neg hout]
  have hmle : m ≤ c.radiusSq := by
    by_contra h
    exact hout (hpos.2.2.2 (not_le.1 h))
  have hb := between_iff p q f hd
  have inside : 0 < f ∧ f < 1 →
      ((c.pointPosition (p + f • (q - p)) = 1 ∧ ∃ t : K, 0 < t ∧ t < 1 ∧ m + (t - f) ^ 2 * D < c.radiusSq) ∨
       (c.pointPosition (p + f • (q - p)) = 0 ∧ (∃ t : K, 0 < t ∧ t < 1 ∧ m + (t - f) ^ 2 * D = c.radiusSq) ∧ ∀ t : K, 0 < t → t < 1 → c.radiusSq ≤ m + (t - f) ^ 2 * D) ∨
       (c.pointPosition (p + f • (q - p)) = -1 ∧ ∀ t : K, 0 < t → t < 1 → c.radiusSq < m + (t - f) ^ 2 * D)) := by
    rintro ⟨hf0, hf1⟩
    rcases lt_or_eq_of_le hmle with h | h
    · exact Or.inl ⟨hpos.1.2 h, f, hf0, hf1, by rw [sub_self]; simpa using h⟩
    · refine Or.inr (Or.inl ⟨hpos.2.1.2 h, ⟨f, hf0, hf1, by rw [sub_self]; simpa using h⟩, fun t _ _ => ?_⟩)
      have := mul_nonneg (sq_nonneg (t - f)) hDp.le
      linarith
  have outside : ¬ (0 < f ∧ f < 1) → ∀ t : K, 0 < t → t < 1 → c.radiusSq < m + (t - f) ^ 2 * D := by
    intro hn t ht0 ht1
    by_cases hf0 : 0 < f
    · have hf1 : 1 ≤ f := not_lt.1 (fun h => hn ⟨hf0, h⟩)
      have : (1 - f) ^ 2 < (t - f) ^ 2 := by nlinarith
      have := mul_lt_mul_of_pos_right this hDp
      linarith
    · have : f ^ 2 < (t - f) ^ 2 := by nlinarith
      have := mul_lt_mul_of_pos_right this hDp
      linarith
  by_cases h1 : p.1 = q.1
  · rw [if_pos h1] at hb ⊢
    by_cases h2 : (p.2 < (p + f • (q - p)).2 ∧ (p + f • (q - p)).2 < q.2) ∨ (p.2 > (p + f • (q - p)).2 ∧ (p + f • (q - p)).2 > q.2)
    · rw [if_pos h2]
      exact ⟨_, rfl, inside (hb.1 h2)⟩
    · rw [if_neg h2]
      exact ⟨-1, rfl, Or.inr (Or.inr ⟨rfl, outside (fun h => h2 (hb.2 h))⟩)⟩
  · rw [if_neg h1] at hb ⊢
    by_cases h2 : (p.1 < (p + f • (q - p)).1 ∧ (p + f • (q - p)).1 < q.1) ∨ (p.1 > (p + f • (q - p)).1 ∧ (p + f • (q - p)).1 > q.1)
    · rw [if_pos h2]
      exact ⟨_, rfl, inside (hb.1 h2)⟩
    · rw [if_neg h2]
      exact ⟨-1, rfl, Or.inr (Or.inr ⟨rfl, outside (fun h => h2 (hb.2 h))⟩)⟩

/-- **C44**. `tangent_vector` at a point of the circle is orthogonal to the radius, as long as it and points
counterclockwise; it raises for all other points. -/
theorem C44_tangent_vector (c : Circle K) (p : Vec K) :
    (distSq p c.center ≠ c.radiusSq → c.tangentVector p = .error .valueError) ∧
    (distSq p c.center = c.radiusSq → ∃ v, c.tangentVector p = .ok v ∧ dot v (p - c.center) = 0 ∧
      normSq v = c.radiusSq ∧ ccw (p - c.center) v = c.radiusSq) := by
  unfold tangentVector
  have hz := (C44_point_position c p).2.1
  refine ⟨fun h => by rw [if_pos (fun h' => h (hz.1 h'))], fun h => ⟨_, by rw [if_neg (not_not.2 (hz.2 h))], ?_, ?_, ?_⟩⟩
  · simp only [dot, Prod.fst_sub, Prod.snd_sub]; ring
  · rw [← h]; simp only [distSq, normSq]; ring
  · rw [← h]; simp only [distSq, ccw, Prod.fst_sub, Prod.snd_sub]; ring

/-- **C44**. `other_intersection` of a circle with a line through one of its points: the result is on the circle and on the line,
and the circle and the line meet in these two points only. -/
theorem C44_other_intersection (c : Circle K) (p v : Vec K) (hv : v ≠ 0) (hp : distSq p c.center = c.radiusSq) :
    ∃ q, c.otherIntersection p v = .ok q ∧ distSq q c.center = c.radiusSq ∧ (∃ t : K, q = p + t • v) ∧
      (∀ t : K, distSq (p + t • v) c.center = c.radiusSq → p + t • v = p ∨ p + t • v = q) ∧
      (q = p ↔ dot v (p - c.center) = 0) := by
  have hn : v.1 ^ 2 + v.2 ^ 2 ≠ 0 := sq_add_sq_ne hv
  set f := footTime c p v with hf
  have hfe : f * (v.1 ^ 2 + v.2 ^ 2) = (c.center.1 - p.1) * v.1 + (c.center.2 - p.2) * v.2 := by
    rw [hf]; unfold footTime
    rw [div_mul_cancel₀ _ hn]
  have hq : c.otherIntersection p v = .ok (p + (2 * f) • v) := by
    unfold otherIntersection
    have : dehomogenize (cross (cross (p.1, p.2, 1) (v.1, v.2, 0)) (cross (c.center.1, c.center.2, 1) (-v.2, v.1, 0))) = .ok (p + f • v) := by
      rw [dehomogenize_ok]
      simp only [cross, Prod.fst_add, Prod.snd_add, Prod.smul_fst, Prod.smul_snd, smul_eq_mul]
      refine ⟨?_, ?_, ?_⟩
      · intro h
        apply hn
        linear_combination h
      · linear_combination v.1 * hfe
      · linear_combination v.2 * hfe
    simp only [bind, Except.bind, this, pure, Except.pure]
    congr 1
    ext
    · simp only [Prod.fst_add, Prod.smul_fst, smul_eq_mul]; ring
    · simp only [Prod.snd_add, Prod.smul_snd, smul_eq_mul]; ring
  have hline := distSq_line c p v hv
  rw [← hf] at hline
  have h0 := hline 0
  rw [zero_smul, add_zero, hp] at h0
  refine ⟨_, hq, ?_, ⟨_, rfl⟩, ?_, ?_⟩
  · rw [hline, h0]; ring
  · intro t ht
    rw [hline, h0] at ht
    have : (t * (t - 2 * f)) = 0 := by
      apply mul_left_cancel₀ hn
      linear_combination ht
    rcases mul_eq_zero.1 this with h | h
    · left; rw [h, zero_smul, add_zero]
    · right; rw [sub_eq_zero.1 h]
  · have e1 : p + (2 * f) • v = p ↔ f = 0 := by
      constructor
      · intro h
        have h1 := congrArg Prod.fst h
        have h2 := congrArg Prod.snd h
        simp only [Prod.fst_add, Prod.snd_add, Prod.smul_fst, Prod.smul_snd, smul_eq_mul, add_eq_left] at h1 h2
        have : (2 * f) * (v.1 ^ 2 + v.2 ^ 2) = 0 := by linear_combination v.1 * h1 + v.2 * h2
        have := (mul_eq_zero.1 this).resolve_right hn
        exact (mul_eq_zero.1 this).resolve_left two_ne_zero
      · intro h; rw [h]; simp
    rw [e1]
    simp only [dot, Prod.fst_sub, Prod.snd_sub]
    constructor
    · intro h
      rw [h, zero_mul] at hfe
      linear_combination hfe
    · intro h
      have : f * (v.1 ^ 2 + v.2 ^ 2) = 0 := by rw [hfe]; linear_combination -h
      exact (mul_eq_zero.1 this).resolve_right hn

omit [LinearOrder K] [IsStrictOrderedRing K] in
theorem distSq_call (g : Similarity K) (hg : g.sign = 1 ∨ g.sign = -1) (p q : Vec K) :
    distSq (g.call p) (g.call q) = (g.a ^ 2 + g.b ^ 2) * distSq p q := by
  simp only [distSq, Similarity.call]
  rcases hg with h | h
  · simp only [h, if_true]; ring
  · simp only [h]
    norm_num
    ring

/-- **C44**. The image of a circle under an orientation preserving similarity is the circle of the images: the image of a point
is inside, on, or outside of it iff the point is. -/
theorem C44_similarity_image (g : Similarity K) (hg : g.WF) (hs : g.sign = 1) (c : Circle K) (p : Vec K) :
    (rmul g c).pointPosition (g.call p) = c.pointPosition p := by
  have hpos : 0 < g.a ^ 2 + g.b ^ 2 := by
    have := hg.1
    apply lt_of_le_of_ne (by positivity)
    intro h
    apply this
    linear_combination -h
  have hr : (rmul g c).radiusSq = (g.a ^ 2 + g.b ^ 2) * c.radiusSq := by
    simp only [rmul, Similarity.det, hs, Int.cast_one]; ring
  have h1 := C44_point_position (rmul g c) (g.call p)
  have h2 := C44_point_position c p
  rw [hr, show (rmul g c).center = g.call c.center from rfl, distSq_call g (Or.inl hs), mul_lt_mul_iff_right₀ hpos, mul_lt_mul_iff_right₀ hpos,
    mul_right_inj' (ne_of_gt hpos)] at h1
  rcases lt_trichotomy (distSq p c.center) c.radiusSq with h | h | h
  · rw [h1.1.2 h, h2.1.2 h]
  · rw [h1.2.1.2 h, h2.2.1.2 h]
  · rw [h1.2.2.2 h, h2.2.2.2 h]

/-- **C44** fails for similarities that reverse the orientation: the square of the radius of the image is negative, so that the
image of every point is outside. -/
theorem C44_reflection_violation (g : Similarity K) (hg : g.WF) (hs : g.sign = -1) (c : Circle K) (hc : 0 < c.radiusSq) :
    (rmul g c).radiusSq < 0 ∧ ∀ p, (rmul g c).pointPosition p = -1 := by
  have hpos : 0 < g.a ^ 2 + g.b ^ 2 := by
    have := hg.1
    apply lt_of_le_of_ne (by positivity)
    intro h
    apply this
    linear_combination -h
  have hr : (rmul g c).radiusSq = -((g.a ^ 2 + g.b ^ 2) * c.radiusSq) := by
    simp only [rmul, Similarity.det, hs]; push_cast; ring
  have hneg : (rmul g c).radiusSq < 0 := by rw [hr]; have := mul_pos hpos hc; linarith
  refine ⟨hneg, fun p => (C44_point_position _ p).2.2.2 (lt_of_lt_of_le hneg ?_)⟩
  unfold distSq
  positivity

/-- **C44**. `circumscribed_circle` of a polygon returns the circle through all vertices, and raises iff there is none. -/
theorem C44_circumscribed_circle (p : Poly K) (h3 : 3 ≤ p.length) (hp : ccw (p.vertex 1 - p.vertex 0) (p.vertex 2 - p.vertex 0) ≠ 0) (c : Circle K) :
    p.circumscribedCircle = .ok c ↔ ∀ v ∈ p, distSq v c.center = c.radiusSq := by
  obtain ⟨m, hm⟩ := (C44_three_points_ok_iff _ _ _).2 hp
  obtain ⟨m0, m1, m2, mu⟩ := C44_three_points _ _ _ _ hm
  have hmem : ∀ i, p.vertex i ∈ p := by
    intro i
    rw [← Poly.vertex_mod, Poly.vertex_of_lt p (Nat.mod_lt i (by omega))]
    exact List.getElem_mem _
  unfold Poly.circumscribedCircle
  simp only [bind, Except.bind, hm]
  have hany : ((List.range (p.length - 3)).any (fun i => decide (m.pointPosition (p.vertex (i + 3)) ≠ 0))) = true ↔
      ∃ i < p.length - 3, distSq (p.vertex (i + 3)) m.center ≠ m.radiusSq := by
    rw [List.any_eq_true]
    simp only [List.mem_range, decide_eq_true_eq, ne_eq, (C44_point_position m _).2.1]
  by_cases hb : ((List.range (p.length - 3)).any (fun i => decide (m.pointPosition (p.vertex (i + 3)) ≠ 0))) = true
  · rw [if_pos hb]
    constructor
    · intro h; cases h
    · intro h
      obtain ⟨i, hi, hne⟩ := hany.1 hb
      have : c = m := mu c (h _ (hmem _)) (h _ (hmem _)) (h _ (hmem _))
      subst this
      exact absurd (h _ (hmem _)) hne
  · rw [if_neg hb]
    simp only [pure, Except.pure, Except.ok.injEq]
    constructor
    · rintro rfl v hv
      obtain ⟨i, hi, rfl⟩ := List.getElem_of_mem hv
      rw [← Poly.vertex_of_lt p hi]
      rcases i with _ | _ | _ | i
      · exact m0
      · exact m1
      · exact m2
      · by_contra hne
        exact hb (hany.2 ⟨i, by omega, hne⟩)
    · intro h
      exact (mu c (h _ (hmem _)) (h _ (hmem _)) (h _ (hmem _))).symm

/-- The circle through three vertices of a rectangle passes through the fourth. -/
example : Poly.circumscribedCircle [((0 : ℚ), (0 : ℚ)), (4, 0), (4, 3), (0, 3)] = .ok ⟨(2, 3 / 2), 25 / 4⟩ ∧
    ccw (((4 : ℚ), (0 : ℚ)) - (0, 0)) ((4, 3) - (0, 0)) ≠ 0 := by decide +kernel

/-- The hypotheses of `C44_other_intersection` are satisfiable. -/
example : ∃ q : Vec ℚ, otherIntersection ⟨(0, 0), 25⟩ (3, 4) (1, 2) = .ok q ∧ distSq q (0, 0) = 25 := by
  obtain ⟨q, h1, h2, -⟩ := C44_other_intersection (K := ℚ) ⟨(0, 0), 25⟩ (3, 4) (1, 2) (by decide +kernel) (by decide +kernel)
  exact ⟨q, h1, h2⟩

/-- A reflection and a circle to which the violation applies. -/
example : (⟨1, 0, 0, 0, -1⟩ : Similarity ℚ).WF ∧ (rmul (⟨1, 0, 0, 0, -1⟩ : Similarity ℚ) ⟨(0, 0), 1⟩).radiusSq = -1 := by
  refine ⟨⟨by norm_num, Or.inr rfl⟩, by decide +kernel⟩

/-- A segment that touches a circle, one that enters it, one that ends on it from outside, and one that stays outside. -/
example : lineSegmentPosition (⟨(0, 0), 1⟩ : Circle ℚ) (-1, 1) (1, 1) = .ok 0 ∧
    lineSegmentPosition (⟨(0, 0), 1⟩ : Circle ℚ) (-1, 0) (1, 0) = .ok 1 ∧
    lineSegmentPosition (⟨(0, 0), 1⟩ : Circle ℚ) (1, 0) (2, 0) = .ok (-1) ∧
    lineSegmentPosition (⟨(0, 0), 1⟩ : Circle ℚ) (2, 0) (3, 5) = .ok (-1) := by decide +kernel

end Circle
end Flat
