import Verif.Model.Veering
import Mathlib.Tactic.Linarith
import Mathlib.Tactic.Abel
import Mathlib.Tactic.LinearCombination
import Mathlib.Algebra.Order.Ring.Abs

/-!
# Lemmas on veering triangulations
-/

namespace Flat
variable {K : Type} [Field K] [LinearOrder K] [IsStrictOrderedRing K]

/-- Directions to the right and to the left of `v` within a half-plane. -/
theorem turn_trans {v0 v1 p0 p1 c0 c1 : K} (hv0 : 0 < v0) (hv1 : 0 < v1) (hp0 : 0 < p0) (hp1 : 0 < p1) (hc : 0 < c1)
    (h1 : 0 < p0 * v1 - p1 * v0) (h2 : 0 < v0 * c1 - v1 * c0) : 0 < p0 * c1 - p1 * c0 := by
  rcases le_or_gt c0 0 with h | h
  · have := mul_pos hp0 hc
    have := mul_nonneg hp1.le (neg_nonneg.2 h)
    linarith
  · have e1 : 0 < p0 * (v0 * c1 - v1 * c0) := mul_pos hp0 h2
    have e2 : 0 < c0 * (p0 * v1 - p1 * v0) := mul_pos h h1
    have e3 : 0 < v0 * (p0 * c1 - p1 * c0) := by linarith
    exact (pos_iff_pos_of_mul_pos e3).1 hv0

/-- The quadrilateral around the longest edge `v` of a triangle with three edges of positive slope. -/
theorem mono_quad {v0 v1 a0 a1 b0 b1 c0 c1 d0 d1 : K} (hv0 : 0 < v0) (hv1 : 0 < v1) (e0 : v0 + a0 + b0 = 0) (e1 : v1 + a1 + b1 = 0)
    (f0 : c0 + d0 = v0) (f1 : c1 + d1 = v1) (hb : 0 < v0 * b1 - v1 * b0) (hd : 0 < d0 * v1 - d1 * v0)
    (ha' : 0 < a0 * a1) (hb' : 0 < b0 * b1) (hc' : c0 * c1 ≠ 0) (hd' : d0 * d1 ≠ 0)
    (na : |a0| + |a1| ≤ |v0| + |v1|) (nb : |b0| + |b1| ≤ |v0| + |v1|)
    (h : ¬ (0 < c0 * c1 ∧ 0 < d0 * d1) ∨ (|c0| + |c1| ≤ |v0| + |v1| ∧ |d0| + |d1| ≤ |v0| + |v1|)) :
    |v0| = |a0| + |b0| ∧ |v1| = |a1| + |b1| ∧ 0 < c0 * b1 - c1 * b0 ∧ 0 < a0 * d1 - a1 * d0 ∧
      (0 < c0 * c1 ∧ 0 < d0 * d1 → |c0 + b0| < |v0| ∧ |c1 + b1| < |v1|) := by
  rw [abs_of_pos hv0, abs_of_pos hv1] at *
  have hA : a0 < 0 ∧ a1 < 0 := by
    rcases pos_and_pos_or_neg_and_neg_of_mul_pos ha' with ⟨h1, h2⟩ | h1
    · have := neg_abs_le b0
      have := neg_abs_le b1
      linarith
    · exact h1
  have hB : b0 < 0 ∧ b1 < 0 := by
    rcases pos_and_pos_or_neg_and_neg_of_mul_pos hb' with ⟨h1, h2⟩ | h1
    · have := neg_abs_le a0
      have := neg_abs_le a1
      linarith
    · exact h1
  have hc0 : c0 ≠ 0 := left_ne_zero_of_mul hc'
  have hc1 : c1 ≠ 0 := right_ne_zero_of_mul hc'
  have hd0 : d0 ≠ 0 := left_ne_zero_of_mul hd'
  have hd1 : d1 ≠ 0 := right_ne_zero_of_mul hd'
  have hcv : 0 < v0 * c1 - v1 * c0 := by
    have : v0 * c1 - v1 * c0 = d0 * v1 - d1 * v0 := by linear_combination v0 * f1 - v1 * f0
    rwa [this]
  have hC : 0 < c1 := by
    by_contra hn
    have h1 : c1 < 0 := lt_of_le_of_ne (not_lt.1 hn) hc1
    have h2 : c0 < 0 := by
      by_contra h2
      have := mul_nonneg hv1.le (not_lt.1 h2)
      have := mul_pos hv0 (neg_pos.2 h1)
      linarith
    rcases h with h | h
    · exact h ⟨mul_pos_of_neg_of_neg h2 h1, mul_pos (by linarith) (by linarith)⟩
    · have := le_abs_self d0
      have := le_abs_self d1
      linarith
  have hD : 0 < d0 := by
    by_contra hn
    have h1 : d0 < 0 := lt_of_le_of_ne (not_lt.1 hn) hd0
    have h2 : d1 < 0 := by
      by_contra h2
      have := mul_nonneg (not_lt.1 h2) hv0.le
      have := mul_pos (neg_pos.2 h1) hv1
      linarith
    rcases h with h | h
    · exact h ⟨mul_pos (by linarith) (by linarith), mul_pos_of_neg_of_neg h1 h2⟩
    · have := le_abs_self c0
      have := le_abs_self c1
      linarith
  refine ⟨?_, ?_, ?_, ?_, ?_⟩
  · rw [abs_of_neg hA.1, abs_of_neg hB.1]; linarith
  · rw [abs_of_neg hA.2, abs_of_neg hB.2]; linarith
  · have := turn_trans hv0 hv1 (neg_pos.2 hB.1) (neg_pos.2 hB.2) hC (by linarith) hcv
    linarith
  · have hav : 0 < -a1 * v0 - -a0 * v1 := by
      have : -a1 * v0 - -a0 * v1 = v0 * b1 - v1 * b0 := by linear_combination v1 * e0 - v0 * e1
      rwa [this]
    have := turn_trans (c0 := d1) hv1 hv0 (neg_pos.2 hA.2) (neg_pos.2 hA.1) hD hav (by linarith)
    linarith
  · rintro ⟨h1, h2⟩
    have hc0' : 0 < c0 := (pos_iff_pos_of_mul_pos h1).2 hC
    have hd1' : 0 < d1 := (pos_iff_pos_of_mul_pos h2).1 hD
    obtain ⟨g1, g2⟩ := hA
    obtain ⟨g3, g4⟩ := hB
    constructor <;> rw [abs_lt] <;> constructor <;> linarith

/-- The same with all signs of the slope and both orientations of the plane. -/
theorem mono_quad' {v a b c d : Vec K} (e : v + a + b = 0) (f : c + d = v) (hb : 0 < ccw v b) (hd : 0 < ccw d v) (hv : v.1 * v.2 ≠ 0)
    (ha' : 0 < v.1 * v.2 ↔ 0 < a.1 * a.2) (hb' : 0 < v.1 * v.2 ↔ 0 < b.1 * b.2) (ha : a.1 * a.2 ≠ 0) (hbn : b.1 * b.2 ≠ 0)
    (hc' : c.1 * c.2 ≠ 0) (hd' : d.1 * d.2 ≠ 0)
    (na : |a.1| + |a.2| ≤ |v.1| + |v.2|) (nb : |b.1| + |b.2| ≤ |v.1| + |v.2|)
    (h : ¬ ((0 < v.1 * v.2 ↔ 0 < c.1 * c.2) ∧ (0 < v.1 * v.2 ↔ 0 < d.1 * d.2)) ∨
      (|c.1| + |c.2| ≤ |v.1| + |v.2| ∧ |d.1| + |d.2| ≤ |v.1| + |v.2|)) :
    |v.1| = |a.1| + |b.1| ∧ |v.2| = |a.2| + |b.2| ∧ 0 < ccw c b ∧ 0 < ccw a d ∧
      ((0 < v.1 * v.2 ↔ 0 < c.1 * c.2) ∧ (0 < v.1 * v.2 ↔ 0 < d.1 * d.2) → |c.1 + b.1| < |v.1| ∧ |c.2 + b.2| < |v.2|) := by
  obtain ⟨v0, v1⟩ := v
  obtain ⟨a0, a1⟩ := a
  obtain ⟨b0, b1⟩ := b
  obtain ⟨c0, c1⟩ := c
  obtain ⟨d0, d1⟩ := d
  simp only [ccw, Prod.mk_add_mk, Prod.mk.injEq, Prod.mk_eq_zero] at *
  obtain ⟨e0, e1⟩ := e
  obtain ⟨f0, f1⟩ := f
  have neg_of : ∀ {x : K}, x ≠ 0 → ¬ 0 < x → 0 < -x := fun h1 h2 => neg_pos.2 (lt_of_le_of_ne (not_lt.1 h2) h1)
  have neg_iff : ∀ {x : K}, x ≠ 0 → (¬ 0 < x ↔ 0 < -x) := fun h1 => ⟨neg_of h1, fun h2 h3 => by linarith⟩
  rcases lt_or_gt_of_ne (left_ne_zero_of_mul hv) with g0 | g0 <;> rcases lt_or_gt_of_ne (right_ne_zero_of_mul hv) with g1 | g1
  · have hp : 0 < v0 * v1 := mul_pos_of_neg_of_neg g0 g1
    simp only [hp, true_iff] at ha' hb' h ⊢
    obtain ⟨r1, r2, r3, r4, r5⟩ := mono_quad (v0 := -v0) (v1 := -v1) (a0 := -a0) (a1 := -a1) (b0 := -b0) (b1 := -b1) (c0 := -c0) (c1 := -c1)
      (d0 := -d0) (d1 := -d1) (by linarith) (by linarith) (by linarith) (by linarith) (by linarith) (by linarith) (by linarith) (by linarith)
      (by linarith) (by linarith) (by simpa using hc') (by simpa using hd') (by simpa only [abs_neg] using na) (by simpa only [abs_neg] using nb)
      (by simpa only [abs_neg, neg_mul_neg] using h)
    simp only [abs_neg, neg_mul_neg] at r1 r2 r3 r4 r5
    refine ⟨r1, r2, by linarith, by linarith, fun k => ?_⟩
    have := r5 k
    rw [← neg_add, ← neg_add, abs_neg, abs_neg] at this
    exact this
  · have hp : ¬ 0 < v0 * v1 := not_lt.2 (mul_nonpos_of_nonpos_of_nonneg g0.le g1.le)
    simp only [hp, false_iff, neg_iff ha, neg_iff hbn, neg_iff hc', neg_iff hd'] at ha' hb' h ⊢
    obtain ⟨r1, r2, r3, r4, r5⟩ := mono_quad (v0 := -v0) (v1 := v1) (a0 := -b0) (a1 := b1) (b0 := -a0) (b1 := a1) (c0 := -d0) (c1 := d1)
      (d0 := -c0) (d1 := c1) (by linarith) (by linarith) (by linarith) (by linarith) (by linarith) (by linarith)
      (by have : -v0 * a1 - v1 * -a0 = v0 * b1 - v1 * b0 := by linear_combination v1 * e0 - v0 * e1
          rw [this]; exact hb)
      (by have : -c0 * v1 - c1 * -v0 = d0 * v1 - d1 * v0 := by linear_combination v0 * f1 - v1 * f0
          rw [this]; linarith)
      (by linarith) (by linarith) (by simpa using hd') (by simpa using hc') (by simpa only [abs_neg] using nb) (by simpa only [abs_neg] using na)
      (by simp only [abs_neg, neg_mul]; rw [and_comm (a := 0 < -(d0 * d1)), and_comm (a := |d0| + |d1| ≤ _)]; exact h)
    simp only [abs_neg, neg_mul] at r1 r2 r3 r4 r5
    refine ⟨by rw [r1, add_comm], by rw [r2, add_comm], by linarith, by linarith, fun k => ?_⟩
    obtain ⟨r6, r7⟩ := r5 ⟨k.2, k.1⟩
    rw [show -d0 + -a0 = c0 + b0 by linarith] at r6
    rw [show d1 + a1 = -(c1 + b1) by linarith, abs_neg] at r7
    exact ⟨r6, r7⟩
  · have hp : ¬ 0 < v0 * v1 := not_lt.2 (mul_nonpos_of_nonneg_of_nonpos g0.le g1.le)
    simp only [hp, false_iff, neg_iff ha, neg_iff hbn, neg_iff hc', neg_iff hd'] at ha' hb' h ⊢
    obtain ⟨r1, r2, r3, r4, r5⟩ := mono_quad (v0 := v0) (v1 := -v1) (a0 := b0) (a1 := -b1) (b0 := a0) (b1 := -a1) (c0 := d0) (c1 := -d1)
      (d0 := c0) (d1 := -c1) (by linarith) (by linarith) (by linarith) (by linarith) (by linarith) (by linarith)
      (by have : v0 * -a1 - -v1 * a0 = v0 * b1 - v1 * b0 := by linear_combination v1 * e0 - v0 * e1
          rw [this]; exact hb)
      (by have : c0 * -v1 - -c1 * v0 = d0 * v1 - d1 * v0 := by linear_combination v0 * f1 - v1 * f0
          rw [this]; linarith)
      (by linarith) (by linarith) (by simpa using hd') (by simpa using hc') (by simpa only [abs_neg] using nb) (by simpa only [abs_neg] using na)
      (by simp only [abs_neg, mul_neg]; rw [and_comm (a := 0 < -(d0 * d1)), and_comm (a := |d0| + |d1| ≤ _)]; exact h)
    simp only [abs_neg, mul_neg] at r1 r2 r3 r4 r5
    refine ⟨by rw [r1, add_comm], by rw [r2, add_comm], by linarith, by linarith, fun k => ?_⟩
    obtain ⟨r6, r7⟩ := r5 ⟨k.2, k.1⟩
    rw [show d0 + a0 = -(c0 + b0) by linarith, abs_neg] at r6
    rw [show -d1 + -a1 = c1 + b1 by linarith] at r7
    exact ⟨r6, r7⟩
  · have hp : 0 < v0 * v1 := mul_pos g0 g1
    simp only [hp, true_iff] at ha' hb' h ⊢
    obtain ⟨r1, r2, r3, r4, r5⟩ := mono_quad g0 g1 e0 e1 f0 f1 hb (by linarith) ha' hb' hc' hd' na nb h
    exact ⟨r1, r2, by linarith, by linarith, r5⟩

/-- The slope of a vector that is neither horizontal nor vertical. -/
theorem slope1_eq {v : Vec K} (h : v.1 * v.2 ≠ 0) : slope1 v = .ok (if 0 < v.1 * v.2 then 1 else -1) := by
  have h0 : v.1 ≠ 0 := left_ne_zero_of_mul h
  have h1 : v.2 ≠ 0 := right_ne_zero_of_mul h
  unfold slope1 slope
  dsimp only
  rw [if_neg (fun k => h0 k.1)]
  by_cases hp : 0 < v.1 * v.2
  · rw [if_pos hp, if_pos (pos_and_pos_or_neg_and_neg_of_mul_pos hp)]
  · rw [if_neg hp, if_neg, if_pos]
    · rcases lt_or_gt_of_ne h0 with g0 | g0 <;> rcases lt_or_gt_of_ne h1 with g1 | g1
      · exact absurd (mul_pos_of_neg_of_neg g0 g1) hp
      · exact .inr ⟨g0, g1⟩
      · exact .inl ⟨g0, g1⟩
      · exact absurd (mul_pos g0 g1) hp
    · rintro (⟨g0, g1⟩ | ⟨g0, g1⟩)
      · exact hp (mul_pos g0 g1)
      · exact hp (mul_pos_of_neg_of_neg g0 g1)

theorem slope1_ok {v : Vec K} (h : v ≠ 0) : ∃ s, slope1 v = .ok s := by
  unfold slope1 slope
  dsimp only
  rw [if_neg (fun k => h (Prod.ext k.1 k.2))]
  split_ifs <;> first | exact ⟨_, rfl⟩ | simp_all

theorem slope_neg (v : Vec K) : slope1 (-v) = slope1 v := by
  unfold slope1 slope
  simp only [Prod.fst_neg, Prod.snd_neg, neg_eq_zero, gt_iff_lt, Left.neg_pos_iff, Left.neg_neg_iff, ne_eq]
  simp only [or_comm (a := v.1 < 0 ∧ v.2 < 0) (b := 0 < v.1 ∧ 0 < v.2), or_comm (a := v.1 < 0 ∧ 0 < v.2) (b := 0 < v.1 ∧ v.2 < 0)]

/-- The flip that is asked for around a triangle with three edges of the same slope. -/
theorem linfCode_two {v a b c d : Vec K} (e : v + a + b = 0) (f : c + d = v) (hb : 0 < ccw v b) (hd : 0 < ccw d v) (hv : v.1 * v.2 ≠ 0)
    (ha' : 0 < v.1 * v.2 ↔ 0 < a.1 * a.2) (hb' : 0 < v.1 * v.2 ↔ 0 < b.1 * b.2) (ha : a.1 * a.2 ≠ 0) (hbn : b.1 * b.2 ≠ 0)
    (hc' : c.1 * c.2 ≠ 0) (hd' : d.1 * d.2 ≠ 0)
    (na : |a.1| + |a.2| ≤ |v.1| + |v.2|) (nb : |b.1| + |b.2| ≤ |v.1| + |v.2|)
    (h : ¬ ((0 < v.1 * v.2 ↔ 0 < c.1 * c.2) ∧ (0 < v.1 * v.2 ↔ 0 < d.1 * d.2)) ∨
      (|c.1| + |c.2| ≤ |v.1| + |v.2| ∧ |d.1| + |d.2| ≤ |v.1| + |v.2|)) : linfCode v a b c d = .ok 2 := by
  obtain ⟨r1, r2, r3, r4, r5⟩ := mono_quad' e f hb hd hv ha' hb' ha hbn hc' hd' na nb h
  have key : ∀ {p q : Prop} [Decidable p] [Decidable q], ((if p then (1 : Int) else -1) = if q then 1 else -1) ↔ (p ↔ q) := by
    intro p q _ _
    split_ifs with h1 h2 h2 <;> simp [h1, h2]
  unfold linfCode
  rw [if_neg (by rintro (h | h) <;> linarith)]
  simp only [slope1_eq hv, slope1_eq ha, slope1_eq hbn, slope1_eq hc', slope1_eq hd', bind, Except.bind, key]
  have hm1 : (0 < v.1 * v.2 ↔ 0 < a.1 * a.2) ∧ (0 < a.1 * a.2 ↔ 0 < b.1 * b.2) := ⟨ha', ha'.symm.trans hb'⟩
  by_cases hm : (0 < v.1 * v.2 ↔ 0 < c.1 * c.2) ∧ (0 < c.1 * c.2 ↔ 0 < d.1 * d.2)
  · rw [if_pos ⟨hm1, hm⟩]
    obtain ⟨k1, k2⟩ := r5 ⟨hm.1, hm.1.trans hm.2⟩
    have hn : c + b ≠ 0 := fun h0 => by
      rw [add_eq_zero_iff_eq_neg] at h0
      rw [h0] at r3
      simp only [ccw, Prod.fst_neg, Prod.snd_neg] at r3
      linarith
    obtain ⟨sn, hsn⟩ := slope1_ok hn
    rw [hsn]
    simp only [pure, Except.pure]
    rw [if_pos (.inr (max_lt_max k1 k2))]
  · rw [if_neg (fun k => hm k.2), if_pos hm1]
    simp only [pure, Except.pure]
    rw [if_pos ⟨r1, r2⟩]

/-- Both sides of an edge agree on the flip. -/
theorem linfCode_symm {v a b c d : Vec K} (e : v + a + b = 0) (f : c + d = v) (hv : v ≠ 0) (ha : a ≠ 0) (hb : b ≠ 0) (hc : c ≠ 0) (hd : d ≠ 0) :
    linfCode (-v) c d a b = linfCode v a b c d := by
  have hn : a + d = -(c + b) := by
    have : a + d + (c + b) = 0 := by
      have : a + d + (c + b) = (v + a + b) + (c + d - v) := by abel
      rw [this, e, f]; simp
    exact eq_neg_of_add_eq_zero_left this
  obtain ⟨s, hs⟩ := slope1_ok hv
  obtain ⟨s1, h1⟩ := slope1_ok ha
  obtain ⟨s2, h2⟩ := slope1_ok hb
  obtain ⟨s3, h3⟩ := slope1_ok hc
  obtain ⟨s4, h4⟩ := slope1_ok hd
  unfold linfCode
  rw [hn]
  simp only [slope_neg, Prod.fst_neg, Prod.snd_neg, abs_neg, hs, h1, h2, h3, h4, bind, Except.bind, pure, Except.pure]
  by_cases hx : ccw c b ≤ 0 ∨ ccw a d ≤ 0
  · rw [if_pos hx, if_pos hx.symm]
  rw [if_neg hx, if_neg (fun k => hx k.symm)]
  by_cases m1 : s = s1 ∧ s1 = s2 <;> by_cases m2 : s = s3 ∧ s3 = s4
  · rw [if_pos ⟨m2, m1⟩, if_pos ⟨m1, m2⟩]
  · rw [if_neg (c := (s = s3 ∧ s3 = s4) ∧ _) (fun k => m2 k.1), if_neg m2, if_pos m1, if_neg (c := _ ∧ (s = s3 ∧ s3 = s4)) (fun k => m2 k.2),
      if_pos m1]
  · rw [if_neg (c := (s = s3 ∧ s3 = s4) ∧ _) (fun k => m1 k.2), if_pos m2, if_neg (c := _ ∧ (s = s3 ∧ s3 = s4)) (fun k => m1 k.1), if_neg m1,
      if_pos m2]
  · rw [if_neg (c := (s = s3 ∧ s3 = s4) ∧ _) (fun k => m1 k.2), if_neg (c := _ ∧ (s = s3 ∧ s3 = s4)) (fun k => m1 k.1)]
    simp only [if_neg m1, if_neg m2]
    have p1 : ((s3 = s1 ∧ s1 = 1) ∧ s4 = s2 ∧ s2 = -1) ↔ ((s1 = s3 ∧ s3 = 1) ∧ s2 = s4 ∧ s4 = -1) := by omega
    have p2 : ((s3 = s1 ∧ s1 = -1) ∧ s4 = s2 ∧ s2 = 1) ↔ ((s1 = s3 ∧ s3 = -1) ∧ s2 = s4 ∧ s4 = 1) := by omega
    simp only [p1, p2]
    split_ifs <;> rfl

/-- Vectors of positive slope. -/
theorem slope1_one {v : Vec K} (h : slope1 v = .ok 1) : (0 < v.1 ∧ 0 ≤ v.2) ∨ (v.1 < 0 ∧ v.2 ≤ 0) := by
  unfold slope1 slope at h
  dsimp only at h
  split_ifs at h with h1 h2 h3 h4 h5 h6
  all_goals first | (cases h; done) | skip
  · rcases h2 with ⟨k1, k2⟩ | ⟨k1, k2⟩
    · exact .inl ⟨k1, k2.le⟩
    · exact .inr ⟨k1, k2.le⟩
  all_goals
    push Not at h2 h3
    rcases lt_trichotomy v.1 0 with g | g | g
    · exact .inr ⟨g, h3.2 g⟩
    · first | exact absurd g h6 | exact absurd g h5 | simp_all
    · exact .inl ⟨g, h3.1 g⟩

/-- Vectors of negative slope. -/
theorem slope1_neg_one {v : Vec K} (h : slope1 v = .ok (-1)) : (v.1 ≤ 0 ∧ 0 < v.2) ∨ (0 ≤ v.1 ∧ v.2 < 0) := by
  unfold slope1 slope at h
  dsimp only at h
  split_ifs at h with h1 h2 h3 h4 h5 h6
  all_goals first | (cases h; done) | skip
  · rcases h3 with ⟨k1, k2⟩ | ⟨k1, k2⟩
    · exact .inr ⟨k1.le, k2⟩
    · exact .inl ⟨k1.le, k2⟩
  all_goals
    have g : v.1 = 0 := by first | exact not_not.1 h6 | exact not_not.1 h5 | simp_all
    rcases lt_trichotomy v.2 0 with k | k | k
    · exact .inr ⟨g.ge, k⟩
    · exact absurd ⟨g, k⟩ h1
    · exact .inl ⟨g.le, k⟩

/-- The width of a triangle with edges of different slopes. -/
theorem width_add {v a b : Vec K} (e : v + a + b = 0) (hab : 0 < ccw b a) (ha : slope1 a = .ok 1) (hb : slope1 b = .ok (-1)) :
    |v.1| = |a.1| + |b.1| := by
  have e1 : v.1 = -(a.1 + b.1) := by
    have := congrArg Prod.fst e
    simp only [Prod.fst_add, Prod.fst_zero] at this
    linarith
  rw [e1, abs_neg]
  simp only [ccw] at hab
  rcases slope1_one ha with ⟨a1, a2⟩ | ⟨a1, a2⟩ <;> rcases slope1_neg_one hb with ⟨b1, b2⟩ | ⟨b1, b2⟩
  · have := mul_nonneg (neg_nonneg.2 b1) a2
    have := mul_pos b2 a1
    linarith
  · rw [abs_of_pos a1, abs_of_nonneg b1, abs_of_nonneg (by linarith)]
  · rw [abs_of_neg a1, abs_of_nonpos b1, abs_of_nonpos (by linarith)]
    ring
  · have := mul_nonneg b1 (neg_nonneg.2 a2)
    have := mul_pos_of_neg_of_neg b2 a1
    linarith

/-- The height of a triangle with edges of different slopes. -/
theorem height_add {v a b : Vec K} (e : v + a + b = 0) (hab : 0 < ccw b a) (ha : slope1 a = .ok (-1)) (hb : slope1 b = .ok 1) :
    |v.2| = |a.2| + |b.2| := by
  have e1 : v.2 = -(a.2 + b.2) := by
    have := congrArg Prod.snd e
    simp only [Prod.snd_add, Prod.snd_zero] at this
    linarith
  rw [e1, abs_neg]
  simp only [ccw] at hab
  rcases slope1_neg_one ha with ⟨a1, a2⟩ | ⟨a1, a2⟩ <;> rcases slope1_one hb with ⟨b1, b2⟩ | ⟨b1, b2⟩
  · rw [abs_of_pos a2, abs_of_nonneg b2, abs_of_nonneg (by linarith)]
  · have := mul_pos (neg_pos.2 b1) a2
    have := mul_nonneg (neg_nonneg.2 b2) (neg_nonneg.2 a1)
    linarith
  · have := mul_pos b1 (neg_pos.2 a2)
    have := mul_nonneg b2 a1
    linarith
  · rw [abs_of_neg a2, abs_of_nonpos b2, abs_of_nonpos (by linarith)]
    ring

/-- The test does not fail for two triangles. -/
theorem linfCode_ok {v a b c d : Vec K} (e : v + a + b = 0) (f : c + d = v) (h1 : 0 < ccw b a) (h2 : 0 < ccw d c)
    (hv : v ≠ 0) (ha : a ≠ 0) (hb : b ≠ 0) (hc : c ≠ 0) (hd : d ≠ 0) : ∃ n ≤ 2, linfCode v a b c d = .ok n := by
  obtain ⟨s, hs⟩ := slope1_ok hv
  obtain ⟨s1, k1⟩ := slope1_ok ha
  obtain ⟨s2, k2⟩ := slope1_ok hb
  obtain ⟨s3, k3⟩ := slope1_ok hc
  obtain ⟨s4, k4⟩ := slope1_ok hd
  have f' : -v + c + d = 0 := by rw [add_assoc, f, neg_add_cancel]
  unfold linfCode
  simp only [hs, k1, k2, k3, k4, bind, Except.bind, pure, Except.pure]
  by_cases hx : ccw c b ≤ 0 ∨ ccw a d ≤ 0
  · rw [if_pos hx]; exact ⟨0, by omega, rfl⟩
  rw [if_neg hx]
  have hn : c + b ≠ 0 := fun h0 => by
    rw [add_eq_zero_iff_eq_neg] at h0
    refine hx (.inl ?_)
    rw [h0]
    simp only [ccw, Prod.fst_neg, Prod.snd_neg]
    linarith
  obtain ⟨sn, hsn⟩ := slope1_ok hn
  simp only [hsn]
  have fin : ∀ (p : Prop) [Decidable p] (n : ℕ), n ≤ 2 → ∃ m ≤ 2, (Except.ok (if p then n else 0) : Except Err ℕ) = .ok m := fun p _ n hn => by
    split_ifs
    · exact ⟨n, hn, rfl⟩
    · exact ⟨0, by omega, rfl⟩
  by_cases q1 : (s = s1 ∧ s1 = s2) ∧ s = s3 ∧ s3 = s4
  · rw [if_pos q1]; exact fin _ 2 le_rfl
  rw [if_neg q1]
  by_cases q2 : s = s1 ∧ s1 = s2
  · rw [if_pos q2]; exact fin _ 2 le_rfl
  rw [if_neg q2]
  by_cases q3 : s = s3 ∧ s3 = s4
  · rw [if_pos q3]; exact fin _ 2 le_rfl
  rw [if_neg q3]
  by_cases q4 : (s1 = s3 ∧ s3 = 1) ∧ s2 = s4 ∧ s4 = -1
  · rw [if_pos q4]
    obtain ⟨⟨t1, t2⟩, t3, t4⟩ := q4
    have w1 := width_add e h1 (by rw [k1, t1, t2]) (by rw [k2, t3, t4])
    have w2 := width_add f' h2 (by rw [k3, t2]) (by rw [k4, t4])
    rw [Prod.fst_neg, abs_neg] at w2
    rw [if_neg (not_not.2 w1), if_neg (not_not.2 w2)]
    exact fin _ 1 (by omega)
  rw [if_neg q4]
  by_cases q5 : (s1 = s3 ∧ s3 = -1) ∧ s2 = s4 ∧ s4 = 1
  · rw [if_pos q5]
    obtain ⟨⟨t1, t2⟩, t3, t4⟩ := q5
    have w1 := height_add e h1 (by rw [k1, t1, t2]) (by rw [k2, t3, t4])
    have w2 := height_add f' h2 (by rw [k3, t2]) (by rw [k4, t4])
    rw [Prod.snd_neg, abs_neg] at w2
    rw [if_neg (not_not.2 w1), if_neg (not_not.2 w2)]
    exact fin _ 1 (by omega)
  rw [if_neg q5]
  exact ⟨0, by omega, rfl⟩

end Flat
