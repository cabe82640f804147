import Verif.Model.Euclidean
import Mathlib.Tactic.NormNum
import Mathlib.Tactic.Tauto
import Mathlib.Tactic.Abel
import Mathlib.Data.Set.Basic
import Mathlib.Data.Set.Insert

/-!
# Helper lemmas on segments
-/

namespace Flat

section
variable {K : Type*} [Field K] [LinearOrder K] [IsStrictOrderedRing K]

/-- The points of a closed segment (specification of C07, C08). -/
def segPts (e : Vec K × Vec K) : Set (Vec K) :=
  {x | ∃ t : K, 0 ≤ t ∧ t ≤ 1 ∧ x = e.1 + t • (e.2 - e.1)}

/-- `x` is an end point of the segment. -/
def IsEnd (x : Vec K) (e : Vec K × Vec K) : Prop := x = e.1 ∨ x = e.2

theorem segPts_swap (p q : Vec K) : segPts (p, q) = segPts (q, p) := by
  ext x
  constructor <;>
  · rintro ⟨t, h0, h1, rfl⟩
    refine ⟨1 - t, by linarith, by linarith, ?_⟩
    ext <;> simp <;> ring

theorem det3_add_smul (A B C D : Vec K) (u : K) :
    det3 A B (C + u • (D - C)) = det3 A B C + u * (det3 A B D - det3 A B C) := by
  simp [det3]; ring

theorem det3_self (A B : Vec K) (t : K) : det3 A B (A + t • (B - A)) = 0 := by
  simp [det3]; ring

theorem seg_disjoint_of_same_side {A B C D : Vec K}
    (h : (det3 A B C > 0 ∧ det3 A B D > 0) ∨ (det3 A B C < 0 ∧ det3 A B D < 0)) :
    segPts (A, B) ∩ segPts (C, D) = ∅ := by
  rw [Set.eq_empty_iff_forall_notMem]
  rintro x ⟨⟨t, ht0, ht1, rfl⟩, ⟨u, hu0, hu1, hx⟩⟩
  have h1 := det3_self A B t
  simp only at hx
  rw [hx, det3_add_smul] at h1
  have h2 : (1 - u) * det3 A B C + u * det3 A B D = 0 := by linear_combination h1
  rcases h with ⟨ha, hb⟩ | ⟨ha, hb⟩
  · rcases eq_or_lt_of_le hu0 with h0 | h0
    · subst h0; linarith
    · nlinarith [mul_pos h0 hb, mul_nonneg (by linarith : (0:K) ≤ 1 - u) ha.le]
  · rcases eq_or_lt_of_le hu0 with h0 | h0
    · subst h0; linarith
    · nlinarith [mul_pos h0 (neg_pos.2 hb), mul_nonneg (by linarith : (0:K) ≤ 1 - u) (neg_pos.2 ha).le]

theorem det3_delta (A B C D : Vec K) :
    det3 C D B - det3 C D A = -(det3 A B D - det3 A B C) := by
  simp [det3]; ring

/-- Two non-parallel segments, none of which is on one side of the other, meet in exactly one
point. -/
theorem seg_transversal {A B C D : Vec K} (hAB : A ≠ B) (hCD : C ≠ D)
    (h1 : ¬ ((det3 A B C > 0 ∧ det3 A B D > 0) ∨ (det3 A B C < 0 ∧ det3 A B D < 0)))
    (h2 : ¬ ((det3 C D A > 0 ∧ det3 C D B > 0) ∨ (det3 C D A < 0 ∧ det3 C D B < 0)))
    (h3 : ¬ (det3 A B C = 0 ∧ det3 A B D = 0)) :
    ∃ x, segPts (A, B) ∩ segPts (C, D) = {x} ∧
      (IsEnd x (A, B) ↔ det3 C D A = 0 ∨ det3 C D B = 0) ∧
      (IsEnd x (C, D) ↔ det3 A B C = 0 ∨ det3 A B D = 0) := by
  have hd := det3_delta A B C D
  have hP : (det3 A B D - det3 A B C) • A + det3 C D A • (B - A)
      = (det3 A B D - det3 A B C) • C - det3 A B C • (D - C) := by
    ext <;> simp [det3] <;> ring
  have hu := det3_add_smul A B C D
  have ht := det3_add_smul C D A B
  generalize det3 A B C = s0 at *
  generalize det3 A B D = s1 at *
  generalize hs2 : det3 C D A = s2 at *
  generalize hs3 : det3 C D B = s3 at *
  have hδ : s1 - s0 ≠ 0 := by
    intro h
    have h' : s1 = s0 := by linarith
    subst h'
    rcases lt_trichotomy s1 0 with h | h | h
    · exact h1 (Or.inr ⟨h, h⟩)
    · exact h3 ⟨h, h⟩
    · exact h1 (Or.inl ⟨h, h⟩)
  have hs32 : s3 = s2 - (s1 - s0) := by linarith
  have hAB' : B - A ≠ 0 := sub_ne_zero.2 (Ne.symm hAB)
  have hCD' : D - C ≠ 0 := sub_ne_zero.2 (Ne.symm hCD)
  have smulne : ∀ (c : K) (v : Vec K), v ≠ 0 → c • v = 0 → c = 0 := by
    intro c v hv hcv
    by_contra hc
    apply hv
    have := congrArg (fun w => c⁻¹ • w) hcv
    simpa [smul_smul, inv_mul_cancel₀ hc] using this
  set t0 := s2 / (s1 - s0) with ht0
  set u0 := -s0 / (s1 - s0) with hu0
  have hx : A + t0 • (B - A) = C + u0 • (D - C) := by
    have := congrArg (fun w => (s1 - s0)⁻¹ • w) hP
    simp only [smul_add, smul_sub, smul_smul, inv_mul_cancel₀ hδ, one_smul] at this
    rw [ht0, hu0]
    simp only [smul_sub, div_eq_inv_mul, this]
    have e : (s1 - s0)⁻¹ * -s0 = -((s1 - s0)⁻¹ * s0) := by ring
    rw [e, neg_smul, neg_smul]
    abel
  have signs : 0 ≤ t0 ∧ t0 ≤ 1 ∧ 0 ≤ u0 ∧ u0 ≤ 1 := by
    rcases lt_or_gt_of_ne hδ with hneg | hpos
    · have a1 : 0 ≤ s0 := by
        by_contra hc; push Not at hc
        exact h1 (Or.inr ⟨hc, by linarith⟩)
      have a2 : s1 ≤ 0 := by
        by_contra hc; push Not at hc
        exact h1 (Or.inl ⟨by linarith, hc⟩)
      have a3 : s2 ≤ 0 := by
        by_contra hc; push Not at hc
        exact h2 (Or.inl ⟨hc, by linarith⟩)
      have a4 : 0 ≤ s3 := by
        by_contra hc; push Not at hc
        exact h2 (Or.inr ⟨by linarith, hc⟩)
      refine ⟨div_nonneg_of_nonpos a3 hneg.le, ?_, div_nonneg_of_nonpos (by linarith) hneg.le, ?_⟩
      · rw [ht0, div_le_one_of_neg hneg]; linarith
      · rw [hu0, div_le_one_of_neg hneg]; linarith
    · have a1 : s0 ≤ 0 := by
        by_contra hc; push Not at hc
        exact h1 (Or.inl ⟨hc, by linarith⟩)
      have a2 : 0 ≤ s1 := by
        by_contra hc; push Not at hc
        exact h1 (Or.inr ⟨by linarith, hc⟩)
      have a3 : 0 ≤ s2 := by
        by_contra hc; push Not at hc
        exact h2 (Or.inr ⟨hc, by linarith⟩)
      have a4 : s3 ≤ 0 := by
        by_contra hc; push Not at hc
        exact h2 (Or.inl ⟨by linarith, hc⟩)
      refine ⟨div_nonneg a3 hpos.le, ?_, div_nonneg (by linarith) hpos.le, ?_⟩
      · rw [ht0, div_le_one hpos]; linarith
      · rw [hu0, div_le_one hpos]; linarith
  refine ⟨A + t0 • (B - A), ?_, ?_, ?_⟩
  · ext x
    simp only [Set.mem_inter_iff, Set.mem_singleton_iff]
    constructor
    · rintro ⟨⟨t, _, _, rfl⟩, ⟨u, _, _, hx'⟩⟩
      simp only at hx' ⊢
      have e := ht t
      rw [hx', det3_self] at e
      have : t = t0 := by
        rw [ht0, eq_div_iff hδ]; rw [hs32] at e; linear_combination e
      rw [this]
    · rintro rfl
      exact ⟨⟨t0, signs.1, signs.2.1, rfl⟩, ⟨u0, signs.2.2.1, signs.2.2.2, hx⟩⟩
  · have e2 : t0 = 0 ↔ s2 = 0 := by rw [ht0, div_eq_zero_iff]; simp [hδ]
    have e3 : t0 = 1 ↔ s3 = 0 := by
      rw [ht0, div_eq_one_iff_eq hδ, hs32, sub_eq_zero]
    rw [← e2, ← e3]
    unfold IsEnd
    refine or_congr ?_ ?_
    · constructor
      · intro h; exact smulne _ _ hAB' (by simpa using h)
      · intro h; simp [h]
    · constructor
      · intro h
        have : (t0 - 1) • (B - A) = 0 := by
          rw [sub_smul, one_smul]
          simp only at h
          rw [sub_eq_zero, ← sub_eq_iff_eq_add'.2 h.symm]
        have := smulne _ _ hAB' this
        linarith
      · intro h; simp [h]
  · rw [hx]
    have e0 : u0 = 0 ↔ s0 = 0 := by rw [hu0, div_eq_zero_iff]; simp [hδ]
    have e1 : u0 = 1 ↔ s1 = 0 := by
      rw [hu0, div_eq_one_iff_eq hδ]
      constructor <;> intro h <;> linarith
    rw [← e0, ← e1]
    unfold IsEnd
    refine or_congr ?_ ?_
    · constructor
      · intro h; exact smulne _ _ hCD' (by simpa using h)
      · intro h; simp [h]
    · constructor
      · intro h
        have : (u0 - 1) • (D - C) = 0 := by
          rw [sub_smul, one_smul]
          simp only at h
          rw [sub_eq_zero, ← sub_eq_iff_eq_add'.2 h.symm]
        have := smulne _ _ hCD' this
        linarith
      · intro h; simp [h]

/-- The coordinate used to compare points on the line in direction `v`. -/
def lineCoord (v p : Vec K) : K := if v.1 = 0 then p.2 else p.1

theorem lineCoord_ne (v : Vec K) (hv : v ≠ 0) : lineCoord v v ≠ 0 := by
  unfold lineCoord
  split_ifs with h
  · intro h2; exact hv (Prod.ext h h2)
  · exact h

theorem lineCoord_add_smul (v p : Vec K) (t : K) :
    lineCoord v (p + t • v) = lineCoord v p + t * lineCoord v v := by
  unfold lineCoord; split_ifs <;> simp

/-- On a line with direction `v`, the segment between two points is given by an interval of
coordinates. -/
theorem mem_segPts_line {A v : Vec K} {m c d : K} (hm : m ≠ 0) (hlt : c * m < d * m) (x : Vec K) :
    x ∈ segPts (A + c • v, A + d • v) ↔
      ∃ τ : K, x = A + (τ / m) • v ∧ c * m ≤ τ ∧ τ ≤ d * m := by
  have hdc : 0 < (d - c) * m := by linarith
  have hdc' : d - c ≠ 0 := fun h => by rw [h] at hdc; simp at hdc
  constructor
  · rintro ⟨t, h0, h1, rfl⟩
    refine ⟨(c + t * (d - c)) * m, ?_, ?_, ?_⟩
    · rw [mul_div_cancel_right₀ _ hm]
      ext <;> simp <;> ring
    · nlinarith [mul_nonneg h0 hdc.le]
    · nlinarith [mul_nonneg (by linarith : (0 : K) ≤ 1 - t) hdc.le]
  · rintro ⟨τ, rfl, h1, h2⟩
    refine ⟨(τ - c * m) / ((d - c) * m), div_nonneg (by linarith) hdc.le, ?_, ?_⟩
    · rw [div_le_one hdc]; linarith
    · have e : τ / m = c + (τ - c * m) / ((d - c) * m) * (d - c) := by field_simp; ring
      rw [e]
      ext <;> simp <;> ring

theorem lex_iff_lineCoord {A v : Vec K} {c d : K} (hcd : c ≠ d) :
    ((A + d • v).1 < (A + c • v).1 ∨
      ((A + d • v).1 = (A + c • v).1 ∧ (A + d • v).2 < (A + c • v).2)) ↔
    d * lineCoord v v < c * lineCoord v v := by
  unfold lineCoord
  split_ifs with h
  · simp [h]
  · simp
    intro h1
    rcases h1 with h1 | h1
    · exact absurd h1.symm hcd
    · exact absurd h1 h

theorem exists_param_of_det3 {A B C : Vec K} (hAB : A ≠ B) (h : det3 A B C = 0) :
    ∃ c : K, C = A + c • (B - A) := by
  have hv : B - A ≠ 0 := sub_ne_zero.2 (Ne.symm hAB)
  have hl := lineCoord_ne _ hv
  by_cases h1 : (B - A).1 = 0
  · simp only [lineCoord, h1, if_true] at hl
    refine ⟨(C - A).2 / (B - A).2, ?_⟩
    simp at h1 hl
    have h1' : B.1 = A.1 := by linarith
    have h2 : (B.2 - A.2) * (C.1 - A.1) = 0 := by
      simp only [det3, h1'] at h; linear_combination -h
    have h3 : C.1 = A.1 := by
      have := (mul_eq_zero.1 h2).resolve_left hl; linarith
    ext
    · simp [h3, h1']
    · simp; field_simp; ring
  · refine ⟨(C - A).1 / (B - A).1, ?_⟩
    simp at h1
    ext
    · simp; field_simp; ring
    · simp; field_simp
      simp only [det3] at h
      linear_combination h

/-- Which one of three cases holds for the intersection of two sets of points (segments):
specification of the return value of `is_segment_intersecting`. -/
def SegSpec (r : SegResult) (e1 e2 : Vec K × Vec K) : Prop :=
  match r with
  | .zero => segPts e1 ∩ segPts e2 = ∅
  | .one => ∃ x, segPts e1 ∩ segPts e2 = {x} ∧ IsEnd x e1 ∧ IsEnd x e2
  | .two => (segPts e1 ∩ segPts e2).Nonempty ∧
      ¬ ∃ x, segPts e1 ∩ segPts e2 = {x} ∧ IsEnd x e1 ∧ IsEnd x e2
  | .valueError => False
  | .assertionError => False

/-- The collinear case after sorting. -/
theorem seg_collinear_sorted {A v : Vec K} (hv : v ≠ 0) {m n c1 d1 c2 d2 : K} (hm : m ≠ 0)
    (h1 : c1 * m < d1 * m) (h2 : c2 * m < d2 * m) :
    SegSpec (segInterval (n + c1 * m) (n + d1 * m) (n + c2 * m) (n + d2 * m))
      (A + c1 • v, A + d1 • v) (A + c2 • v, A + d2 • v) := by
  have hinj : ∀ s t : K, A + (s / m) • v = A + (t / m) • v → s = t := by
    intro s t h
    have h' : (s / m - t / m) • v = 0 := by
      rw [sub_smul, sub_eq_zero]; exact add_left_cancel h
    have : s / m - t / m = 0 := by
      by_contra hne
      apply hv
      have := congrArg (fun w => (s / m - t / m)⁻¹ • w) h'
      simpa only [smul_smul, inv_mul_cancel₀ hne, one_smul, smul_zero] using this
    have h3 : s / m = t / m := by linarith
    rwa [div_left_inj' hm] at h3
  unfold segInterval
  rw [if_neg (not_not.2 ⟨by linarith, by linarith⟩)]
  split_ifs with ha hb hB
  · show _ = ∅
    rw [Set.eq_empty_iff_forall_notMem]
    rintro x ⟨hx1, hx2⟩
    rw [mem_segPts_line hm h1] at hx1
    rw [mem_segPts_line hm h2] at hx2
    obtain ⟨s, rfl, hs1, hs2⟩ := hx1
    obtain ⟨t, hst, ht1, ht2⟩ := hx2
    have := hinj _ _ hst
    rcases ha with ha | ha <;> linarith
  · have key : ∀ e : K, (e = d1 ∧ e = c2) ∨ (e = c1 ∧ e = d2) →
        segPts (A + c1 • v, A + d1 • v) ∩ segPts (A + c2 • v, A + d2 • v) = {A + e • v} := by
      intro e he
      ext x
      simp only [Set.mem_inter_iff, Set.mem_singleton_iff, mem_segPts_line hm h1,
        mem_segPts_line hm h2]
      constructor
      · rintro ⟨⟨s, rfl, hs1, hs2⟩, ⟨t, hst, ht1, ht2⟩⟩
        have := hinj _ _ hst
        have hse : s = e * m := by
          rcases he with ⟨rfl, rfl⟩ | ⟨rfl, rfl⟩ <;> linarith
        rw [hse, mul_div_cancel_right₀ _ hm]
      · rintro rfl
        refine ⟨⟨e * m, by rw [mul_div_cancel_right₀ _ hm], ?_⟩,
          ⟨e * m, by rw [mul_div_cancel_right₀ _ hm], ?_⟩⟩ <;>
          rcases he with ⟨rfl, rfl⟩ | ⟨rfl, rfl⟩ <;> constructor <;> linarith
    rcases hb with hb | hb
    · have hb' : d1 = c2 := mul_right_cancel₀ hm (by linarith)
      exact ⟨A + d1 • v, key d1 (Or.inl ⟨rfl, hb'⟩), Or.inr rfl, Or.inl (by rw [hb'])⟩
    · have hb' : c1 = d2 := mul_right_cancel₀ hm (by linarith)
      exact ⟨A + c1 • v, key c1 (Or.inr ⟨rfl, hb'⟩), Or.inl rfl, Or.inr (by rw [hb'])⟩
  · push Not at ha hb
    have g1 : c2 * m < d1 * m := lt_of_le_of_ne (by linarith) (fun h => hb.1 (by rw [h]))
    have g2 : c1 * m < d2 * m :=
      lt_of_le_of_ne (by linarith) (fun h => hb.2 (by rw [h]))
    set lo := max (c1 * m) (c2 * m) with hlo
    set hi := min (d1 * m) (d2 * m) with hhi
    have hlt : lo < hi := by
      rw [hlo, hhi, max_lt_iff, lt_min_iff, lt_min_iff]; exact ⟨⟨h1, g2⟩, ⟨g1, h2⟩⟩
    have hmem : ∀ τ, lo ≤ τ → τ ≤ hi →
        A + (τ / m) • v ∈ segPts (A + c1 • v, A + d1 • v) ∩ segPts (A + c2 • v, A + d2 • v) := by
      intro τ hl hh
      have a1 := le_max_left (c1 * m) (c2 * m)
      have a2 := le_max_right (c1 * m) (c2 * m)
      have a3 := min_le_left (d1 * m) (d2 * m)
      have a4 := min_le_right (d1 * m) (d2 * m)
      constructor
      · rw [mem_segPts_line hm h1]; exact ⟨τ, rfl, by linarith, by linarith⟩
      · rw [mem_segPts_line hm h2]; exact ⟨τ, rfl, by linarith, by linarith⟩
    refine ⟨⟨_, hmem lo le_rfl hlt.le⟩, ?_⟩
    rintro ⟨x, hx, _⟩
    have m1 := hmem lo le_rfl hlt.le
    have m2 := hmem hi hlt.le le_rfl
    rw [hx, Set.mem_singleton_iff] at m1 m2
    have := hinj _ _ (m1.trans m2.symm)
    linarith
  · exfalso
    push Not at ha hb hB
    obtain ⟨b1, b2, b3, b4⟩ := hB
    have q1 : n + c2 * m < n + d1 * m := lt_of_le_of_ne ha.1 hb.1
    have q2 : n + c1 * m < n + d2 * m := lt_of_le_of_ne ha.2 (Ne.symm hb.2)
    have q3 := b2 q2
    by_cases q4 : n + c1 * m ≤ n + c2 * m
    · linarith [b1 q4]
    · push Not at q4
      linarith [b3 q4]

theorem segSpec_swap_left (r : SegResult) (p q : Vec K) (e : Vec K × Vec K) :
    SegSpec r (p, q) e ↔ SegSpec r (q, p) e := by
  have h : ∀ x, IsEnd x (p, q) ↔ IsEnd x (q, p) := fun x => by simp [IsEnd, or_comm]
  cases r <;> simp only [SegSpec, segPts_swap p q, h]

theorem segSpec_comm (r : SegResult) (e f : Vec K × Vec K) :
    SegSpec r e f ↔ SegSpec r f e := by
  cases r <;> simp only [SegSpec, Set.inter_comm (segPts e), and_comm (a := IsEnd _ e)]

theorem segSpec_sortSeg_left (r : SegResult) (e f : Vec K × Vec K) :
    SegSpec r (sortSeg e) f ↔ SegSpec r e f := by
  unfold sortSeg
  split_ifs
  · exact segSpec_swap_left r e.2 e.1 f
  · rfl

/-- The sorted end points of a segment on a line. -/
theorem sortSeg_line {A v : Vec K} (hv : v ≠ 0) {c d : K} (hcd : c ≠ d) :
    ∃ c' d', sortSeg (A + c • v, A + d • v) = (A + c' • v, A + d' • v) ∧
      c' * lineCoord v v < d' * lineCoord v v := by
  unfold sortSeg
  have hl := lineCoord_ne v hv
  split_ifs with h
  · exact ⟨d, c, rfl, (lex_iff_lineCoord hcd).1 h⟩
  · refine ⟨c, d, rfl, ?_⟩
    have h' := (not_congr (lex_iff_lineCoord hcd)).1 h
    refine lt_of_le_of_ne (not_lt.1 h') ?_
    intro he
    exact hcd (mul_right_cancel₀ hl he)

theorem segCollinear_spec {A v : Vec K} (hv : v ≠ 0) {c d c' d' : K} (hcd : c ≠ d) (hcd' : c' ≠ d') :
    SegSpec (segCollinear (A + c • v, A + d • v) (A + c' • v, A + d' • v))
      (A + c • v, A + d • v) (A + c' • v, A + d' • v) := by
  obtain ⟨c1, d1, e1, l1⟩ := sortSeg_line (A := A) hv hcd
  obtain ⟨c2, d2, e2, l2⟩ := sortSeg_line (A := A) hv hcd'
  rw [← segSpec_sortSeg_left, segSpec_comm, ← segSpec_sortSeg_left, segSpec_comm]
  unfold segCollinear
  rw [e1, e2]
  have hl := lineCoord_ne v hv
  by_cases hv1 : v.1 = 0
  · have h : (A + c1 • v, A + d1 • v).1.1 = (A + c1 • v, A + d1 • v).2.1 ∧
      (A + c1 • v, A + d1 • v).2.1 = (A + c2 • v, A + d2 • v).1.1 ∧
      (A + c2 • v, A + d2 • v).1.1 = (A + c2 • v, A + d2 • v).2.1 := by simp [hv1]
    simp only [if_pos h]
    have hm : lineCoord v v = v.2 := by simp [lineCoord, hv1]
    rw [hm] at hl l1 l2
    exact seg_collinear_sorted (n := A.2) hv hl l1 l2
  · have h : ¬ ((A + c1 • v, A + d1 • v).1.1 = (A + c1 • v, A + d1 • v).2.1 ∧
      (A + c1 • v, A + d1 • v).2.1 = (A + c2 • v, A + d2 • v).1.1 ∧
      (A + c2 • v, A + d2 • v).1.1 = (A + c2 • v, A + d2 • v).2.1) := by
      rintro ⟨h, -⟩
      simp [hv1] at h
      rw [h] at l1; exact lt_irrefl _ l1
    simp only [if_neg h]
    have hm : lineCoord v v = v.1 := by simp [lineCoord, hv1]
    rw [hm] at hl l1 l2
    exact seg_collinear_sorted (n := A.1) hv hl l1 l2

end
end Flat
