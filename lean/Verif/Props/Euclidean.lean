import Verif.Lemmas.Segment
import Mathlib.Tactic.NormNum
import Mathlib.Tactic.Tauto
import Mathlib.Data.Set.Basic

/-!
# Properties of the Euclidean predicates (C05, C07, C08, C57)
-/

namespace Flat

section
variable {K : Type*} [Field K] [LinearOrder K] [IsStrictOrderedRing K]

/-- C05: parallel means positive multiple. -/
theorem C05_isParallel_iff (v w : Vec K) (hv : v ≠ 0) :
    isParallel v w = true ↔ ∃ t : K, 0 < t ∧ w = t • v := by
  have hv' : v.1 ≠ 0 ∨ v.2 ≠ 0 := by
    by_contra h
    push Not at h
    exact hv (Prod.ext h.1 h.2)
  have hn : 0 < v.1 * v.1 + v.2 * v.2 := by
    rcases hv' with h | h
    · nlinarith [mul_self_pos.2 h, mul_self_nonneg v.2]
    · nlinarith [mul_self_pos.2 h, mul_self_nonneg v.1]
  unfold isParallel ccw
  constructor
  · intro h
    by_cases hc : v.1 * w.2 - v.2 * w.1 = 0
    · simp [hc] at h
      refine ⟨(v.1 * w.1 + v.2 * w.2) / (v.1 * v.1 + v.2 * v.2), by positivity, ?_⟩
      have hn' : v.1 ^ 2 + v.2 ^ 2 ≠ 0 := by rw [sq, sq]; exact hn.ne'
      ext
      · simp; field_simp; linear_combination (v.2) * (-hc)
      · simp; field_simp; linear_combination (v.1) * (hc)
    · simp [hc] at h
  · rintro ⟨t, ht, rfl⟩
    have : v.1 * (t • v).2 - v.2 * (t • v).1 = 0 := by simp; ring
    rw [if_neg (by simpa using this)]
    simp
    have : v.1 * (t * v.1) + v.2 * (t * v.2) = t * (v.1 * v.1 + v.2 * v.2) := by ring
    rw [this]; positivity

/-- C05: anti-parallel means negative multiple. -/
theorem C05_isAntiParallel_iff (v w : Vec K) (hv : v ≠ 0) :
    isAntiParallel v w = true ↔ ∃ t : K, t < 0 ∧ w = t • v := by
  unfold isAntiParallel
  rw [C05_isParallel_iff v (-w) hv]
  constructor
  · rintro ⟨t, ht, h⟩
    exact ⟨-t, by linarith, by rw [neg_smul, ← h, neg_neg]⟩
  · rintro ⟨t, ht, h⟩
    exact ⟨-t, by linarith, by rw [neg_smul, ← h]⟩

/-- C05: being parallel is reflexive on non-zero vectors. -/
theorem C05_isParallel_refl (v : Vec K) (hv : v ≠ 0) : isParallel v v = true :=
  (C05_isParallel_iff v v hv).2 ⟨1, one_pos, (one_smul _ _).symm⟩

/-- C05: being parallel is symmetric (for all vectors, also zero). -/
theorem C05_isParallel_symm (v w : Vec K) : isParallel v w = isParallel w v := by
  unfold isParallel ccw
  have h1 : v.1 * w.2 - v.2 * w.1 = 0 ↔ w.1 * v.2 - w.2 * v.1 = 0 := by
    constructor <;> intro h <;> linear_combination -h
  have h2 : v.1 * w.1 + v.2 * w.2 = w.1 * v.1 + w.2 * v.2 := by ring
  by_cases h : v.1 * w.2 - v.2 * w.1 = 0
  · simp [h, h1.1 h, h2]
  · simp [h, (not_congr h1).1 h]

/-- C05: being parallel is transitive (for all vectors, also zero). -/
theorem C05_isParallel_trans (u v w : Vec K) (h1 : isParallel u v = true)
    (h2 : isParallel v w = true) : isParallel u w = true := by
  have hu : u ≠ 0 := by
    rintro rfl; simp [isParallel, ccw] at h1
  have hv : v ≠ 0 := by
    rintro rfl; simp [isParallel, ccw] at h2
  obtain ⟨s, hs, rfl⟩ := (C05_isParallel_iff u v hu).1 h1
  obtain ⟨t, ht, rfl⟩ := (C05_isParallel_iff _ w hv).1 h2
  exact (C05_isParallel_iff u _ hu).2 ⟨t * s, mul_pos ht hs, by rw [mul_smul]⟩

/-- C05: two non-zero vectors are never both parallel and anti-parallel. -/
theorem C05_not_both (v w : Vec K) : ¬ (isParallel v w = true ∧ isAntiParallel v w = true) := by
  rintro ⟨h1, h2⟩
  have hv : v ≠ 0 := by
    rintro rfl; simp [isParallel, ccw] at h1
  obtain ⟨s, hs, rfl⟩ := (C05_isParallel_iff v w hv).1 h1
  obtain ⟨t, ht, h⟩ := (C05_isAntiParallel_iff v _ hv).1 h2
  apply hv
  have h1 : (s - t) * v.1 = 0 := by
    have := congrArg Prod.fst h; rw [sub_mul, sub_eq_zero]; exact this
  have h2 : (s - t) * v.2 = 0 := by
    have := congrArg Prod.snd h; rw [sub_mul, sub_eq_zero]; exact this
  have hst : s - t ≠ 0 := ne_of_gt (by linarith)
  exact Prod.ext ((mul_eq_zero.1 h1).resolve_left hst) ((mul_eq_zero.1 h2).resolve_left hst)

/-- C05: `ccw` is antisymmetric and is multiplied by `c^2 + s^2` under the rotation-scaling
`(x, y) ↦ (c x - s y, s x + c y)`. -/
theorem C05_ccw_antisymm (v w : Vec K) : ccw v w = -ccw w v := by simp [ccw]; ring

theorem C05_ccw_rotScale (c s : K) (v w : Vec K) :
    ccw ((⟨c, -s, s, c⟩ : Mat2 K).mulVec v) ((⟨c, -s, s, c⟩ : Mat2 K).mulVec w)
      = (c * c + s * s) * ccw v w := by
  simp [ccw, Mat2.mulVec]; ring

example : isParallel ((1, 2) : Vec ℚ) (2, 4) = true ∧ isAntiParallel ((1, 2) : Vec ℚ) (-1, -2) = true := by
  constructor <;> simp [isParallel, isAntiParallel, ccw] <;> norm_num

/-! ### Segments -/

/-- C07: for non-degenerate segments the return value is 0, 1 or 2 (no assertion fails), and it is
the one that describes the intersection of the two sets of points: 0 if they are disjoint, 1 if they have exactly
one common point which is an end point of both, 2 otherwise. -/
theorem C07_isSegmentIntersecting_spec (e1 e2 : Vec K × Vec K) (h1 : e1.1 ≠ e1.2)
    (h2 : e2.1 ≠ e2.2) : SegSpec (isSegmentIntersecting e1 e2) e1 e2 := by
  obtain ⟨A, B⟩ := e1
  obtain ⟨C, D⟩ := e2
  simp only at h1 h2
  unfold isSegmentIntersecting
  rw [if_neg (by rintro (h | h) <;> contradiction)]
  simp only
  by_cases c1 : (det3 A B C > 0 ∧ det3 A B D > 0) ∨ (det3 A B C < 0 ∧ det3 A B D < 0)
  · rw [if_pos c1]; exact seg_disjoint_of_same_side c1
  rw [if_neg c1]
  by_cases c2 : (det3 C D A > 0 ∧ det3 C D B > 0) ∨ (det3 C D A < 0 ∧ det3 C D B < 0)
  · rw [if_pos c2, segSpec_comm]; exact seg_disjoint_of_same_side c2
  rw [if_neg c2]
  by_cases c3 : det3 A B C = 0 ∧ det3 A B D = 0
  · rw [if_pos c3]
    obtain ⟨c, rfl⟩ := exists_param_of_det3 h1 c3.1
    obtain ⟨d, rfl⟩ := exists_param_of_det3 h1 c3.2
    have hv : B - A ≠ 0 := sub_ne_zero.2 (Ne.symm h1)
    have hcd : c ≠ d := by rintro rfl; exact h2 rfl
    have hs2 : det3 (A + c • (B - A)) (A + d • (B - A)) A = 0 := by simp [det3]; ring
    have hs3 : det3 (A + c • (B - A)) (A + d • (B - A)) B = 0 := by simp [det3]; ring
    rw [if_neg (by simp [hs2, hs3])]
    have := segCollinear_spec (A := A) hv (zero_ne_one' K) hcd
    simpa only [zero_smul, add_zero, one_smul, add_sub_cancel] using this
  rw [if_neg c3]
  obtain ⟨x, hx, hx1, hx2⟩ := seg_transversal h1 h2 c1 c2 c3
  have notone : ¬ (IsEnd x (A, B) ∧ IsEnd x (C, D)) → SegSpec .two (A, B) (C, D) := by
    intro hn
    refine ⟨by rw [hx]; exact Set.singleton_nonempty _, ?_⟩
    rintro ⟨y, hy, hy1, hy2⟩
    rw [hx, Set.singleton_eq_singleton_iff] at hy
    subst hy
    exact hn ⟨hy1, hy2⟩
  split_ifs with c4 c5
  · exact ⟨x, hx, hx1.2 c5, hx2.2 c4⟩
  · exact notone (fun h => c5 (hx1.1 h.1))
  · exact notone (fun h => c4 (hx2.1 h.2))

/-- The specification determines the return value. -/
theorem segSpec_unique (r r' : SegResult) (e1 e2 : Vec K × Vec K) (h : SegSpec r e1 e2)
    (h' : SegSpec r' e1 e2) : r = r' := by
  cases r <;> cases r' <;> simp only [SegSpec] at h h' <;> try rfl
  all_goals try contradiction
  · obtain ⟨x, hx, _⟩ := h'
    exact absurd (hx.symm.trans h) (Set.singleton_nonempty x).ne_empty
  · exact absurd h h'.1.ne_empty
  · obtain ⟨x, hx, _⟩ := h
    exact absurd (hx.symm.trans h') (Set.singleton_nonempty x).ne_empty
  · exact absurd h h'.2
  · exact absurd h' h.1.ne_empty
  · exact absurd h' h.2

/-- C07: returns 0 exactly for disjoint segments. -/
theorem C07_zero_iff (e1 e2 : Vec K × Vec K) (h1 : e1.1 ≠ e1.2) (h2 : e2.1 ≠ e2.2) :
    isSegmentIntersecting e1 e2 = .zero ↔ segPts e1 ∩ segPts e2 = ∅ := by
  have := C07_isSegmentIntersecting_spec e1 e2 h1 h2
  constructor
  · intro h; rw [h] at this; exact this
  · intro h; exact segSpec_unique _ .zero _ _ this h

/-- C07: returns 1 exactly if the segments meet in a single point which is an end point of both. -/
theorem C07_one_iff (e1 e2 : Vec K × Vec K) (h1 : e1.1 ≠ e1.2) (h2 : e2.1 ≠ e2.2) :
    isSegmentIntersecting e1 e2 = .one ↔
      ∃ x, segPts e1 ∩ segPts e2 = {x} ∧ IsEnd x e1 ∧ IsEnd x e2 := by
  have := C07_isSegmentIntersecting_spec e1 e2 h1 h2
  constructor
  · intro h; rw [h] at this; exact this
  · intro h; exact segSpec_unique _ .one _ _ this h

/-- C07: the answer does not depend on the order of the segments. -/
theorem C07_symm (e1 e2 : Vec K × Vec K) :
    isSegmentIntersecting e1 e2 = isSegmentIntersecting e2 e1 := by
  by_cases h1 : e1.1 = e1.2
  · simp [isSegmentIntersecting, h1]
  by_cases h2 : e2.1 = e2.2
  · simp [isSegmentIntersecting, h2]
  exact segSpec_unique _ _ e1 e2 (C07_isSegmentIntersecting_spec e1 e2 h1 h2)
    ((segSpec_comm _ _ _).1 (C07_isSegmentIntersecting_spec e2 e1 h2 h1))

/-- C07: the answer does not depend on the orientation of the segments. -/
theorem C07_reverse (p q : Vec K) (e : Vec K × Vec K) :
    isSegmentIntersecting (p, q) e = isSegmentIntersecting (q, p) e := by
  by_cases h1 : p = q
  · simp [h1]
  by_cases h2 : e.1 = e.2
  · simp [isSegmentIntersecting, h2]
  exact segSpec_unique _ _ (p, q) e (C07_isSegmentIntersecting_spec _ e h1 h2)
    ((segSpec_swap_left _ _ _ _).2 (C07_isSegmentIntersecting_spec (q, p) e (Ne.symm h1) h2))

/-- Two crossing segments meet the hypotheses and the answer is 2. -/
example : ((0, 0) : Vec ℚ) ≠ (1, 0) ∧
    isSegmentIntersecting (K := ℚ) ((0, 0), (1, 0)) ((0, -1), (0, 3)) = .two := by
  refine ⟨by simp, ?_⟩
  rw [isSegmentIntersecting]; norm_num [det3]

/-! ### Lines and rays -/

/-- C08: `line_intersection` returns `None` exactly for parallel lines and otherwise the only common point
of both lines. -/
theorem C08_lineIntersection (p1 p2 q1 q2 : Vec K) :
    (lineIntersection p1 p2 q1 q2 = none ↔ ccw (p2 - p1) (q2 - q1) = 0) ∧
    ∀ x, lineIntersection p1 p2 q1 q2 = some x →
      (∃ t : K, x = p1 + t • (p2 - p1)) ∧ (∃ s : K, x = q1 + s • (q2 - q1)) ∧
      ∀ y, (∃ t : K, y = p1 + t • (p2 - p1)) → (∃ s : K, y = q1 + s • (q2 - q1)) → y = x := by
  unfold lineIntersection
  constructor
  · by_cases h : ccw (p2 - p1) (q2 - q1) = 0 <;> simp [h]
  · intro x hx
    by_cases h : ccw (p2 - p1) (q2 - q1) = 0
    · simp [h] at hx
    simp only [if_neg h, Option.some.injEq] at hx
    have hdet : (p2.1 - p1.1) * (q1.2 - q2.2) - (q1.1 - q2.1) * (p2.2 - p1.2) ≠ 0 := by
      intro h0; apply h; simp [ccw]; linear_combination -h0
    have uniq : ∀ t s t' s' : K, p1 + t • (p2 - p1) = q1 + s • (q2 - q1) →
        p1 + t' • (p2 - p1) = q1 + s' • (q2 - q1) → t = t' := by
      intro t s t' s' e e'
      simp [Prod.ext_iff] at e e'
      have : (t - t') * ((p2.1 - p1.1) * (q1.2 - q2.2) - (q1.1 - q2.1) * (p2.2 - p1.2)) = 0 := by
        linear_combination (q1.2 - q2.2) * (e.1 - e'.1) - (q1.1 - q2.1) * (e.2 - e'.2)
      have := (mul_eq_zero.1 this).resolve_right hdet
      linarith
    have hs : ∃ s : K, x = q1 + s • (q2 - q1) := by
      refine ⟨(-(p2.2 - p1.2) * (q1.1 - p1.1) + (p2.1 - p1.1) * (q1.2 - p1.2)) /
        ((p2.1 - p1.1) * (q1.2 - q2.2) - (q1.1 - q2.1) * (p2.2 - p1.2)), ?_⟩
      rw [← hx]
      obtain ⟨Δ, hΔ⟩ : ∃ Δ, Δ = (p2.1 - p1.1) * (q1.2 - q2.2) - (q1.1 - q2.1) * (p2.2 - p1.2) :=
        ⟨_, rfl⟩
      rw [← hΔ] at hdet ⊢
      ext
      · simp only [Prod.fst_add, Prod.smul_fst, Prod.fst_sub, Prod.snd_sub, smul_eq_mul]
        field_simp
        linear_combination (p1.1 - q1.1) * hΔ
      · simp only [Prod.snd_add, Prod.smul_snd, Prod.fst_sub, Prod.snd_sub, smul_eq_mul]
        field_simp
        linear_combination (p1.2 - q1.2) * hΔ
    refine ⟨⟨_, hx.symm⟩, hs, ?_⟩
    rintro y ⟨t, rfl⟩ ⟨s, hy⟩
    obtain ⟨s', hs'⟩ := hs
    rw [← hx] at hs' ⊢
    rw [uniq _ _ _ _ hy hs']

/-- C08: `solve` raises exactly for parallel vectors; otherwise it returns the unique `(a, b)` with
`x + a u = y + b v`. -/
theorem C08_solve (x u y v : Vec K) :
    (solve x u y v = none ↔ ccw u v = 0) ∧
    ∀ a b, solve x u y v = some (a, b) ↔ ccw u v ≠ 0 ∧ x + a • u = y + b • v := by
  have hd : -u.1 * v.2 + u.2 * v.1 = 0 ↔ ccw u v = 0 := by
    simp only [ccw]; constructor <;> intro h <;> linear_combination -h
  unfold solve
  constructor
  · by_cases h : -u.1 * v.2 + u.2 * v.1 = 0
    · simp only [if_pos h, true_iff]; exact hd.1 h
    · simp only [if_neg h, reduceCtorEq, false_iff]; exact fun h' => h (hd.2 h')
  · intro a b
    by_cases h : -u.1 * v.2 + u.2 * v.1 = 0
    · simp only [if_pos h, reduceCtorEq, false_iff]; exact fun h' => h'.1 (hd.1 h)
    · simp only [if_neg h, Option.some.injEq, Prod.mk.injEq]
      rw [div_eq_iff h, div_eq_iff h]
      constructor
      · rintro ⟨h1, h2⟩
        refine ⟨fun h' => h (hd.2 h'), ?_⟩
        ext
        · simp
          have : (x.1 + a * u.1 - (y.1 + b * v.1)) * (-u.1 * v.2 + u.2 * v.1) = 0 := by
            linear_combination -u.1 * h1 + v.1 * h2
          have := (mul_eq_zero.1 this).resolve_right h
          linarith
        · simp
          have : (x.2 + a * u.2 - (y.2 + b * v.2)) * (-u.1 * v.2 + u.2 * v.1) = 0 := by
            linear_combination -u.2 * h1 + v.2 * h2
          have := (mul_eq_zero.1 this).resolve_right h
          linarith
      · rintro ⟨-, e⟩
        simp [Prod.ext_iff] at e
        obtain ⟨e1, e2⟩ := e
        constructor
        · linear_combination v.2 * e1 - v.1 * e2
        · linear_combination u.2 * e1 - u.1 * e2

/-- C08: `time_on_ray` of the point `p + t * direction` is a fraction with positive denominator and
value `t`. -/
theorem C08_timeOnRay (p d : Vec K) (hd : d ≠ 0) (t : K) :
    0 < (timeOnRay p d (p + t • d)).2 ∧
      (timeOnRay p d (p + t • d)).1 = t * (timeOnRay p d (p + t • d)).2 := by
  unfold timeOnRay
  by_cases h : d.1 = 0
  · have h2 : d.2 ≠ 0 := fun h2 => hd (Prod.ext h h2)
    simp only [h, ne_eq, not_true_eq_false, if_false]
    split_ifs with hl
    · refine ⟨by simpa using hl, by simp⟩
    · exact ⟨lt_of_le_of_ne (not_lt.1 hl) (Ne.symm h2), by simp⟩
  · simp only [ne_eq, h, not_false_eq_true, if_true]
    split_ifs with hl
    · refine ⟨by simpa using hl, by simp⟩
    · exact ⟨lt_of_le_of_ne (not_lt.1 hl) (Ne.symm h), by simp⟩

/-- The points of a ray (specification). -/
def rayPts (p d : Vec K) : Set (Vec K) := {x | ∃ t : K, 0 ≤ t ∧ x = p + t • d}

/-- The set of points described by a return value of `ray_segment_intersection`. -/
def RayHit.pts : RayHit K → Set (Vec K)
  | .none => ∅
  | .point x => {x}
  | .segment a b => segPts (a, b)

theorem mem_segPts_ray {p d : Vec K} {a b : K} (hab : a ≤ b) (x : Vec K) :
    x ∈ segPts (p + a • d, p + b • d) ↔ ∃ t : K, a ≤ t ∧ t ≤ b ∧ x = p + t • d := by
  constructor
  · rintro ⟨t, h0, h1, rfl⟩
    refine ⟨a + t * (b - a), by nlinarith, by nlinarith, ?_⟩
    ext <;> simp <;> ring
  · rintro ⟨t, h0, h1, rfl⟩
    rcases eq_or_lt_of_le hab with h | h
    · subst h
      have : t = a := le_antisymm h1 h0
      subst this
      exact ⟨0, le_rfl, zero_le_one, by simp⟩
    · have hba : b - a ≠ 0 := by linarith
      refine ⟨(t - a) / (b - a), div_nonneg (by linarith) (by linarith), ?_, ?_⟩
      · rw [div_le_one (by linarith)]; linarith
      · ext <;> simp <;> field_simp <;> ring

theorem ray_inj {p d : Vec K} (hd : d ≠ 0) {s t : K} (h : p + s • d = p + t • d) : s = t := by
  have h' := add_left_cancel h
  simp [Prod.ext_iff] at h'
  by_contra hne
  apply hd
  rcases h' with ⟨h1, h2⟩
  exact Prod.ext (h1.resolve_left hne) (h2.resolve_left hne)

/-- C08: `ray_segment_intersection` describes exactly the intersection of the ray and the segment. -/
theorem C08_raySegmentIntersection (p d : Vec K) (hd : d ≠ 0) (seg : Vec K × Vec K) :
    (raySegmentIntersection p d seg).pts = rayPts p d ∩ segPts seg := by
  obtain ⟨A, B⟩ := seg
  have hL := C08_lineIntersection p (p + d) A B
  unfold raySegmentIntersection
  simp only
  cases hli : lineIntersection p (p + d) A B with
  | none =>
    have hpar : ccw d (B - A) = 0 := by
      have := hL.1.1 hli; simpa using this
    simp only
    by_cases hc : ccw d (A - p) = 0
    · rw [if_neg (by simpa using hc)]
      obtain ⟨a, rfl⟩ : ∃ a : K, A = p + a • d := by
        have h3 : det3 p (p + d) A = 0 := by
          simp only [det3, ccw, Prod.fst_sub, Prod.snd_sub, Prod.fst_add, Prod.snd_add] at hc ⊢
          linear_combination hc
        obtain ⟨a, ha⟩ := exists_param_of_det3 (by simpa using hd) h3
        exact ⟨a, by simpa using ha⟩
      obtain ⟨b, rfl⟩ : ∃ b : K, B = p + b • d := by
        have h3 : det3 p (p + d) B = 0 := by
          simp only [det3, ccw, Prod.fst_sub, Prod.snd_sub, Prod.fst_add, Prod.snd_add] at hc hpar ⊢
          linear_combination hc + hpar
        obtain ⟨a, ha⟩ := exists_param_of_det3 (by simpa using hd) h3
        exact ⟨a, by simpa using ha⟩
      obtain ⟨hLa, ha⟩ := C08_timeOnRay p d hd a
      obtain ⟨hLb, hb⟩ := C08_timeOnRay p d hd b
      have hLL : (timeOnRay p d (p + b • d)).2 = (timeOnRay p d (p + a • d)).2 := by
        unfold timeOnRay; by_cases h1 : d.1 = 0 <;> simp [h1] <;> split_ifs <;> rfl
      rw [hLL] at hb hLb
      rw [ha, hb]
      generalize (timeOnRay p d (p + a • d)).2 = L at *
      -- the part after sorting
      have main : ∀ u v : K, u ≤ v →
          (if v * L < 0 then (RayHit.none : RayHit K)
            else if v * L = 0 then .point p
            else if u * L / L < 0 then .segment p (p + (v * L / L) • d)
            else .segment (p + (u * L / L) • d) (p + (v * L / L) • d)).pts
          = rayPts p d ∩ segPts (p + u • d, p + v • d) := by
        intro u v huv
        have hdivu : u * L / L = u := mul_div_cancel_right₀ _ hLa.ne'
        have hdivv : v * L / L = v := mul_div_cancel_right₀ _ hLa.ne'
        rw [hdivu, hdivv]
        ext x
        rw [Set.mem_inter_iff, mem_segPts_ray huv]
        split_ifs with c1 c2 c3
        · simp only [RayHit.pts, Set.mem_empty_iff_false, false_iff]
          rintro ⟨⟨t, ht, rfl⟩, ⟨s, hs1, hs2, hst⟩⟩
          have := ray_inj hd hst
          have : v < 0 := by
            by_contra hv; push Not at hv
            exact absurd (mul_nonneg hv hLa.le) (not_le.2 c1)
          linarith
        · have hv : v = 0 := (mul_eq_zero.1 c2).resolve_right hLa.ne'
          simp only [RayHit.pts, Set.mem_singleton_iff]
          constructor
          · rintro rfl
            exact ⟨⟨0, le_rfl, by simp⟩, ⟨0, by linarith, by linarith, by simp⟩⟩
          · rintro ⟨⟨t, ht, rfl⟩, ⟨s, hs1, hs2, hst⟩⟩
            have := ray_inj hd hst
            have : t = 0 := by linarith
            simp [this]
        · have hv : 0 ≤ v := by
            by_contra hv; push Not at hv
            exact c1 (mul_neg_of_neg_of_pos hv hLa)
          have e := mem_segPts_ray (p := p) (d := d) hv x
          simp only [zero_smul, add_zero] at e
          simp only [RayHit.pts]
          rw [e]
          constructor
          · rintro ⟨t, h0, h1, rfl⟩
            exact ⟨⟨t, h0, rfl⟩, ⟨t, by linarith, h1, rfl⟩⟩
          · rintro ⟨⟨t, ht, rfl⟩, ⟨s, hs1, hs2, hst⟩⟩
            have := ray_inj hd hst
            exact ⟨t, ht, by linarith, rfl⟩
        · simp only [RayHit.pts]
          rw [mem_segPts_ray huv]
          push Not at c3
          constructor
          · rintro ⟨t, h0, h1, rfl⟩
            exact ⟨⟨t, by linarith, rfl⟩, ⟨t, h0, h1, rfl⟩⟩
          · rintro ⟨_, h⟩
            exact h
      by_cases hab : b * L < a * L
      · simp only [hab, if_true]
        rw [segPts_swap]
        exact main b a (le_of_lt (lt_of_mul_lt_mul_right hab hLa.le))
      · simp only [hab, if_false]
        exact main a b (le_of_mul_le_mul_right (not_lt.1 hab) hLa)
    · rw [if_pos hc]
      symm
      simp only [RayHit.pts]
      rw [Set.eq_empty_iff_forall_notMem]
      rintro x ⟨⟨t, ht, rfl⟩, ⟨u, hu0, hu1, hx⟩⟩
      apply hc
      simp [Prod.ext_iff] at hx
      simp only [ccw, Prod.fst_sub, Prod.snd_sub] at hpar ⊢
      linear_combination d.2 * hx.1 - d.1 * hx.2 - u * hpar
  | some x =>
    obtain ⟨⟨t, hxt⟩, ⟨u, hxu⟩, huniq⟩ := hL.2 x hli
    have hne : ccw d (B - A) ≠ 0 := by
      intro h
      have := hL.1.2 (by simpa using h)
      rw [this] at hli; cases hli
    simp only [add_sub_cancel_left] at hxt huniq
    obtain ⟨hLt, ht⟩ := C08_timeOnRay p d hd t
    rw [← hxt] at ht hLt
    simp only
    have hα : ccw (A - p) d + u * (ccw (B - p) d - ccw (A - p) d) = 0 := by
      rw [hxt] at hxu
      simp [Prod.ext_iff] at hxu
      simp only [ccw, Prod.fst_sub, Prod.snd_sub]
      linear_combination d.1 * hxu.2 - d.2 * hxu.1
    have hαβ : ccw (B - p) d - ccw (A - p) d ≠ 0 := by
      intro h; apply hne
      simp only [ccw, Prod.fst_sub, Prod.snd_sub] at h ⊢
      linear_combination -h
    have honly : ∀ y ∈ rayPts p d ∩ segPts (A, B), y = x := by
      rintro y ⟨⟨s, _, hs⟩, ⟨v, _, _, hv⟩⟩
      exact huniq y ⟨s, hs⟩ ⟨v, hv⟩
    have hxmem : x ∈ rayPts p d ∩ segPts (A, B) → 0 ≤ t ∧ 0 ≤ u ∧ u ≤ 1 := by
      rintro ⟨⟨s, hs0, hs⟩, ⟨v, hv0, hv1, hv⟩⟩
      have e1 : s = t := ray_inj hd (hs.symm.trans hxt)
      have e2 : v = u := by
        have hAB : B - A ≠ 0 := by rintro h; rw [h] at hne; simp [ccw] at hne
        exact ray_inj hAB (hv.symm.trans hxu)
      subst e1 e2
      exact ⟨hs0, hv0, hv1⟩
    generalize ccw (A - p) d = α at *
    generalize ccw (B - p) d = β at *
    rw [ht]
    split_ifs with c1 c2
    · symm
      simp only [RayHit.pts]
      rw [Set.eq_empty_iff_forall_notMem]
      intro y hy
      have := honly y hy
      subst this
      have := (hxmem hy).1
      exact absurd (mul_nonneg this hLt.le) (not_le.2 c1)
    · symm
      simp only [RayHit.pts]
      rw [Set.eq_empty_iff_forall_notMem]
      intro y hy
      have := honly y hy
      subst this
      obtain ⟨_, hu0, hu1⟩ := hxmem hy
      have e : (1 - u) * α + u * β = 0 := by linear_combination hα
      rcases pos_and_pos_or_neg_and_neg_of_mul_pos c2 with ⟨ha, hb⟩ | ⟨ha, hb⟩
      · rcases eq_or_lt_of_le hu0 with h0 | h0
        · subst h0; linarith
        · nlinarith [mul_pos h0 hb, mul_nonneg (by linarith : (0:K) ≤ 1 - u) ha.le]
      · rcases eq_or_lt_of_le hu0 with h0 | h0
        · subst h0; linarith
        · nlinarith [mul_pos h0 (neg_pos.2 hb),
            mul_nonneg (by linarith : (0:K) ≤ 1 - u) (neg_pos.2 ha).le]
    · simp only [RayHit.pts]
      have ht0 : 0 ≤ t := by
        by_contra h; push Not at h
        exact c1 (mul_neg_of_neg_of_pos h hLt)
      have hu : u = -α / (β - α) := by rw [eq_div_iff hαβ]; linear_combination hα
      have hsg : 0 ≤ u ∧ u ≤ 1 := by
        push Not at c2
        rcases lt_or_gt_of_ne hαβ with h | h
        · have h1 : 0 ≤ α := by
            by_contra hc; push Not at hc
            exact absurd (mul_pos_of_neg_of_neg hc (by linarith : β < 0)) (not_lt.2 c2)
          have h2 : β ≤ 0 := by
            by_contra hc; push Not at hc
            exact absurd (mul_pos (by linarith : 0 < α) hc) (not_lt.2 c2)
          rw [hu]
          exact ⟨div_nonneg_of_nonpos (by linarith) h.le, by rw [div_le_one_of_neg h]; linarith⟩
        · have h1 : α ≤ 0 := by
            by_contra hc; push Not at hc
            exact absurd (mul_pos hc (by linarith : 0 < β)) (not_lt.2 c2)
          have h2 : 0 ≤ β := by
            by_contra hc; push Not at hc
            exact absurd (mul_pos_of_neg_of_neg (by linarith : α < 0) hc) (not_lt.2 c2)
          rw [hu]
          exact ⟨div_nonneg (by linarith) h.le, by rw [div_le_one h]; linarith⟩
      ext y
      simp only [Set.mem_singleton_iff]
      constructor
      · rintro rfl
        exact ⟨⟨t, ht0, hxt⟩, ⟨u, hsg.1, hsg.2, hxu⟩⟩
      · exact honly y

/-- C08: the segment returned by `ray_segment_intersection` is listed in the order in which the ray
runs through it. -/
theorem C08_raySegment_ordered (p d : Vec K) (hd : d ≠ 0) (seg : Vec K × Vec K) (a b : Vec K)
    (h : raySegmentIntersection p d seg = .segment a b) :
    ∃ s t : K, 0 ≤ s ∧ s ≤ t ∧ a = p + s • d ∧ b = p + t • d := by
  obtain ⟨A, B⟩ := seg
  unfold raySegmentIntersection at h
  simp only at h
  have hL2 : ∀ q r, (timeOnRay p d q).2 = (timeOnRay p d r).2 := by
    intro q r
    unfold timeOnRay; by_cases h1 : d.1 = 0 <;> simp [h1] <;> split_ifs <;> rfl
  have hL : 0 < (timeOnRay p d A).2 := by
    have := (C08_timeOnRay p d hd 0).1
    rwa [hL2 _ A] at this
  cases hli : lineIntersection p (p + d) A B with
  | none =>
    rw [hli] at h
    simp only at h
    generalize (timeOnRay p d A).1 = u at *
    generalize (timeOnRay p d B).1 = v at *
    generalize (timeOnRay p d A).2 = L at *
    have main : ∀ u v : K, u ≤ v →
          (if v < 0 then (RayHit.none : RayHit K)
            else if v = 0 then .point p
            else if u / L < 0 then .segment p (p + (v / L) • d)
            else .segment (p + (u / L) • d) (p + (v / L) • d)) = .segment a b →
          ∃ s t : K, 0 ≤ s ∧ s ≤ t ∧ a = p + s • d ∧ b = p + t • d := by
      intro u v huv h
      split_ifs at h with c1 c2 c3
      · cases h
        exact ⟨0, v / L, le_rfl, div_nonneg (not_lt.1 c1) hL.le, by simp, rfl⟩
      · cases h
        exact ⟨u / L, v / L, not_lt.1 c3, by gcongr, rfl, rfl⟩
    by_cases hc : ccw d (A - p) ≠ 0
    · simp [hc] at h
    · rw [if_neg hc] at h
      by_cases hvu : v < u
      · simp only [hvu, if_true] at h
        exact main _ _ hvu.le h
      · simp only [hvu, if_false] at h
        exact main _ _ (not_lt.1 hvu) h
  | some x =>
    rw [hli] at h
    simp only at h
    split_ifs at h

example : ((1, 0) : Vec ℚ) ≠ 0 := by simp

/-! ### Slope -/

theorem slope_aux (x y : K) (h : 0 < x * y) :
    ∃ δ : K, 0 < δ ∧ ∀ ε : K, 0 < ε → ε < δ →
      0 < (x - ε * y) * (y + ε * x) ∧ 0 < (x + ε * y) * (y - ε * x) := by
  have hS : 0 ≤ x * x + y * y := add_nonneg (mul_self_nonneg _) (mul_self_nonneg _)
  have hcS : 0 < x * y + (x * x + y * y) := by linarith
  refine ⟨x * y / (x * y + (x * x + y * y)), by positivity, ?_⟩
  intro ε h0 h1
  rw [lt_div_iff₀ hcS] at h1
  have hε1 : ε < 1 := by
    by_contra hc; push Not at hc
    nlinarith
  have hεc : ε * ε * (x * y) ≤ ε * (x * y) := by nlinarith [mul_nonneg h0.le h.le]
  constructor
  · nlinarith [mul_nonneg h0.le (mul_self_nonneg x), mul_nonneg h0.le (mul_self_nonneg y)]
  · nlinarith [mul_nonneg h0.le (mul_self_nonneg x), mul_nonneg h0.le (mul_self_nonneg y)]

/-- C57: `slope(a, rotate)` for `rotate = 1` or `-1` is the sign of the slope of `a` after rotating
it counterclockwise (clockwise) by an arbitrarily small amount; the vector `a` rotated by a small angle is, up to scaling,
`a + ε J a` with `J(x, y) = (-y, x)` and `ε` of the sign of `rotate`. -/
theorem C57_slope (a : Vec K) (ha : a ≠ 0) (rotate : Int) (hr : rotate = 1 ∨ rotate = -1) :
    ∃ r, slope a rotate = some r ∧ (r = 1 ∨ r = -1) ∧
      ∃ δ : K, 0 < δ ∧ ∀ ε : K, 0 < ε → ε < δ →
        0 < (r : K) * ((a.1 - rotate * ε * a.2) * (a.2 + rotate * ε * a.1)) := by
  obtain ⟨x, y⟩ := a
  have h0 : ¬ (x = 0 ∧ y = 0) := fun h => ha (Prod.ext h.1 h.2)
  unfold slope
  simp only [h0, if_false]
  by_cases hp : (x > 0 ∧ y > 0) ∨ (x < 0 ∧ y < 0)
  · rw [if_pos hp]
    have : 0 < x * y := by
      rcases hp with ⟨h1, h2⟩ | ⟨h1, h2⟩
      · exact mul_pos h1 h2
      · exact mul_pos_of_neg_of_neg h1 h2
    obtain ⟨δ, hδ, H⟩ := slope_aux x y this
    refine ⟨1, rfl, Or.inl rfl, δ, hδ, fun ε h1 h2 => ?_⟩
    have := H ε h1 h2
    rcases hr with rfl | rfl
    · simpa using this.1
    · simpa [sub_eq_add_neg] using this.2
  rw [if_neg hp]
  by_cases hn : (x > 0 ∧ y < 0) ∨ (x < 0 ∧ y > 0)
  · rw [if_pos hn]
    have : 0 < x * -y := by
      rcases hn with ⟨h1, h2⟩ | ⟨h1, h2⟩
      · exact mul_pos h1 (by linarith)
      · exact mul_pos_of_neg_of_neg h1 (by linarith)
    obtain ⟨δ, hδ, H⟩ := slope_aux x (-y) this
    refine ⟨-1, rfl, Or.inr rfl, δ, hδ, fun ε h1 h2 => ?_⟩
    have := H ε h1 h2
    rcases hr with rfl | rfl
    · have e := this.2
      push_cast; nlinarith
    · have e := this.1
      push_cast; nlinarith
  rw [if_neg hn]
  have hxy : x = 0 ∨ y = 0 := by
    by_contra h; push Not at h
    rcases lt_or_gt_of_ne h.1 with h1 | h1 <;> rcases lt_or_gt_of_ne h.2 with h2 | h2 <;> tauto
  by_cases hx : x = 0
  · have hy : y ≠ 0 := fun h => h0 ⟨hx, h⟩
    have hyy := mul_self_pos.2 hy
    subst hx
    rcases hr with rfl | rfl
    · refine ⟨-1, by simp, Or.inr rfl, 1, one_pos, fun ε h1 h2 => ?_⟩
      push_cast; nlinarith [mul_pos h1 hyy]
    · refine ⟨1, by simp [hy], Or.inl rfl, 1, one_pos, fun ε h1 h2 => ?_⟩
      push_cast; nlinarith [mul_pos h1 hyy]
  · have hy := hxy.resolve_left hx
    subst hy
    have hxx := mul_self_pos.2 hx
    rcases hr with rfl | rfl
    · refine ⟨1, by simp [hx], Or.inl rfl, 1, one_pos, fun ε h1 h2 => ?_⟩
      push_cast; nlinarith [mul_pos h1 hxx]
    · refine ⟨-1, by simp, Or.inr rfl, 1, one_pos, fun ε h1 h2 => ?_⟩
      push_cast; nlinarith [mul_pos h1 hxx]

/-- C57: zero vectors are rejected. -/
theorem C57_slope_zero (rotate : Int) : slope (0 : Vec K) rotate = none := by simp [slope]

end
end Flat
