import Verif.Model.Similarity
import Mathlib.Tactic.NormNum

/-!
# Properties of similarities (C01, C02, C03)
-/

namespace Flat
namespace Similarity

section group
variable {K : Type*} [Field K]

/-- C01: the product is composition of maps. -/
theorem C01_mul_call (g h : Similarity K) (hg : g.sign = 1 ∨ g.sign = -1)
    (hh : h.sign = 1 ∨ h.sign = -1) (v : Vec K) :
    (g.mul h).call v = g.call (h.call v) := by
  rcases hg with hg | hg <;> rcases hh with hh | hh <;>
    simp [call, mul, hg, hh] <;> constructor <;> ring

/-- C01: the product of well-formed similarities is well-formed. -/
theorem C01_mul_wf (g h : Similarity K) (hg : g.WF) (hh : h.WF) : (g.mul h).WF := by
  obtain ⟨hg0, hg⟩ := hg
  obtain ⟨hh0, hh⟩ := hh
  refine ⟨?_, ?_⟩
  · have h1 : (g.mul h).a * (g.mul h).a + (g.mul h).b * (g.mul h).b
        = (g.a * g.a + g.b * g.b) * (h.a * h.a + h.b * h.b) := by
      rcases hg with hg | hg <;> simp [mul, hg] <;> ring
    rw [h1]
    exact mul_ne_zero hg0 hh0
  · rcases hg with hg | hg <;> rcases hh with hh | hh <;> simp [mul, hg, hh]

/-- C01: multiplication is associative. -/
theorem C01_mul_assoc (g h k : Similarity K) (hg : g.WF) (hh : h.WF) :
    (g.mul h).mul k = g.mul (h.mul k) := by
  obtain ⟨_, hg⟩ := hg
  obtain ⟨_, hh⟩ := hh
  rcases hg with hg | hg <;> rcases hh with hh | hh <;>
    (ext <;> simp [mul, hg, hh] <;> ring)

theorem C01_one_call (v : Vec K) : (one : Similarity K).call v = v := by
  simp [one, call]

theorem C01_one_mul (g : Similarity K) : one.mul g = g := by
  ext <;> simp [one, mul]

theorem C01_mul_one (g : Similarity K) : g.mul one = g := by
  ext <;> simp [one, mul]

theorem det_ne_zero (g : Similarity K) (hg : g.WF) : g.det ≠ 0 := by
  obtain ⟨h0, hs⟩ := hg
  rcases hs with hs | hs
  · simpa [det, hs] using h0
  · intro h
    apply h0
    simp only [det, hs] at h
    push_cast at h
    linear_combination -h

/-- C01: the inverse is well-formed. -/
theorem C01_inv_wf (g : Similarity K) (hg : g.WF) : g.inv.WF := by
  have hd := det_ne_zero g hg
  obtain ⟨h0, hs⟩ := hg
  refine ⟨?_, by simpa [inv] using hs⟩
  have h1 : g.inv.a * g.inv.a + g.inv.b * g.inv.b = (g.a * g.a + g.b * g.b) / (g.det * g.det) := by
    rcases hs with hs | hs <;> simp [inv, hs] <;> field_simp
  rw [h1]
  exact div_ne_zero h0 (mul_ne_zero hd hd)

/-- C01: the inverse is a right inverse. -/
theorem C01_mul_inv (g : Similarity K) (hg : g.WF) : g.mul g.inv = one := by
  have hd := det_ne_zero g hg
  obtain ⟨h0, hs⟩ := hg
  rcases hs with hs | hs <;>
  · have hd' : g.det = (g.sign : K) * (g.a * g.a + g.b * g.b) := rfl
    simp [hs] at hd'
    ext <;> simp [mul, inv, one, hs] <;> field_simp <;> rw [hd'] <;> ring

/-- C01: the inverse is a left inverse. -/
theorem C01_inv_mul (g : Similarity K) (hg : g.WF) : g.inv.mul g = one := by
  have hd := det_ne_zero g hg
  obtain ⟨h0, hs⟩ := hg
  rcases hs with hs | hs <;>
  · have hd' : g.det = (g.sign : K) * (g.a * g.a + g.b * g.b) := rfl
    simp [hs] at hd'
    ext <;> simp [mul, inv, one, hs] <;> field_simp <;> rw [hd'] <;> ring

/-- C01: the quotient is multiplication with the inverse. -/
theorem C01_div_eq (g h : Similarity K) (hg : g.WF) (hh : h.WF) : g.div h = g.mul h.inv := by
  have hd := det_ne_zero h hh
  obtain ⟨_, hs⟩ := hg
  obtain ⟨_, hs'⟩ := hh
  rcases hs with hs | hs <;> rcases hs' with hs' | hs' <;>
    (ext <;> simp [mul, inv, div, hs, hs'] <;> field_simp <;> ring)

end group

section order
variable {K : Type*} [Field K] [LinearOrder K] [IsStrictOrderedRing K]

/-- C01: equality of similarities is equality as maps of the plane. -/
theorem C01_eq_iff (g h : Similarity K) (hg : g.WF) (hh : h.WF) :
    g = h ↔ ∀ v, g.call v = h.call v := by
  constructor
  · rintro rfl v; rfl
  · intro H
    have e0 := H (0, 0)
    have e1 := H (1, 0)
    have e2 := H (0, 1)
    obtain ⟨hg0, hs⟩ := hg
    obtain ⟨hh0, hs'⟩ := hh
    rcases hs with hs | hs <;> rcases hs' with hs' | hs' <;>
      simp [call, hs, hs'] at e0 e1 e2 <;> obtain ⟨e01, e02⟩ := e0 <;>
      obtain ⟨e11, e12⟩ := e1 <;> obtain ⟨e21, e22⟩ := e2
    · ext <;> first | linarith | (rw [hs, hs'])
    · exfalso
      have ha : g.a = 0 := by linarith
      have hb : g.b = 0 := by linarith
      exact hg0 (by rw [ha, hb]; ring)
    · exfalso
      have ha : g.a = 0 := by linarith
      have hb : g.b = 0 := by linarith
      exact hg0 (by rw [ha, hb]; ring)
    · ext <;> first | linarith | (rw [hs, hs'])

example : (⟨3, 4, 2, -1, -1⟩ : Similarity ℚ).WF := by
  refine ⟨by norm_num, Or.inr rfl⟩

/-- C02: translations. -/
theorem C02_isTranslation_iff (g : Similarity K) (hg : g.WF) :
    g.isTranslation = true ↔ ∃ d : Vec K, ∀ v, g.call v = v + d := by
  obtain ⟨hg0, hs⟩ := hg
  simp only [isTranslation, Bool.and_eq_true, decide_eq_true_eq]
  constructor
  · rintro ⟨⟨h1, h2⟩, h3⟩
    exact ⟨(g.s, g.t), fun v => by simp [call, h1, h2, h3, Prod.ext_iff]⟩
  · rintro ⟨d, H⟩
    have e0 := H (0, 0)
    have e1 := H (1, 0)
    have e2 := H (0, 1)
    rcases hs with hs | hs <;> simp [call, hs, Prod.ext_iff] at e0 e1 e2 <;>
      obtain ⟨e01, e02⟩ := e0 <;>
      obtain ⟨e11, e12⟩ := e1 <;> obtain ⟨e21, e22⟩ := e2
    · refine ⟨⟨hs, by linarith⟩, by linarith⟩
    · exfalso; linarith

/-- C02: half translations. -/
theorem C02_isHalfTranslation_iff (g : Similarity K) (hg : g.WF) :
    g.isHalfTranslation = true ↔
      (∀ v w, g.call v - g.call w = v - w) ∨ (∀ v w, g.call v - g.call w = -(v - w)) := by
  obtain ⟨hg0, hs⟩ := hg
  simp only [isHalfTranslation, Bool.and_eq_true, Bool.or_eq_true, decide_eq_true_eq]
  constructor
  · rintro ⟨⟨h1, h2 | h2⟩, h3⟩
    · left; intro v w; simp [call, h1, h2, h3, Prod.ext_iff]
    · right; intro v w
      have h2' : g.a = -1 := by linarith
      simp [call, h1, h2', h3, Prod.ext_iff]
      constructor <;> ring
  · rintro (H | H) <;>
    · have e1 := H (1, 0) (0, 0)
      have e2 := H (0, 1) (0, 0)
      rcases hs with hs | hs <;> simp [call, hs, Prod.ext_iff] at e1 e2 <;>
        obtain ⟨e11, e12⟩ := e1 <;> obtain ⟨e21, e22⟩ := e2
      · refine ⟨⟨hs, ?_⟩, by linarith⟩
        first | (left; linarith) | (right; linarith)
      · exfalso; linarith

/-- C02: a similarity multiplies squared distances by `|det|`. -/
theorem C02_distance_scaling (g : Similarity K) (hg : g.WF) (v w : Vec K) :
    normSq (g.call v - g.call w) = |g.det| * normSq (v - w) := by
  obtain ⟨hg0, hs⟩ := hg
  have hnn : (0 : K) ≤ g.a * g.a + g.b * g.b :=
    add_nonneg (mul_self_nonneg _) (mul_self_nonneg _)
  have hd : |g.det| = g.a * g.a + g.b * g.b := by
    rcases hs with hs | hs
    · simp only [det, hs, Int.cast_one, one_mul]
      exact abs_of_nonneg hnn
    · simp only [det, hs, Int.cast_neg, Int.cast_one, neg_mul, one_mul, abs_neg]
      exact abs_of_nonneg hnn
  rw [hd]
  rcases hs with hs | hs <;> simp [normSq, call, hs] <;> ring

/-- C02: isometries are the similarities preserving all distances. -/
theorem C02_isIsometry_iff (g : Similarity K) (hg : g.WF) :
    g.isIsometry = true ↔ ∀ v w, normSq (g.call v - g.call w) = normSq (v - w) := by
  have hsc := C02_distance_scaling g hg
  simp only [isIsometry, Bool.or_eq_true, decide_eq_true_eq]
  constructor
  · intro h v w
    rw [hsc]
    have : |g.det| = 1 := by
      rcases h with h | h
      · rw [h]; exact abs_one
      · rw [← abs_neg, h]; exact abs_one
    rw [this, one_mul]
  · intro H
    have e := H (1, 0) (0, 0)
    rw [hsc] at e
    simp [normSq] at e
    rcases abs_eq (zero_le_one' K) |>.1 e with h | h
    · exact Or.inl h
    · right; rw [h]; ring

/-- Twice the signed area of the triangle `u, v, w`; positive iff they are in counterclockwise
order. -/
def orient (u v w : Vec K) : K := (v.1 - u.1) * (w.2 - u.2) - (v.2 - u.2) * (w.1 - u.1)

/-- C02: `sign` tells whether the orientation of triples of points is kept. -/
theorem C02_isOrientable_iff (g : Similarity K) (hg : g.WF) :
    g.isOrientable = true ↔
      ∀ u v w, 0 < orient u v w → 0 < orient (g.call u) (g.call v) (g.call w) := by
  obtain ⟨hg0, hs⟩ := hg
  have hpos : (0 : K) < g.a * g.a + g.b * g.b :=
    lt_of_le_of_ne (add_nonneg (mul_self_nonneg _) (mul_self_nonneg _)) (Ne.symm hg0)
  simp only [isOrientable, decide_eq_true_eq]
  constructor
  · intro h u v w ho
    have : orient (g.call u) (g.call v) (g.call w) = (g.a * g.a + g.b * g.b) * orient u v w := by
      simp [orient, call, h]; ring
    rw [this]; positivity
  · intro H
    rcases hs with hs | hs
    · exact hs
    · exfalso
      have e := H (0, 0) (1, 0) (0, 1) (by simp [orient])
      simp [orient, call, hs] at e
      nlinarith

/-- C02: `det` is the factor by which signed areas are multiplied. -/
theorem C02_det (g : Similarity K) (hg : g.WF) (u v w : Vec K) :
    orient (g.call u) (g.call v) (g.call w) = g.det * orient u v w := by
  obtain ⟨hg0, hs⟩ := hg
  rcases hs with hs | hs <;> simp [orient, call, hs, det] <;> ring

/-- C02: `is_rotation` holds for the orientation preserving isometries with a fixed point. -/
theorem C02_isRotation_iff (g : Similarity K) (hg : g.WF) :
    g.isRotation = true ↔
      (∀ v w, normSq (g.call v - g.call w) = normSq (v - w)) ∧ g.isOrientable = true ∧
        ∃ c, g.call c = c := by
  rw [← C02_isIsometry_iff g hg]
  obtain ⟨hg0, hs⟩ := hg
  have hpos : (0 : K) < g.a * g.a + g.b * g.b :=
    lt_of_le_of_ne (add_nonneg (mul_self_nonneg _) (mul_self_nonneg _)) (Ne.symm hg0)
  simp only [isRotation, Bool.or_eq_true, Bool.and_eq_true, decide_eq_true_eq, isIsometry,
    isOrientable]
  constructor
  · rintro (h | ⟨h, h'⟩)
    · subst h
      exact ⟨Or.inl (by simp [det, one]), by simp [one], (0, 0), by simp [call, one]⟩
    · have hs1 : g.sign = 1 := by
        rcases hs with hs | hs
        · exact hs
        · exfalso; simp [det, hs] at h; linarith
      refine ⟨Or.inl h, hs1, ?_⟩
      have hn : (1 - g.a) * (1 - g.a) + g.b * g.b ≠ 0 := by
        intro h0
        have ha : 1 - g.a = 0 := by nlinarith [mul_self_nonneg (1 - g.a), mul_self_nonneg g.b]
        have hb : g.b = 0 := by
          have : g.b * g.b = 0 := by nlinarith [mul_self_nonneg (1 - g.a), mul_self_nonneg g.b]
          exact mul_self_eq_zero.1 this
        simp [isTranslation, hs1, hb] at h'
        exact h' (by linarith)
      refine ⟨(((1 - g.a) * g.s - g.b * g.t) / ((1 - g.a) * (1 - g.a) + g.b * g.b),
        (g.b * g.s + (1 - g.a) * g.t) / ((1 - g.a) * (1 - g.a) + g.b * g.b)), ?_⟩
      have hn' : (1 - g.a) ^ 2 + g.b ^ 2 ≠ 0 := by rwa [sq, sq]
      have hn'' : g.b ^ 2 + (1 - g.a) ^ 2 ≠ 0 := by rwa [add_comm]
      simp [call, hs1, Prod.ext_iff]
      constructor <;> field_simp <;> ring
  · rintro ⟨h, hs1, c, hc⟩
    have hd : g.det = 1 := by
      rcases h with h | h
      · exact h
      · exfalso; simp [det, hs1] at h; linarith
    by_cases ht : g.isTranslation = true
    · left
      simp [isTranslation, hs1] at ht
      simp [call, hs1, ht, Prod.ext_iff] at hc
      ext <;> simp [one, ht, hc, hs1]
    · right; exact ⟨hd, by simpa using ht⟩

end order
end Similarity

section vectors
variable {K : Type*} [Field K] [LinearOrder K] [IsStrictOrderedRing K]

theorem normSq_pos {u : Vec K} (hu : u ≠ 0) : 0 < normSq u := by
  have h : u.1 ≠ 0 ∨ u.2 ≠ 0 := by
    by_contra h
    push Not at h
    exact hu (Prod.ext h.1 h.2)
  unfold normSq
  rcases h with h | h
  · have := mul_self_pos.2 h
    nlinarith [mul_self_nonneg u.2]
  · have := mul_self_pos.2 h
    nlinarith [mul_self_nonneg u.1]

/-- C03: `similarity_from_vectors(u, v)` exists for `u ≠ 0`, it is a rotation-scaling mapping `u` to
`v`, and every rotation-scaling doing so is equal to it. -/
theorem C03_similarityFromVectors (u v : Vec K) (hu : u ≠ 0) :
    ∃ m, similarityFromVectors u v = some m ∧ m.IsRotScale ∧ m.mulVec u = v ∧
      ∀ m' : Mat2 K, m'.IsRotScale → m'.mulVec u = v → m' = m := by
  have hn := (normSq_pos hu).ne'
  simp only [normSq] at hn
  have hn2 : u.1 ^ 2 + u.2 ^ 2 ≠ 0 := by rwa [sq, sq]
  have uniq : ∀ m m' : Mat2 K, m.IsRotScale → m.mulVec u = v → m'.IsRotScale → m'.mulVec u = v →
      m' = m := by
    rintro ⟨a, b, c, d⟩ ⟨a', b', c', d'⟩ ⟨h1, h2⟩ h3 ⟨h1', h2'⟩ h3'
    rw [← h3] at h3'
    simp only [Mat2.mulVec, Prod.ext_iff] at h1 h2 h1' h2' h3'
    subst h1 h2 h1' h2'
    obtain ⟨e1, e2⟩ := h3'
    have ea : (d' - d) * (u.1 * u.1 + u.2 * u.2) = 0 := by linear_combination u.1 * e1 + u.2 * e2
    have ec : (c' - c) * (u.1 * u.1 + u.2 * u.2) = 0 := by linear_combination u.1 * e2 - u.2 * e1
    have ea' : d' = d := by
      have := (mul_eq_zero.1 ea).resolve_right hn; linarith
    have ec' : c' = c := by
      have := (mul_eq_zero.1 ec).resolve_right hn; linarith
    subst ea' ec'; rfl
  unfold similarityFromVectors
  by_cases huv : u = v
  · rw [if_pos huv]
    have h1 : (Mat2.one : Mat2 K).IsRotScale := by simp [Mat2.IsRotScale, Mat2.one]
    have h2 : (Mat2.one : Mat2 K).mulVec u = v := by simp [Mat2.mulVec, Mat2.one, huv]
    exact ⟨_, rfl, h1, h2, fun m' h1' h2' => uniq _ _ h1 h2 h1' h2'⟩
  · rw [if_neg huv]
    simp only [if_neg hn]
    refine ⟨_, rfl, ?_, ?_, ?_⟩
    · simp [Mat2.IsRotScale]
    · simp only [Mat2.mulVec, Prod.ext_iff]
      constructor <;> field_simp <;> ring
    · intro m' h1' h2'
      refine uniq _ _ ?_ ?_ h1' h2'
      · simp [Mat2.IsRotScale]
      · simp only [Mat2.mulVec, Prod.ext_iff]
        constructor <;> field_simp <;> ring

example : similarityFromVectors ((1, 2) : Vec ℚ) (2, -1) = some ⟨0, 1, -1, 0⟩ := by
  simp [similarityFromVectors]; norm_num

end vectors
end Flat
