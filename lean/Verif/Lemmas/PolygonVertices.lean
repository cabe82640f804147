import Verif.Lemmas.PolygonEdges

/-!
# Vertices of hyperbolic polygons

Helper lemmas about `Verif.Model.HyperbolicEdges`: what `vertices` returns.
-/

namespace Flat
namespace Hyp

section Count

variable {α : Type} [DecidableEq α] {lt : α → α → Bool}

theorem mergeTwo_count (x : α) : ∀ (n : ℕ) (A B merged : List α), (mergeTwo lt n A B merged).count x ≤ A.count x + B.count x + merged.count x
  | n, [], B, merged => by unfold mergeTwo; simp
  | n, a :: A, [], merged => by unfold mergeTwo; simp [List.count_cons]; omega
  | 0, a :: A, b :: B, merged => by unfold mergeTwo; omega
  | n + 1, a :: A, b :: B, merged => by
    rw [mergeTwo]
    have h1 := mergeTwo_count x n (a :: A) B (b :: merged)
    have h2 := mergeTwo_count x n A (b :: B) (a :: merged)
    have h3 := mergeTwo_count x n A (b :: B) merged
    simp only [List.count_cons] at h1 h2 h3 ⊢
    generalize (if (a == x) = true then 1 else 0) = d at *
    generalize (if (b == x) = true then 1 else 0) = e at *
    split_ifs <;> omega

theorem merge2_count (x : α) (A B : List α) : (merge2 lt A B).count x ≤ A.count x + B.count x := by
  have := mergeTwo_count (lt := lt) x (A.length + B.length) A.reverse B.reverse []
  simpa [merge2] using this

theorem mergeAll_count (x : α) : ∀ (n : ℕ) (sets : List (List α)), (mergeAll lt n sets).count x ≤ sets.flatten.count x
  | n, [] => by unfold mergeAll; simp
  | n, [s] => by unfold mergeAll; simp
  | n, [A, B] => by
    unfold mergeAll
    simpa using merge2_count (lt := lt) x A B
  | 0, a :: b :: c :: l => by unfold mergeAll; simp
  | n + 1, a :: b :: c :: l => by
    have e : ((a :: b :: c :: l).take ((a :: b :: c :: l).length / 2)).flatten ++ ((a :: b :: c :: l).drop ((a :: b :: c :: l).length / 2)).flatten = (a :: b :: c :: l).flatten := by
      rw [← List.flatten_append, List.take_append_drop]
    rw [mergeAll]
    · have h1 := merge2_count (lt := lt) x (mergeAll lt n ((a :: b :: c :: l).take ((a :: b :: c :: l).length / 2))) (mergeAll lt n ((a :: b :: c :: l).drop ((a :: b :: c :: l).length / 2)))
      have h2 := mergeAll_count x n ((a :: b :: c :: l).take ((a :: b :: c :: l).length / 2))
      have h3 := mergeAll_count x n ((a :: b :: c :: l).drop ((a :: b :: c :: l).length / 2))
      rw [← e, List.count_append]
      omega
    · simp
    · simp
    · simp

theorem orderedSet_nodup {l : List α} (h : l.Nodup) : (orderedSet lt l).Nodup := by
  have hfl : (l.map fun e => [e]).flatten = l := by
    clear h
    induction l with
    | nil => rfl
    | cons a l ih => simpa using ih
  rw [List.nodup_iff_count_le_one] at h ⊢
  intro x
  have := mergeAll_count (lt := lt) x l.length (l.map fun e => [e])
  rw [hfl] at this
  exact this.trans (h x)

end Count

variable {K F : Type} [Field K] [LinearOrder K] [IsStrictOrderedRing K] [Field F] [LinearOrder F] [IsStrictOrderedRing F]

/-! ### Collecting the end points of the edges -/

section Collect

variable {a b : ℕ → K × K}

omit [Field K] [IsStrictOrderedRing K] in
theorem mem_collect (v : K × K) : ∀ (k m : ℕ) (stop : K × K), v ∈ collectVertices stop ((List.range' m k).map fun i => (a i, b i)) →
    ∃ j, m ≤ j ∧ j < m + k ∧ (v = b j ∨ (v = a j ∧ (j = m → a j ≠ stop)))
  | 0, m, stop, h => by simp [collectVertices] at h
  | k + 1, m, stop, h => by
    rw [List.range'_succ, List.map_cons, collectVertices] at h
    have rec' : v ∈ collectVertices (b m) ((List.range' (m + 1) k).map fun i => (a i, b i)) → ∃ j, m ≤ j ∧ j < m + (k + 1) ∧ (v = b j ∨ (v = a j ∧ (j = m → a j ≠ stop))) := by
      intro h
      obtain ⟨j, h1, h2, h3⟩ := mem_collect v k (m + 1) (b m) h
      refine ⟨j, by omega, by omega, ?_⟩
      rcases h3 with h3 | ⟨h3, -⟩
      · exact .inl h3
      · exact .inr ⟨h3, fun h => by omega⟩
    by_cases hs : a m ≠ stop
    · rw [if_pos hs, List.mem_cons, List.mem_cons] at h
      rcases h with rfl | rfl | h
      · exact ⟨m, le_rfl, by omega, .inr ⟨rfl, fun _ => hs⟩⟩
      · exact ⟨m, le_rfl, by omega, .inl rfl⟩
      · exact rec' h
    · rw [if_neg hs, List.mem_cons] at h
      rcases h with rfl | h
      · exact ⟨m, le_rfl, by omega, .inl rfl⟩
      · exact rec' h

omit [Field K] [IsStrictOrderedRing K] in
theorem collect_mem (j : ℕ) : ∀ (k m : ℕ) (stop : K × K), m ≤ j → j < m + k →
    b j ∈ collectVertices stop ((List.range' m k).map fun i => (a i, b i)) ∧ (a j ∈ collectVertices stop ((List.range' m k).map fun i => (a i, b i)) ∨ a j = stop)
  | 0, m, stop, h1, h2 => by omega
  | k + 1, m, stop, h1, h2 => by
    rw [List.range'_succ, List.map_cons, collectVertices]
    rcases eq_or_lt_of_le h1 with rfl | h1
    · by_cases hs : a m ≠ stop
      · rw [if_pos hs]; simp
      · rw [if_neg hs]
        push Not at hs
        simp [hs]
    · obtain ⟨i1, i2⟩ := collect_mem j k (m + 1) (b m) (by omega) (by omega)
      by_cases hs : a m ≠ stop
      · rw [if_pos hs]
        refine ⟨by simp [i1], .inl ?_⟩
        rcases i2 with i2 | i2 <;> simp [i2]
      · rw [if_neg hs]
        refine ⟨by simp [i1], .inl ?_⟩
        rcases i2 with i2 | i2 <;> simp [i2]

omit [Field K] [IsStrictOrderedRing K] in
theorem collect_nodup {n : ℕ} (hab : ∀ i < n, a i ≠ b i) (ha : ∀ i < n, ∀ j < n, a i = a j → i = j) (hb : ∀ i < n, ∀ j < n, b i = b j → i = j)
    (h : ∀ i < n, ∀ j < n, a i = b j → i = j + 1 ∨ (i = 0 ∧ j = n - 1)) : ∀ (k m : ℕ) (stop : K × K), m + k = n → (m = 0 → stop = b (n - 1)) →
    (collectVertices stop ((List.range' m k).map fun i => (a i, b i))).Nodup
  | 0, m, stop, _, _ => by simp [collectVertices]
  | k + 1, m, stop, hk, hs => by
    rw [List.range'_succ, List.map_cons, collectVertices]
    have ih := collect_nodup hab ha hb h k (m + 1) (b m) (by omega) (by omega)
    have hbm : b m ∉ collectVertices (b m) ((List.range' (m + 1) k).map fun i => (a i, b i)) := by
      intro hm
      obtain ⟨j, h1, h2, h3⟩ := mem_collect _ _ _ _ hm
      rcases h3 with h3 | ⟨h3, h4⟩
      · have := hb m (by omega) j (by omega) h3; omega
      · rcases h j (by omega) m (by omega) h3.symm with h5 | ⟨h5, -⟩
        · exact h4 (by omega) h3.symm
        · omega
    by_cases hst : a m ≠ stop
    · rw [if_pos hst, List.nodup_cons, List.nodup_cons, List.mem_cons, not_or]
      refine ⟨⟨hab m (by omega), ?_⟩, hbm, ih⟩
      intro hm
      obtain ⟨j, h1, h2, h3⟩ := mem_collect _ _ _ _ hm
      rcases h3 with h3 | ⟨h3, -⟩
      · rcases h m (by omega) j (by omega) h3 with h5 | ⟨h5, h6⟩
        · omega
        · rw [h6] at h3
          exact hst (h3.trans (hs h5).symm)
      · have := ha m (by omega) j (by omega) h3; omega
    · rw [if_neg hst, List.nodup_cons]
      exact ⟨hbm, ih⟩

end Collect

/-! ### Extreme points -/

/-- A point that is on the circle or on two lines. -/
def Corner (l : List (Geo K)) (v : K × K) : Prop :=
  (∃ g ∈ l, g.val v = 0 ∧ v.1 * v.1 + v.2 * v.2 = 1) ∨ ∃ g ∈ l, ∃ h ∈ l, g.cross h ≠ 0 ∧ g.val v = 0 ∧ h.val v = 0

/-- A point of the closure of a polygon. -/
def PolyPoint (l : List (Geo K)) (v : K × K) : Prop := InDisk v ∧ ∀ g ∈ l, 0 ≤ g.val v

theorem polyPoint_shift {l : List (Geo K)} {u w : K × K} (hu : PolyPoint l u) (hw : PolyPoint l w) {t : K} (t0 : 0 ≤ t) (t1 : t ≤ 1) : PolyPoint l (shift u (w.1 - u.1, w.2 - u.2) t) := by
  constructor
  · have h1 := hu.1
    have h2 := hw.1
    unfold InDisk at h1 h2 ⊢
    simp only [shift]
    have e : (u.1 + t * (w.1 - u.1)) * (u.1 + t * (w.1 - u.1)) + (u.2 + t * (w.2 - u.2)) * (u.2 + t * (w.2 - u.2)) =
      (1 - t) * (u.1 * u.1 + u.2 * u.2) + t * (w.1 * w.1 + w.2 * w.2) - t * (1 - t) * ((w.1 - u.1) * (w.1 - u.1) + (w.2 - u.2) * (w.2 - u.2)) := by ring
    rw [e]
    have h3 : 0 ≤ t * (1 - t) * ((w.1 - u.1) * (w.1 - u.1) + (w.2 - u.2) * (w.2 - u.2)) :=
      mul_nonneg (mul_nonneg t0 (by linarith)) (add_nonneg (mul_self_nonneg _) (mul_self_nonneg _))
    have h4 := mul_le_mul_of_nonneg_left h2 t0
    have h5 := mul_le_mul_of_nonneg_left h1 (show 0 ≤ 1 - t by linarith)
    linarith
  · intro g hg
    have e : g.val (shift u (w.1 - u.1, w.2 - u.2) t) = (1 - t) * g.val u + t * g.val w := by simp only [Geo.val, shift]; ring
    rw [e]
    exact add_nonneg (mul_nonneg (by linarith) (hu.2 g hg)) (mul_nonneg t0 (hw.2 g hg))

/-- A corner is not between two other points of the polygon. -/
theorem corner_extreme {l : List (Geo K)} {u w : K × K} (hu : PolyPoint l u) (hw : PolyPoint l w) (hne : u ≠ w) {t : K} (t0 : 0 < t) (t1 : t < 1) : ¬Corner l (shift u (w.1 - u.1, w.2 - u.2) t) := by
  have hv : ∀ (h : Geo K), h.val (shift u (w.1 - u.1, w.2 - u.2) t) = (1 - t) * h.val u + t * h.val w := by
    intro h; simp only [Geo.val, shift]; ring
  have hz : ∀ g ∈ l, g.val (shift u (w.1 - u.1, w.2 - u.2) t) = 0 → g.val u = 0 ∧ g.val w = 0 := by
    intro g hg h0
    rw [hv] at h0
    have h1 := mul_nonneg (show 0 ≤ 1 - t by linarith) (hu.2 g hg)
    have h2 := mul_nonneg t0.le (hw.2 g hg)
    constructor
    · exact (mul_eq_zero.mp (show (1 - t) * g.val u = 0 by linarith)).resolve_left (by linarith)
    · exact (mul_eq_zero.mp (show t * g.val w = 0 by linarith)).resolve_left t0.ne'
  rintro (⟨g, -, -, hc⟩ | ⟨g, hg, h, hh, hgh, h1, h2⟩)
  · have h1 := hu.1
    have h2 := hw.1
    unfold InDisk at h1 h2
    simp only [shift] at hc
    have e : (u.1 + t * (w.1 - u.1)) * (u.1 + t * (w.1 - u.1)) + (u.2 + t * (w.2 - u.2)) * (u.2 + t * (w.2 - u.2)) =
      (1 - t) * (u.1 * u.1 + u.2 * u.2) + t * (w.1 * w.1 + w.2 * w.2) - t * (1 - t) * ((w.1 - u.1) * (w.1 - u.1) + (w.2 - u.2) * (w.2 - u.2)) := by ring
    rw [e] at hc
    have hd : 0 < (w.1 - u.1) * (w.1 - u.1) + (w.2 - u.2) * (w.2 - u.2) := by
      by_contra hn
      have s1 := mul_self_nonneg (w.1 - u.1)
      have s2 := mul_self_nonneg (w.2 - u.2)
      have z1 : (w.1 - u.1) * (w.1 - u.1) = 0 := by linarith
      have z2 : (w.2 - u.2) * (w.2 - u.2) = 0 := by linarith
      apply hne
      ext
      · linarith [mul_self_eq_zero.mp z1]
      · linarith [mul_self_eq_zero.mp z2]
    have h3 := mul_pos (mul_pos t0 (show 0 < 1 - t by linarith)) hd
    have h4 := mul_le_mul_of_nonneg_left h2 t0.le
    have h5 := mul_le_mul_of_nonneg_left h1 (show 0 ≤ 1 - t by linarith)
    linarith
  · obtain ⟨a1, a2⟩ := hz g hg h1
    obtain ⟨b1, b2⟩ := hz h hh h2
    exact hne (inter_eq hgh a1 b1 a2 b2)

/-- Corners seen from the leftmost corner are not collinear. -/
theorem corner_area {l : List (Geo K)} {r p q : K × K} (hr : PolyPoint l r) (hp : PolyPoint l p) (hq : PolyPoint l q) (cp : Corner l p) (cq : Corner l q) (ap : After r p) (aq : After r q) (hne : p ≠ q) : area r p q ≠ 0 := by
  intro h0
  -- p - r = s (q - r)
  obtain ⟨s, s0, e1, e2⟩ : ∃ s, 0 < s ∧ p.1 - r.1 = s * (q.1 - r.1) ∧ p.2 - r.2 = s * (q.2 - r.2) := by
    simp only [area] at h0
    rcases ap with ap | ⟨ap, ap'⟩
    · rcases aq with aq | ⟨aq, aq'⟩
      · have hd : 0 < q.1 - r.1 := by linarith
        refine ⟨(p.1 - r.1) / (q.1 - r.1), div_pos (by linarith) hd, by field_simp, ?_⟩
        rw [div_mul_eq_mul_div, eq_div_iff hd.ne']
        linarith
      · exfalso
        have : (p.1 - r.1) * (q.2 - r.2) = 0 := by rw [← aq] at h0; linarith
        rcases mul_eq_zero.mp this with h | h <;> linarith
    · rcases aq with aq | ⟨aq, aq'⟩
      · exfalso
        have : (p.2 - r.2) * (q.1 - r.1) = 0 := by rw [← ap] at h0; linarith
        rcases mul_eq_zero.mp this with h | h <;> linarith
      · have hd : 0 < q.2 - r.2 := by linarith
        exact ⟨(p.2 - r.2) / (q.2 - r.2), div_pos (by linarith) hd, by rw [← ap, ← aq]; simp, by field_simp⟩
  have hrne : ∀ {x : K × K}, After r x → r ≠ x := by
    rintro x (h | ⟨-, h⟩) rfl <;> exact lt_irrefl _ h
  rcases lt_trichotomy s 1 with h | h | h
  · refine corner_extreme hr hq (hrne aq) s0 h ?_
    have : shift r (q.1 - r.1, q.2 - r.2) s = p := by
      ext <;> simp only [shift] <;> linarith
    rwa [this]
  · rw [h] at e1 e2
    exact hne (by ext <;> linarith)
  · refine corner_extreme hr hp (hrne ap) (inv_pos.mpr s0) (inv_lt_one_of_one_lt₀ h) ?_
    have : shift r (p.1 - r.1, p.2 - r.2) s⁻¹ = q := by
      ext <;> simp only [shift, e1, e2] <;> field_simp <;> ring
    rwa [this]

/-- Three corners in counterclockwise order around a fourth one are in counterclockwise order. -/
theorem corner_conv {l : List (Geo K)} {r x y z : K × K} (hr : PolyPoint l r) (hx : PolyPoint l x) (hz : PolyPoint l z) (cy : Corner l y)
    (h1 : 0 < area r x y) (h2 : 0 < area r y z) (h3 : 0 < area r x z) : 0 < area x y z := by
  by_contra hn
  push Not at hn
  have e : area x y z = area r x y + area r y z - area r x z := by simp only [area]; ring
  set A := area r x z with hA
  set α := area r y z / A with hα
  set β := area r x y / A with hβ
  have α0 : 0 < α := div_pos h2 h3
  have β0 : 0 < β := div_pos h1 h3
  have hs : α + β ≤ 1 := by
    rw [hα, hβ, ← add_div, div_le_one h3]; linarith
  have s0 : 0 < α + β := by linarith
  have y1 : y.1 = r.1 + α * (x.1 - r.1) + β * (z.1 - r.1) := by
    rw [hα, hβ]
    field_simp
    simp only [hA, area]; ring
  have y2 : y.2 = r.2 + α * (x.2 - r.2) + β * (z.2 - r.2) := by
    rw [hα, hβ]
    field_simp
    simp only [hA, area]; ring
  have t0 : 0 < β / (α + β) := div_pos β0 s0
  have t1 : β / (α + β) < 1 := by rw [div_lt_one s0]; linarith
  have hxz : x ≠ z := by
    rintro rfl
    have : A = 0 := by simp only [hA, area]; ring
    linarith
  have hw := polyPoint_shift hx hz t0.le t1.le
  have hw' := corner_extreme hx hz hxz t0 t1
  have w1 : (shift x (z.1 - x.1, z.2 - x.2) (β / (α + β))).1 * (α + β) = α * x.1 + β * z.1 := by
    simp only [shift]; field_simp; ring
  have w2 : (shift x (z.1 - x.1, z.2 - x.2) (β / (α + β))).2 * (α + β) = α * x.2 + β * z.2 := by
    simp only [shift]; field_simp; ring
  generalize shift x (z.1 - x.1, z.2 - x.2) (β / (α + β)) = w at hw hw' w1 w2
  have hy : shift r (w.1 - r.1, w.2 - r.2) (α + β) = y := by
    ext
    · simp only [shift]; rw [y1]; linear_combination w1
    · simp only [shift]; rw [y2]; linear_combination w2
  rcases eq_or_lt_of_le hs with hs1 | hs1
  · rw [hs1] at hy
    apply hw'
    have : w = y := by
      rw [← hy]
      ext <;> simp [shift]
    rwa [this]
  · have hrw : r ≠ w := by
      rintro rfl
      have : r = y := by rw [← hy]; ext <;> simp [shift]
      rw [← this] at h1
      have : area r x r = 0 := by simp only [area]; ring
      linarith
    refine corner_extreme hr hw hrw s0 hs1 ?_
    rwa [hy]

end Hyp
end Flat
