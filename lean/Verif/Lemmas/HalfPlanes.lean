import Verif.Lemmas.HalfSpaceSort

/-!
# Locally convex sequences of half planes

Helper lemmas about `Verif.Model.HyperbolicPolygon`: half planes that are sorted by the directions of their normals and that all show up on the boundary between their neighbours.
-/

namespace Flat
namespace Hyp

variable {K : Type} [Field K] [LinearOrder K] [IsStrictOrderedRing K]

/-- The determinant of the equations of three lines. -/
def det3 (A B C : Geo K) : K := A.a * B.cross C + B.a * C.cross A + C.a * A.cross B

omit [LinearOrder K] [IsStrictOrderedRing K] in
theorem det3_val (A B C : Geo K) (z : K × K) : A.val z * B.cross C + B.val z * C.cross A + C.val z * A.cross B = det3 A B C := by
  simp only [det3, Geo.val, Geo.cross]; ring

/-- A half plane and the closure of its complement. -/
def Opposite (g h : Geo K) : Prop := ∃ s, 0 < s ∧ h = Geo.smul s g.neg

theorem Opposite.cross {g h : Geo K} (ho : Opposite g h) : g.cross h = 0 := by
  obtain ⟨s, -, rfl⟩ := ho
  simp only [Geo.cross, Geo.smul, Geo.neg]; ring

theorem Opposite.val {g h : Geo K} (ho : Opposite g h) : ∃ s, 0 < s ∧ ∀ z, h.val z = -(s * g.val z) := by
  obtain ⟨s, hs, rfl⟩ := ho
  exact ⟨s, hs, fun z => by simp only [Geo.val, Geo.smul, Geo.neg]; ring⟩

theorem Opposite.symm {g h : Geo K} (ho : Opposite g h) : Opposite h g := by
  obtain ⟨s, hs, rfl⟩ := ho
  refine ⟨s⁻¹, inv_pos.mpr hs, ?_⟩
  ext <;> simp only [Geo.smul, Geo.neg] <;> field_simp

theorem Opposite.det3 {A B C : Geo K} (ho : Opposite A C) : det3 A B C = 0 := by
  obtain ⟨s, hs, rfl⟩ := ho
  simp only [Hyp.det3, Geo.cross, Geo.smul, Geo.neg]; ring

omit [IsStrictOrderedRing K] in
theorem exists_inter {g h : Geo K} (h0 : g.cross h ≠ 0) : ∃ v, g.inter h = some v ∧ g.val v = 0 ∧ h.val v = 0 := by
  have h1 : g.inter h = some ((-h.c * g.a + g.c * h.a) / g.cross h, (h.b * g.a - g.b * h.a) / g.cross h) := by
    simp only [Geo.inter]
    rw [if_neg (by simpa [Geo.cross] using h0)]
    rfl
  refine ⟨_, h1, ?_, ?_⟩
  · simp only [Geo.val]; field_simp; simp only [Geo.cross]; ring
  · simp only [Geo.val]; field_simp; simp only [Geo.cross]; ring

omit [IsStrictOrderedRing K] in
/-- Two lines that are not parallel meet in a single point. -/
theorem inter_eq {g h : Geo K} (h0 : g.cross h ≠ 0) {z w : K × K} (h1 : g.val z = 0) (h2 : h.val z = 0) (h3 : g.val w = 0) (h4 : h.val w = 0) : z = w := by
  simp only [Geo.val] at h1 h2 h3 h4
  simp only [Geo.cross] at h0
  ext
  · have : (g.b * h.c - g.c * h.b) * (z.1 - w.1) = 0 := by linear_combination h.c * h1 - g.c * h2 - h.c * h3 + g.c * h4
    rcases mul_eq_zero.mp this with h | h
    · exact absurd h h0
    · linear_combination h
  · have : (g.b * h.c - g.c * h.b) * (z.2 - w.2) = 0 := by linear_combination -h.b * h1 + g.b * h2 + h.b * h3 - g.b * h4
    rcases mul_eq_zero.mp this with h | h
    · exact absurd h h0
    · linear_combination h

/-- Along a locally convex chain, a point of the first line that is inside of the second half plane is inside of the last half plane. -/
theorem chain_forward : ∀ (k : ℕ) (Y : ℕ → Geo K) (z : K × K), 1 ≤ k → (∀ m < k, 0 < (Y m).cross (Y k)) → (∀ m < k, 0 < (Y m).cross (Y (m + 1))) →
    (∀ m, m + 2 ≤ k → 0 ≤ det3 (Y m) (Y (m + 1)) (Y (m + 2))) → (Y 0).val z = 0 → 0 ≤ (Y 1).val z → 0 ≤ (Y k).val z := by
  intro k
  induction k with
  | zero => intro Y z h; omega
  | succ k ih =>
    intro Y z _ hk hc hd h0 h1
    by_cases hk0 : k = 0
    · subst hk0; exact h1
    obtain ⟨v, -, v0, v1⟩ := exists_inter (hc 0 (by omega)).ne'
    have c01 := hc 0 (by omega)
    have hv2 : 0 ≤ (Y 2).val v := by
      have e := det3_val (Y 0) (Y 1) (Y 2) v
      rw [v0, v1] at e
      have := hd 0 (by omega)
      simp only [Nat.zero_add] at this c01
      by_contra hn
      push Not at hn
      nlinarith
    have key := ih (fun m => Y (m + 1)) v (by omega) (fun m hm => hk (m + 1) (by omega)) (fun m hm => hc (m + 1) (by omega)) (fun m hm => hd (m + 1) (by omega)) v1 hv2
    have e1 := det3_val (Y 0) (Y 1) (Y (k + 1)) z
    have e2 := det3_val (Y 0) (Y 1) (Y (k + 1)) v
    rw [h0] at e1
    rw [v0, v1] at e2
    have c0k := hk 0 (by omega)
    rw [cross_swap] at c0k
    simp only [Nat.zero_add] at c01
    by_contra hn
    push Not at hn
    nlinarith [mul_nonneg h1 (show 0 ≤ -(Y (k + 1)).cross (Y 0) by linarith), mul_nonneg key c01.le, mul_pos_of_neg_of_neg hn (neg_neg_of_pos c01)]

/-- The reflection at the diagonal. -/
def Geo.refl (g : Geo K) : Geo K := ⟨g.a, g.c, g.b⟩

omit [LinearOrder K] [IsStrictOrderedRing K] in
theorem refl_cross (g h : Geo K) : g.refl.cross h.refl = h.cross g := by simp only [Geo.refl, Geo.cross]; ring
omit [LinearOrder K] [IsStrictOrderedRing K] in
theorem refl_det3 (A B C : Geo K) : det3 A.refl B.refl C.refl = det3 C B A := by simp only [det3, Geo.refl, Geo.cross]; ring
omit [LinearOrder K] [IsStrictOrderedRing K] in
theorem refl_val (A : Geo K) (z : K × K) : A.refl.val (z.2, z.1) = A.val z := by simp only [Geo.refl, Geo.val]; ring

theorem chain_backward (k : ℕ) (Y : ℕ → Geo K) (z : K × K) (h1k : 1 ≤ k) (hk : ∀ m < k, 0 < (Y k).cross (Y m)) (hc : ∀ m < k, 0 < (Y (m + 1)).cross (Y m))
    (hd : ∀ m, m + 2 ≤ k → 0 ≤ det3 (Y (m + 2)) (Y (m + 1)) (Y m)) (h0 : (Y 0).val z = 0) (h1 : 0 ≤ (Y 1).val z) : 0 ≤ (Y k).val z := by
  have := chain_forward k (fun m => (Y m).refl) (z.2, z.1) h1k (fun m hm => by rw [refl_cross]; exact hk m hm) (fun m hm => by rw [refl_cross]; exact hc m hm)
    (fun m hm => by rw [refl_det3]; exact hd m hm) (by rw [refl_val]; exact h0) (by rw [refl_val]; exact h1)
  rwa [refl_val] at this

/-- A cyclic sequence of half planes, sorted by the directions of their normals, such that each line shows up on the boundary of the intersection with its neighbours. -/
structure Cyc (n : ℕ) (X : ℕ → Geo K) : Prop where
  pos : 0 < n
  per : ∀ i, X (i + n) = X i
  valid : ∀ i, (X i).Valid
  dist : ∀ i j, i < j → j < i + n → Distinct (X i) (X j)
  tri : ∀ i j k, i < j → j < k → k < i + n → Tri (X i) (X j) (X k)
  loc : ∀ i, 0 < (X i).cross (X (i + 1)) → 0 < (X (i + 1)).cross (X (i + 2)) → 0 < det3 (X i) (X (i + 1)) (X (i + 2)) ∨ Opposite (X i) (X (i + 2))

namespace Cyc

variable {n : ℕ} {X : ℕ → Geo K}

theorem per_mul (h : Cyc n X) (i k : ℕ) : X (i + k * n) = X i := by
  induction k with
  | zero => simp
  | succ k ih => rw [Nat.succ_mul, ← Nat.add_assoc, h.per, ih]

/-- Every half plane has an index following any given index. -/
theorem index (h : Cyc n X) (i j : ℕ) : ∃ k, i ≤ k ∧ k < i + n ∧ X k = X j := by
  have hn := h.pos
  -- the representative of j modulo n in the window
  refine ⟨i + (j + (n - i % n)) % n, by omega, by have := Nat.mod_lt (j + (n - i % n)) hn; omega, ?_⟩
  have hi := Nat.mod_lt i hn
  have e1 : X (i + (j + (n - i % n)) % n) = X (i + (j + (n - i % n)) % n + ((j + (n - i % n)) / n) * n) := (h.per_mul _ _).symm
  have e2 : i + (j + (n - i % n)) % n + ((j + (n - i % n)) / n) * n = j + (i / n + 1) * n := by
    have a1 := Nat.mod_add_div (j + (n - i % n)) n
    have a2 := Nat.mod_add_div i n
    rw [Nat.mul_comm] at a1
    rw [Nat.mul_comm] at a2
    rw [Nat.add_mul, Nat.one_mul]
    omega
  rw [e1, e2, h.per_mul]

theorem det3_nonneg (h : Cyc n X) (i : ℕ) (h1 : 0 < (X i).cross (X (i + 1))) (h2 : 0 < (X (i + 1)).cross (X (i + 2))) : 0 ≤ det3 (X i) (X (i + 1)) (X (i + 2)) := by
  rcases h.loc i h1 h2 with h | h
  · exact h.le
  · exact h.det3.ge

/-- The part of a line between its neighbours is on the boundary of the intersection of all half planes. -/
theorem edge_inside (h : Cyc n X) {p : K × K} (hp : ∀ j, 0 ≤ (X j).val p) {i : ℕ} {z : K × K} (hz : (X (i + 1)).val z = 0)
    (h1 : 0 < (X i).cross (X (i + 1)) → 0 ≤ (X i).val z) (h2 : 0 < (X (i + 1)).cross (X (i + 2)) → 0 ≤ (X (i + 2)).val z) (j : ℕ) : 0 ≤ (X j).val z := by
  obtain ⟨k, hk1, hk2, hk⟩ := h.index (i + 1) j
  rw [← hk]
  clear hk
  rcases eq_or_lt_of_le hk1 with rfl | hk1
  · exact hz.ge
  have hdist := h.dist _ _ hk1 hk2
  rcases lt_trichotomy ((X k).cross (X (i + 1))) 0 with hc | hc | hc
  · -- forward
    obtain ⟨d, rfl⟩ : ∃ d, k = i + 1 + d := ⟨k - (i + 1), by omega⟩
    have hA : ∀ m < d, 0 < (X (i + 1 + m)).cross (X (i + 1 + d)) := by
      intro m hm
      rw [cross_swap]
      rcases Nat.eq_zero_or_pos m with rfl | hm0
      · rw [Nat.add_zero]; linarith
      · have := (h.tri (i + 1) (i + 1 + m) (i + 1 + d) (by omega) (by omega) hk2).2.2 hc.le
        linarith
    have hB : ∀ m < d, 0 < (X (i + 1 + m)).cross (X (i + 1 + (m + 1))) := by
      intro m hm
      by_cases he : m + 1 = d
      · rw [he]; exact hA m hm
      · by_contra hn
        push Not at hn
        have := (h.tri (i + 1 + m) (i + 1 + (m + 1)) (i + 1 + d) (by omega) (by omega) (by omega)).1 hn
        have := hA m hm
        linarith
    refine chain_forward d (fun m => X (i + 1 + m)) z (by omega) hA hB (fun m hm => ?_) hz (h2 (hB 0 (by omega)))
    exact h.det3_nonneg (i + 1 + m) (hB m (by omega)) (hB (m + 1) (by omega))
  · -- parallel
    have hc' : (X (i + 1)).cross (X k) = 0 := by rw [cross_swap, hc, neg_zero]
    obtain ⟨hb, hcc⟩ := parallel_smul (h.valid (i + 1)).proper hc'
    have hs : (X (i + 1)).ndot (X k) / ((X (i + 1)).b * (X (i + 1)).b + (X (i + 1)).c * (X (i + 1)).c) < 0 := div_neg_of_neg_of_pos (hdist hc') (h.valid (i + 1)).proper.norm
    generalize (X (i + 1)).ndot (X k) / ((X (i + 1)).b * (X (i + 1)).b + (X (i + 1)).c * (X (i + 1)).c) = s at hb hcc hs
    have e : ∀ w, (X k).val w = (X k).a - s * (X (i + 1)).a + s * (X (i + 1)).val w := by
      intro w; simp only [Geo.val, hb, hcc]; ring
    have q1 := hp k
    have q2 := hp (i + 1)
    rw [e] at q1
    rw [e, hz]
    nlinarith
  · -- backward
    have hperi : X (i + 1 + n) = X (i + 1) := h.per _
    obtain ⟨d, hd⟩ : ∃ d, k + d = i + 1 + n := ⟨i + 1 + n - k, by omega⟩
    have hA : ∀ m < d, 0 < (X k).cross (X (i + 1 + n - m)) := by
      intro m hm
      rcases Nat.eq_zero_or_pos m with rfl | hm0
      · rw [Nat.sub_zero, hperi]; exact hc
      · by_contra hn
        push Not at hn
        have := (h.tri k (i + 1 + n - m) (i + 1 + n) (by omega) (by omega) (by omega)).1 hn
        rw [hperi] at this
        linarith
    have hB : ∀ m < d, 0 < (X (i + 1 + n - (m + 1))).cross (X (i + 1 + n - m)) := by
      intro m hm
      by_cases he : m + 1 = d
      · have : i + 1 + n - (m + 1) = k := by omega
        rw [this]; exact hA m hm
      · have := (h.tri k (i + 1 + n - (m + 1)) (i + 1 + n - m) (by omega) (by omega) (by omega)).2.2 (by rw [cross_swap]; have := hA m hm; linarith)
        rw [cross_swap]; linarith
    have e0 : X (i + 1 + n - 1) = X i := by
      have : i + 1 + n - 1 = i + n := by omega
      rw [this, h.per]
    have key := chain_backward d (fun m => X (i + 1 + n - m)) z (by omega)
      (fun m hm => by
        have : i + 1 + n - d = k := by omega
        simp only [this]; exact hA m hm) hB (fun m hm => ?_) (by simp only [Nat.sub_zero, hperi]; exact hz) (by
        have := hB 0 (by omega)
        simp only [Nat.zero_add, Nat.sub_zero, hperi] at this
        rw [e0] at this
        simp only [e0]
        exact h1 this)
    · have : i + 1 + n - d = k := by omega
      simp only [this] at key
      exact key
    · have a1 := hB m (by omega)
      have a2 := hB (m + 1) (by omega)
      have i1 : i + 1 + n - (m + 1) = i + 1 + n - (m + 2) + 1 := by omega
      have i2 : i + 1 + n - m = i + 1 + n - (m + 2) + 2 := by omega
      have i3 : i + 1 + n - (m + 1 + 1) = i + 1 + n - (m + 2) := by omega
      rw [i1, i2] at a1
      rw [i3, i1] at a2
      simp only [i1, i2]
      exact h.det3_nonneg _ a2 a1

end Cyc

end Hyp
end Flat
