import Verif.Lemmas.CylinderSides

/-!
# Triangles and trapezoids in a strip
-/

namespace Flat
variable {K : Type} [Field K] [LinearOrder K] [IsStrictOrderedRing K]

namespace Poly

theorem all_sides (p : Poly K) (hp : 0 < p.length) (X : Vec K) (Q : K → Prop) : (∀ k, Q (p.left X k)) ↔ ∀ k < p.length, Q (p.left X k) := by
  refine ⟨fun h k _ => h k, fun h k => ?_⟩
  have := h (k % p.length) (Nat.mod_lt _ hp)
  unfold left at this ⊢
  rwa [edge_mod, vertex_mod] at this

theorem sides3 (a b c X : Vec K) (Q : K → Prop) : (∀ k, Q (left [a, b, c] X k)) ↔ Q (ccw (b - a) (X - a)) ∧ Q (ccw (c - b) (X - b)) ∧ Q (ccw (a - c) (X - c)) := by
  rw [all_sides _ (by simp)]
  constructor
  · intro h
    have h2 := h 2 (by simp)
    have e2 : left [a, b, c] X 2 = ccw (a - c) (X - c) := by simp [left, edge, vertex]
    exact ⟨h 0 (by simp), h 1 (by simp), e2 ▸ h2⟩
  · rintro ⟨h0, h1, h2⟩ k hk
    simp only [List.length_cons, List.length_nil] at hk
    interval_cases k
    · exact h0
    · exact h1
    · have e2 : left [a, b, c] X 2 = ccw (a - c) (X - c) := by simp [left, edge, vertex]
      exact e2 ▸ h2

theorem sides4 (a b c d X : Vec K) (Q : K → Prop) : (∀ k, Q (left [a, b, c, d] X k)) ↔
    Q (ccw (b - a) (X - a)) ∧ Q (ccw (c - b) (X - b)) ∧ Q (ccw (d - c) (X - c)) ∧ Q (ccw (a - d) (X - d)) := by
  rw [all_sides _ (by simp)]
  constructor
  · intro h
    have h3 := h 3 (by simp)
    have e3 : left [a, b, c, d] X 3 = ccw (a - d) (X - d) := by simp [left, edge, vertex]
    exact ⟨h 0 (by simp), h 1 (by simp), h 2 (by simp), e3 ▸ h3⟩
  · rintro ⟨h0, h1, h2, h3⟩ k hk
    simp only [List.length_cons, List.length_nil] at hk
    interval_cases k
    · exact h0
    · exact h1
    · exact h2
    · have e3 : left [a, b, c, d] X 3 = ccw (a - d) (X - d) := by simp [left, edge, vertex]
      exact e3 ▸ h3

theorem convex_of_vertices {p : Poly K} (hp : 0 < p.length) (h : ∀ j < p.length, ∀ k, 0 ≤ p.left (p.vertex j) k) : p.Convex := by
  intro k j
  have := h (j % p.length) (Nat.mod_lt _ hp) k
  rwa [vertex_mod] at this

/-- The polygon that the code creates between two edges. -/
def cutPoly (a b c d : Vec K) : Poly K := [a, b] ++ (if c ≠ b then [c] else []) ++ (if d ≠ a then [d] else [])

/-- Any point in the coordinates along the edge and along the line. -/
theorem exists_coords {u w : Vec K} (h : ccw u w ≠ 0) (x : Vec K) : ∃ y z : K, x = y • w + z • u := by
  refine ⟨ccw u x / ccw u w, ccw x w / ccw u w, ?_⟩
  have h1 : x.1 = ccw u x / ccw u w * w.1 + ccw x w / ccw u w * u.1 := by
    rw [div_mul_eq_mul_div, div_mul_eq_mul_div, ← add_div, eq_div_iff h]
    unfold ccw; ring
  have h2 : x.2 = ccw u x / ccw u w * w.2 + ccw x w / ccw u w * u.2 := by
    rw [div_mul_eq_mul_div, div_mul_eq_mul_div, ← add_div, eq_div_iff h]
    unfold ccw; ring
  ext
  · simpa using h1
  · simpa using h2

theorem cut_sides {a b u : Vec K} (τ σ y z : K) :
    ccw (b - a) (b + y • (a - b) + z • u - a) = z * ccw u (a - b) ∧
    ccw (b + τ • u - b) (b + y • (a - b) + z • u - b) = τ * y * ccw u (a - b) ∧
    ccw (a + σ • u - (b + τ • u)) (b + y • (a - b) + z • u - (b + τ • u)) = (τ + (σ - τ) * y - z) * ccw u (a - b) ∧
    ccw (a - (a + σ • u)) (b + y • (a - b) + z • u - (a + σ • u)) = σ * (1 - y) * ccw u (a - b) := by
  unfold ccw
  simp only [Prod.fst_sub, Prod.snd_sub, Prod.fst_add, Prod.snd_add, Prod.smul_fst, Prod.smul_snd, smul_eq_mul]
  refine ⟨by ring, by ring, by ring, by ring⟩

/-- The polygon that the code creates between two edges is a triangle or a trapezoid that consists of the lines between the two edges. -/
theorem cutPoly_spec {a b u : Vec K} {τ σ : K} (h : 0 < ccw u (a - b)) (τ0 : 0 ≤ τ) (σ0 : 0 ≤ σ) (hpos : 0 < τ + σ) :
    (cutPoly a b (b + τ • u) (a + σ • u)).Valid ∧ 2 * area (cutPoly a b (b + τ • u) (a + σ • u)) = (τ + σ) * ccw u (a - b) ∧
    ∀ X, (cutPoly a b (b + τ • u) (a + σ • u)).pointPosition X = .interior ↔ ∃ y s : K, 0 < y ∧ y < 1 ∧ 0 < s ∧ s < 1 ∧
      X = (b + y • (a - b)) + s • (((b + τ • u) + y • ((a + σ • u) - (b + τ • u))) - (b + y • (a - b))) := by
  have hu : u ≠ 0 := by rintro rfl; simp [ccw] at h
  have hc : b + τ • u ≠ b ↔ τ ≠ 0 := by simp [hu]
  have hd : a + σ • u ≠ a ↔ σ ≠ 0 := by simp [hu]
  have hshape : ∀ y s : K, (b + y • (a - b)) + s • (((b + τ • u) + y • ((a + σ • u) - (b + τ • u))) - (b + y • (a - b))) =
      b + y • (a - b) + (s * (τ + (σ - τ) * y)) • u := by intro y s; module
  have hX : ∀ X, ∃ y z : K, X = b + y • (a - b) + z • u := by
    intro X
    obtain ⟨y, z, hyz⟩ := exists_coords h.ne' (X - b)
    exact ⟨y, z, by rw [add_assoc, ← hyz]; abel⟩
  have huniq : ∀ y z y' z' : K, b + y • (a - b) + z • u = b + y' • (a - b) + z' • u → y = y' ∧ z = z' := by
    intro y z y' z' he
    have e1 : (y - y') • (a - b) + (z - z') • u = 0 := by
      have := sub_eq_zero.2 he
      rw [← this]; module
    have e2 : (y - y') * ccw u (a - b) = 0 := by
      have : ccw u ((y - y') • (a - b) + (z - z') • u) = (y - y') * ccw u (a - b) := by
        unfold ccw; simp only [Prod.fst_sub, Prod.snd_sub, Prod.fst_add, Prod.snd_add, Prod.smul_fst, Prod.smul_snd, smul_eq_mul]; ring
      rw [← this, e1]; simp [ccw]
    have e3 := (mul_eq_zero.1 e2).resolve_right h.ne'
    rw [e3, zero_smul, zero_add, smul_eq_zero] at e1
    exact ⟨sub_eq_zero.1 e3, sub_eq_zero.1 (e1.resolve_right hu)⟩
  have hgoal : ∀ X y z, X = b + y • (a - b) + z • u → ((∃ y s : K, 0 < y ∧ y < 1 ∧ 0 < s ∧ s < 1 ∧
      X = (b + y • (a - b)) + s • (((b + τ • u) + y • ((a + σ • u) - (b + τ • u))) - (b + y • (a - b)))) ↔
      0 < y ∧ y < 1 ∧ 0 < z ∧ z < τ + (σ - τ) * y) := by
    intro X y z hXe
    constructor
    · rintro ⟨y', s, h1, h2, h3, h4, h5⟩
      rw [hshape, hXe] at h5
      obtain ⟨rfl, rfl⟩ := huniq _ _ _ _ h5
      have hp : 0 < τ + (σ - τ) * y := by
        have e : τ + (σ - τ) * y = τ * (1 - y) + σ * y := by ring
        rw [e]
        rcases τ0.lt_or_eq with ht | ht
        · exact add_pos_of_pos_of_nonneg (mul_pos ht (by linarith)) (mul_nonneg σ0 h1.le)
        · rw [← ht, zero_mul, zero_add]
          exact mul_pos (by linarith) h1
      exact ⟨h1, h2, mul_pos h3 hp, by nlinarith⟩
    · rintro ⟨h1, h2, h3, h4⟩
      have hp : 0 < τ + (σ - τ) * y := h3.trans h4
      refine ⟨y, z / (τ + (σ - τ) * y), h1, h2, div_pos h3 hp, (div_lt_one hp).2 h4, ?_⟩
      rw [hshape, div_mul_cancel₀ _ hp.ne', hXe]
  unfold cutPoly
  have hab : ∀ y z : K, ∀ X, X = b + y • (a - b) + z • u → _ := fun y z X hX => hX ▸ cut_sides (a := a) (b := b) (u := u) τ σ y z
  have va : a = b + (1 : K) • (a - b) + (0 : K) • u := by module
  have vb : b = b + (0 : K) • (a - b) + (0 : K) • u := by module
  have vc : b + τ • u = b + (0 : K) • (a - b) + τ • u := by module
  have vd : a + σ • u = b + (1 : K) • (a - b) + σ • u := by module
  by_cases hτ : τ = 0
  · -- a triangle with the vertices `a`, `b` and `d`
    have hσ : 0 < σ := by linarith
    rw [if_neg (by rw [hc]; exact not_not.2 hτ), if_pos (hd.2 hσ.ne'), List.append_nil]
    have hs : ∀ X y z, X = b + y • (a - b) + z • u → ∀ Q : K → Prop, (∀ k, Q (left [a, b, a + σ • u] X k)) ↔
        Q (z * ccw u (a - b)) ∧ Q ((σ * y - z) * ccw u (a - b)) ∧ Q (σ * (1 - y) * ccw u (a - b)) := by
      intro X y z hXe Q
      obtain ⟨k1, k2, k3, k4⟩ := cut_sides (a := a) (b := b) (u := u) τ σ y z
      have k3' : ccw (a + σ • u - b) (b + y • (a - b) + z • u - b) = (σ * y - z) * ccw u (a - b) := by
        rw [hτ, zero_smul, add_zero] at k3
        rw [k3]; ring
      rw [sides3, hXe, k1, k3', k4]
    have hv : Valid [a, b, a + σ • u] := by
      apply valid_triangle
      obtain ⟨k1, -⟩ := cut_sides (a := a) (b := b) (u := u) τ σ 1 σ
      rw [← vd] at k1
      have : ccw (b - a) (a + σ • u - b) = ccw (b - a) (a + σ • u - a) := by unfold ccw; simp only [Prod.fst_sub, Prod.snd_sub]; ring
      rw [this, k1]
      exact mul_pos hσ h
    have hcv : Convex [a, b, a + σ • u] := by
      refine convex_of_vertices (by simp) fun j hj => ?_
      simp only [List.length_cons, List.length_nil] at hj
      interval_cases j
      · exact (hs a 1 0 va fun x => 0 ≤ x).2 ⟨by simp, by simpa using mul_nonneg hσ.le h.le, by simp⟩
      · exact (hs b 0 0 vb fun x => 0 ≤ x).2 ⟨by simp, by simp, by simpa using mul_nonneg hσ.le h.le⟩
      · exact (hs (a + σ • u) 1 σ vd fun x => 0 ≤ x).2 ⟨mul_nonneg hσ.le h.le, by simp, by simp⟩
    refine ⟨hv, ?_, fun X => ?_⟩
    · have := area3 a b (a + σ • u)
      show 2 * area [a, b, a + σ • u] = _
      rw [this, hτ]
      unfold ccw; simp only [Prod.fst_sub, Prod.snd_sub, Prod.fst_add, Prod.snd_add, Prod.smul_fst, Prod.smul_snd, smul_eq_mul]; ring
    · obtain ⟨y, z, hXe⟩ := hX X
      rw [hgoal X y z hXe]
      refine ((C12_interior hv hcv X).1.trans (hs X y z hXe fun x => 0 < x)).trans ?_
      rw [hτ]
      simp only [mul_pos_iff_of_pos_right h]
      constructor
      · rintro ⟨h1, h2, h3⟩
        exact ⟨by nlinarith, by nlinarith, h1, by linarith⟩
      · rintro ⟨h1, h2, h3, h4⟩
        exact ⟨h3, by linarith, mul_pos hσ (by linarith)⟩
  · have hτp : 0 < τ := lt_of_le_of_ne τ0 (Ne.symm hτ)
    rw [if_pos (hc.2 hτ)]
    by_cases hσ : σ = 0
    · -- a triangle with the vertices `a`, `b` and `c`
      rw [if_neg (by rw [hd]; exact not_not.2 hσ), List.append_nil]
      have hs : ∀ X y z, X = b + y • (a - b) + z • u → ∀ Q : K → Prop, (∀ k, Q (left [a, b, b + τ • u] X k)) ↔
          Q (z * ccw u (a - b)) ∧ Q (τ * y * ccw u (a - b)) ∧ Q ((τ - τ * y - z) * ccw u (a - b)) := by
        intro X y z hXe Q
        obtain ⟨k1, k2, k3, k4⟩ := cut_sides (a := a) (b := b) (u := u) τ σ y z
        have k3' : ccw (a - (b + τ • u)) (b + y • (a - b) + z • u - (b + τ • u)) = (τ - τ * y - z) * ccw u (a - b) := by
          rw [hσ, zero_smul, add_zero] at k3
          rw [k3]; ring
        rw [sides3, hXe, k1, k2, k3']
      have hv : Valid [a, b, b + τ • u] := by
        apply valid_triangle
        obtain ⟨k1, -⟩ := cut_sides (a := a) (b := b) (u := u) τ σ 0 τ
        rw [← vc] at k1
        have : ccw (b - a) (b + τ • u - b) = ccw (b - a) (b + τ • u - a) := by unfold ccw; simp only [Prod.fst_sub, Prod.snd_sub]; ring
        rw [this, k1]
        exact mul_pos hτp h
      have hcv : Convex [a, b, b + τ • u] := by
        refine convex_of_vertices (by simp) fun j hj => ?_
        simp only [List.length_cons, List.length_nil] at hj
        interval_cases j
        · exact (hs a 1 0 va fun x => 0 ≤ x).2 ⟨by simp, by simpa using mul_nonneg hτp.le h.le, by simp⟩
        · exact (hs b 0 0 vb fun x => 0 ≤ x).2 ⟨by simp, by simp, by simpa using mul_nonneg hτp.le h.le⟩
        · exact (hs (b + τ • u) 0 τ vc fun x => 0 ≤ x).2 ⟨mul_nonneg hτp.le h.le, by simp, by simp⟩
      refine ⟨hv, ?_, fun X => ?_⟩
      · have := area3 a b (b + τ • u)
        show 2 * area [a, b, b + τ • u] = _
        rw [this, hσ]
        unfold ccw; simp only [Prod.fst_sub, Prod.snd_sub, Prod.fst_add, Prod.snd_add, Prod.smul_fst, Prod.smul_snd, smul_eq_mul]; ring
      · obtain ⟨y, z, hXe⟩ := hX X
        rw [hgoal X y z hXe]
        refine ((C12_interior hv hcv X).1.trans (hs X y z hXe fun x => 0 < x)).trans ?_
        rw [hσ]
        simp only [mul_pos_iff_of_pos_right h, mul_pos_iff_of_pos_left hτp]
        constructor
        · rintro ⟨h1, h2, h3⟩
          exact ⟨h2, by nlinarith, h1, by linarith⟩
        · rintro ⟨h1, h2, h3, h4⟩
          exact ⟨h3, h1, by linarith⟩
    · -- a trapezoid
      have hσp : 0 < σ := lt_of_le_of_ne σ0 (Ne.symm hσ)
      rw [if_pos (hd.2 hσ)]
      have hs : ∀ X y z, X = b + y • (a - b) + z • u → ∀ Q : K → Prop, (∀ k, Q (left [a, b, b + τ • u, a + σ • u] X k)) ↔
          Q (z * ccw u (a - b)) ∧ Q (τ * y * ccw u (a - b)) ∧ Q ((τ + (σ - τ) * y - z) * ccw u (a - b)) ∧ Q (σ * (1 - y) * ccw u (a - b)) := by
        intro X y z hXe Q
        obtain ⟨k1, k2, k3, k4⟩ := cut_sides (a := a) (b := b) (u := u) τ σ y z
        rw [sides4, hXe, k1, k2, k3, k4]
      have hv : Valid [a, b, b + τ • u, a + σ • u] := by
        apply valid_quad
        have m1 := mul_pos hτp h
        have m2 := mul_pos hσp h
        unfold Turns ccw at *
        simp only [Prod.fst_sub, Prod.snd_sub, Prod.fst_add, Prod.snd_add, Prod.smul_fst, Prod.smul_snd, smul_eq_mul] at *
        refine ⟨?_, ?_, ?_, ?_⟩
        · refine lt_of_lt_of_eq m1 ?_; ring
        · refine lt_of_lt_of_eq m1 ?_; ring
        · refine lt_of_lt_of_eq m2 ?_; ring
        · refine lt_of_lt_of_eq m2 ?_; ring
      have hcv : Convex [a, b, b + τ • u, a + σ • u] := by
        refine convex_of_vertices (by simp) fun j hj => ?_
        have m1 := mul_nonneg hτp.le h.le
        have m2 := mul_nonneg hσp.le h.le
        simp only [List.length_cons, List.length_nil] at hj
        interval_cases j
        · exact (hs a 1 0 va fun x => 0 ≤ x).2 ⟨by simp, by simpa using m1, by simpa using m2, by simp⟩
        · exact (hs b 0 0 vb fun x => 0 ≤ x).2 ⟨by simp, by simp, by simpa using m1, by simpa using m2⟩
        · exact (hs (b + τ • u) 0 τ vc fun x => 0 ≤ x).2 ⟨m1, by simp, by simp, by simpa using m2⟩
        · exact (hs (a + σ • u) 1 σ vd fun x => 0 ≤ x).2 ⟨m2, by simpa using m1, by simp, by simp⟩
      refine ⟨hv, ?_, fun X => ?_⟩
      · have := area4 a b (b + τ • u) (a + σ • u)
        show 2 * area [a, b, b + τ • u, a + σ • u] = _
        rw [this]
        unfold ccw; simp only [Prod.fst_sub, Prod.snd_sub, Prod.fst_add, Prod.snd_add, Prod.smul_fst, Prod.smul_snd, smul_eq_mul]; ring
      · obtain ⟨y, z, hXe⟩ := hX X
        rw [hgoal X y z hXe]
        refine ((C12_interior hv hcv X).1.trans (hs X y z hXe fun x => 0 < x)).trans ?_
        simp only [mul_pos_iff_of_pos_right h, mul_pos_iff_of_pos_left hτp, mul_pos_iff_of_pos_left hσp]
        constructor
        · rintro ⟨h1, h2, h3, h4⟩
          exact ⟨h2, by linarith, h1, by linarith⟩
        · rintro ⟨h1, h2, h3, h4⟩
          exact ⟨h3, h1, by linarith, by linarith⟩

end Poly
end Flat
