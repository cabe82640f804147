import Verif.Lemmas.SaddleWedge
import Mathlib.Tactic.LinearCombination
import Mathlib.Tactic.Linarith
import Mathlib.Tactic.Abel
import Mathlib.Tactic.Module
import Mathlib.Tactic.FieldSimp
import Mathlib.Algebra.Order.Archimedean.Basic

/-!
# A straight line of bounded length crosses boundedly many edges: the geometry in the plane

A ray from the origin crosses one edge after the other.  Consecutive edges belong to the same polygon: they are far from each other, or they have one
end in common.
-/

namespace Flat
namespace Beam
variable {K : Type} [Field K] [LinearOrder K] [IsStrictOrderedRing K]

/-- The time at which the ray in the direction `h` crosses the edge. -/
def time (P Q h : Vec K) : K := ccw P Q / ccw (P - Q) h

/-- The position on the edge at which the ray in the direction `h` crosses it. -/
def pos (P Q h : Vec K) : K := ccw P h / ccw (P - Q) h

/-- The larger norm. -/
def norm1 (h : Vec K) : K := |h.1| + |h.2|

omit [LinearOrder K] [IsStrictOrderedRing K] in
theorem ccw_sub_left (P Q h : Vec K) : ccw (P - Q) h = ccw P h + ccw h Q := by
  unfold ccw; simp only [Prod.fst_sub, Prod.snd_sub]; ring

theorem gap_pos {P Q h : Vec K} (hw : InWedge (P, Q) h) : 0 < ccw (P - Q) h := by
  rw [ccw_sub_left]; exact add_pos hw.1 hw.2

theorem time_smul {P Q h : Vec K} (hw : InWedge (P, Q) h) : time P Q h • h = P + pos P Q h • (Q - P) := by
  have hg := (gap_pos hw).ne'
  unfold time pos
  have e : ∀ c : K, c = ccw (P - Q) h → c ≠ 0 → (ccw P Q / c) • h = P + (ccw P h / c) • (Q - P) := by
    intro c hc h0
    unfold ccw at *
    simp only [Prod.fst_sub, Prod.snd_sub] at hc
    ext
    · simp only [Prod.smul_fst, Prod.fst_add, Prod.fst_sub, smul_eq_mul]
      field_simp
      rw [hc]; ring
    · simp only [Prod.smul_snd, Prod.snd_add, Prod.snd_sub, smul_eq_mul]
      field_simp
      rw [hc]; ring
  exact e _ rfl hg

theorem pos_mem {P Q h : Vec K} (hw : InWedge (P, Q) h) : 0 < pos P Q h ∧ pos P Q h < 1 := by
  have hg := gap_pos hw
  unfold pos
  refine ⟨div_pos hw.1 hg, ?_⟩
  rw [div_lt_one hg, ccw_sub_left]
  have := hw.2
  dsimp only at this
  linarith

/-- Two edges of a polygon of which the ray crosses the second after the first: they have no common end, they have the right end in common, or they have the left
end in common.  The ends of one that are not in common are at the left of the other. -/
def Far (μ : K) (P Q P' Q' : Vec K) : Prop := μ ≤ ccw (P - Q) (P' - Q) ∧ μ ≤ ccw (P - Q) (Q' - Q)

@[inherit_doc Far]
def Right (μ : K) (P Q P' Q' : Vec K) : Prop := P' = P ∧ μ ≤ ccw (P - Q) (Q' - Q) ∧ μ ≤ ccw (Q' - P') (Q - P')

@[inherit_doc Far]
def Left (μ : K) (P Q P' Q' : Vec K) : Prop := Q' = Q ∧ μ ≤ ccw (P - Q) (P' - Q) ∧ μ ≤ ccw (Q' - P') (P - P')

/-- The time between two edges in terms of the first. -/
theorem time_sub {P Q P' Q' h : Vec K} (hw : InWedge (P, Q) h) (hw' : InWedge (P', Q') h) :
    (time P' Q' h - time P Q h) * ccw (P - Q) h = (1 - pos P' Q' h) * ccw (P - Q) (P' - Q) + pos P' Q' h * ccw (P - Q) (Q' - Q) := by
  have e1 := time_smul hw
  have e2 := time_smul hw'
  have : (time P' Q' h - time P Q h) * ccw (P - Q) h = ccw (P - Q) (time P' Q' h • h - Q) - ccw (P - Q) (time P Q h • h - Q) := by
    unfold ccw; simp only [Prod.fst_sub, Prod.snd_sub, Prod.smul_fst, Prod.smul_snd, smul_eq_mul]; ring
  rw [this, e1, e2]
  unfold ccw; simp only [Prod.fst_sub, Prod.snd_sub, Prod.fst_add, Prod.snd_add, Prod.smul_fst, Prod.smul_snd, smul_eq_mul]; ring

/-- The time between two edges in terms of the second. -/
theorem time_sub' {P Q P' Q' h : Vec K} (hw : InWedge (P, Q) h) (hw' : InWedge (P', Q') h) :
    (time P' Q' h - time P Q h) * ccw (P' - Q') h = (1 - pos P Q h) * ccw (Q' - P') (P - P') + pos P Q h * ccw (Q' - P') (Q - P') := by
  have e1 := time_smul hw
  have e2 := time_smul hw'
  have : (time P' Q' h - time P Q h) * ccw (P' - Q') h = ccw (Q' - P') (time P Q h • h - P') - ccw (Q' - P') (time P' Q' h • h - P') := by
    unfold ccw; simp only [Prod.fst_sub, Prod.snd_sub, Prod.smul_fst, Prod.smul_snd, smul_eq_mul]; ring
  rw [this, e1, e2]
  unfold ccw; simp only [Prod.fst_sub, Prod.snd_sub, Prod.fst_add, Prod.snd_add, Prod.smul_fst, Prod.smul_snd, smul_eq_mul]; ring

theorem ccw_le_norm1 {E h : Vec K} {M : K} (hM : 0 ≤ M) (hE : E.1 ^ 2 + E.2 ^ 2 ≤ M ^ 2) : ccw E h ≤ M * norm1 h := by
  have h1 : |E.1| ≤ M := abs_le_of_sq_le_sq (by nlinarith [sq_nonneg E.2]) hM
  have h2 : |E.2| ≤ M := abs_le_of_sq_le_sq (by nlinarith [sq_nonneg E.1]) hM
  have k1 : E.1 * h.2 ≤ M * |h.2| := (le_abs_self _).trans (by rw [abs_mul]; exact mul_le_mul_of_nonneg_right h1 (abs_nonneg _))
  have k2 : -(E.2 * h.1) ≤ M * |h.1| := (neg_le_abs _).trans (by rw [abs_mul]; exact mul_le_mul_of_nonneg_right h2 (abs_nonneg _))
  unfold ccw norm1
  linarith

/-- Numbers that grow at least like the tangent function in equal steps: there are not many of them. -/
theorem tangent_bound {τ : ℕ → K} {lam : K} (hl : 0 < lam) {N : ℕ} (hN : 1 ≤ N * lam)
    (h1 : ∀ j < 4 * N, lam ≤ τ (j + 1) - τ j) (h2 : ∀ j < 4 * N, lam * |τ j * τ (j + 1)| ≤ τ (j + 1) - τ j) : False := by
  have key : ∀ σ : ℕ → K, 0 ≤ σ 0 → (∀ j < 2 * N, lam ≤ σ (j + 1) - σ j) → (∀ j < 2 * N, lam * |σ j * σ (j + 1)| ≤ σ (j + 1) - σ j) → False := by
    intro σ h0 k1 k2
    have hlow : ∀ j ≤ 2 * N, j * lam ≤ σ j := by
      intro j
      induction j with
      | zero => intro _; simpa using h0
      | succ j ih =>
        intro hj
        have := ih (by omega)
        have := k1 j (by omega)
        push_cast
        linarith
    have hone : ∀ i ≤ N, 1 ≤ σ (N + i) := by
      intro i hi
      have := hlow (N + i) (by omega)
      push_cast at this
      have hi0 : (0 : K) ≤ i * lam := mul_nonneg (Nat.cast_nonneg _) hl.le
      linarith
    have hinv : ∀ i ≤ N, (σ (N + i))⁻¹ ≤ 1 - i * lam := by
      intro i
      induction i with
      | zero =>
        intro _
        have := hone 0 (by omega)
        simp only [Nat.cast_zero, zero_mul, sub_zero]
        exact inv_le_one_of_one_le₀ this
      | succ i ih =>
        intro hi
        have e1 := ih (by omega)
        have p1 := hone i (by omega)
        have p2 := hone (i + 1) hi
        have e2 := k2 (N + i) (by omega)
        rw [show N + i + 1 = N + (i + 1) by omega] at e2
        generalize σ (N + i) = a at *
        generalize σ (N + (i + 1)) = b at *
        have a0 : 0 < a := by linarith
        have b0 : 0 < b := by linarith
        rw [abs_of_pos (mul_pos a0 b0)] at e2
        have e3 : lam ≤ a⁻¹ - b⁻¹ := by
          have : a⁻¹ - b⁻¹ = (b - a) / (a * b) := by field_simp
          rw [this, le_div_iff₀ (mul_pos a0 b0)]
          exact e2
        push_cast
        linarith
    have e1 := hinv N le_rfl
    have e2 := hone N le_rfl
    have : 0 < (σ (N + N))⁻¹ := inv_pos.2 (by linarith)
    linarith
  rcases le_total 0 (τ (2 * N)) with h | h
  · refine key (fun i => τ (2 * N + i)) (by simpa using h) (fun j hj => h1 (2 * N + j) (by omega)) (fun j hj => h2 (2 * N + j) (by omega))
  · refine key (fun i => -τ (2 * N - i)) (by simpa using h) (fun j hj => ?_) (fun j hj => ?_)
    · have := h1 (2 * N - (j + 1)) (by omega)
      rw [show 2 * N - (j + 1) + 1 = 2 * N - j by omega] at this
      linarith
    · have := h2 (2 * N - (j + 1)) (by omega)
      rw [show 2 * N - (j + 1) + 1 = 2 * N - j by omega] at this
      rw [neg_mul_neg, mul_comm (τ _)]
      linarith

/-- A line crosses only a bounded number of edges with a common end. -/
theorem fan_bound {X : ℕ → Vec K} {h : Vec K} {d : ℕ → K} {μ M : K} (hμ : 0 < μ) (hM : 0 < M) (hD : ccw (X 0) h ≠ 0) {N : ℕ} (hN : 1 ≤ N * (μ / M ^ 2))
    (hd : ∀ j < 4 * N, 0 < d j) (hX : ∀ j < 4 * N, X (j + 1) = X j + d j • h)
    (hc : ∀ j < 4 * N, μ ^ 2 * (((X j).1 ^ 2 + (X j).2 ^ 2) * ((X (j + 1)).1 ^ 2 + (X (j + 1)).2 ^ 2)) ≤ (ccw (X j) (X (j + 1)) * M ^ 2) ^ 2) : False := by
  set D := |ccw (X 0) h| with hDd
  have D0 : 0 < D := abs_pos.2 hD
  have hconst : ∀ j ≤ 4 * N, ccw (X j) h = ccw (X 0) h := by
    intro j
    induction j with
    | zero => intro _; rfl
    | succ j ih =>
      intro hj
      rw [← ih (by omega), hX j (by omega)]
      unfold ccw; simp only [Prod.fst_add, Prod.snd_add, Prod.smul_fst, Prod.smul_snd, smul_eq_mul]; ring
  have hne : h ≠ 0 := by
    rintro rfl
    apply hD
    unfold ccw; simp
  set H := h.1 ^ 2 + h.2 ^ 2 with hH
  have H0 : 0 < H := by
    rcases eq_or_ne h.1 0 with h1 | h1
    · rcases eq_or_ne h.2 0 with h2 | h2
      · exact absurd (Prod.ext h1 h2) hne
      · exact add_pos_of_nonneg_of_pos (sq_nonneg _) (sq_pos_of_ne_zero h2)
    · exact add_pos_of_pos_of_nonneg (sq_pos_of_ne_zero h1) (sq_nonneg _)
  set T : ℕ → K := fun j => (X j).1 * h.1 + (X j).2 * h.2 with hT
  have hnorm : ∀ j ≤ 4 * N, ((X j).1 ^ 2 + (X j).2 ^ 2) * H = D ^ 2 + T j ^ 2 := by
    intro j hj
    rw [hDd, sq_abs, ← hconst j hj, hT, hH]
    unfold ccw
    ring
  have hstep : ∀ j < 4 * N, T (j + 1) - T j = d j * H := by
    intro j hj
    rw [hT, hH]; beta_reduce
    rw [hX j hj]
    simp only [Prod.fst_add, Prod.snd_add, Prod.smul_fst, Prod.smul_snd, smul_eq_mul]; ring
  have hmain : ∀ j < 4 * N, μ ^ 2 * ((D ^ 2 + T j ^ 2) * (D ^ 2 + T (j + 1) ^ 2)) ≤ ((T (j + 1) - T j) * D * M ^ 2) ^ 2 := by
    intro j hj
    rw [← hnorm j (by omega), ← hnorm (j + 1) (by omega), hstep j hj]
    have e1 := mul_le_mul_of_nonneg_right (hc j hj) (sq_nonneg H)
    have e2 : ccw (X j) (X (j + 1)) ^ 2 = (d j * D) ^ 2 := by
      have : ccw (X j) (X (j + 1)) = d j * ccw (X j) h := by
        rw [hX j hj]
        unfold ccw; simp only [Prod.fst_add, Prod.snd_add, Prod.smul_fst, Prod.smul_snd, smul_eq_mul]; ring
      rw [this, hconst j (by omega), mul_pow, mul_pow, hDd, sq_abs]
    have e3 : (ccw (X j) (X (j + 1)) * M ^ 2) ^ 2 * H ^ 2 = (d j * H * D * M ^ 2) ^ 2 := by
      rw [mul_pow, e2]; ring
    rw [e3] at e1
    refine le_trans (le_of_eq ?_) e1
    ring
  have hM2 : 0 < M ^ 2 := pow_pos hM 2
  have hpos : ∀ j < 4 * N, 0 < (T (j + 1) - T j) * D * M ^ 2 := by
    intro j hj
    rw [hstep j hj]
    exact mul_pos (mul_pos (mul_pos (hd j hj) H0) D0) hM2
  have hsq : ∀ (j : ℕ) (y : K), j < 4 * N → y ^ 2 ≤ (D ^ 2 + T j ^ 2) * (D ^ 2 + T (j + 1) ^ 2) → 0 ≤ y → μ * y ≤ (T (j + 1) - T j) * D * M ^ 2 := by
    intro j y hj hy hy0
    refine abs_le_of_sq_le_sq' ?_ (hpos j hj).le |>.2
    refine le_trans ?_ (hmain j hj)
    rw [mul_pow]
    exact mul_le_mul_of_nonneg_left hy (sq_nonneg _)
  refine tangent_bound (τ := fun j => T j / D) (div_pos hμ hM2) hN (fun j hj => ?_) (fun j hj => ?_)
  · have := hsq j (D ^ 2) hj (by
      nlinarith [mul_nonneg (sq_nonneg (T j)) (sq_nonneg (T (j + 1))), mul_nonneg (sq_nonneg D) (sq_nonneg (T j)), mul_nonneg (sq_nonneg D) (sq_nonneg (T (j + 1)))]) (sq_nonneg D)
    rw [← sub_div, div_le_div_iff₀ hM2 D0]
    have h2 : μ * D * D ≤ (T (j + 1) - T j) * M ^ 2 * D := by nlinarith
    exact le_of_mul_le_mul_right h2 D0
  · have := hsq j (|T j * T (j + 1)|) hj (by
      rw [sq_abs]
      nlinarith [mul_nonneg (sq_nonneg D) (sq_nonneg (T j)), mul_nonneg (sq_nonneg D) (sq_nonneg (T (j + 1))), mul_nonneg (sq_nonneg D) (sq_nonneg D)]) (abs_nonneg _)
    rw [← sub_div, div_mul_div_comm, abs_div, abs_of_pos (mul_pos D0 D0), div_mul_div_comm, div_le_div_iff₀ (mul_pos hM2 (mul_pos D0 D0)) D0]
    have h2 := mul_le_mul_of_nonneg_right this D0.le
    refine le_trans h2 (le_of_eq ?_)
    ring

/-- What two consecutive edges of the line satisfy. -/
def Step (μ : K) (P Q P' Q' : Vec K) : Prop := Far μ P Q P' Q' ∨ Right μ P Q P' Q' ∨ Left μ P Q P' Q'

/-- The ray crosses the second edge after the first. -/
theorem time_lt {P Q P' Q' h : Vec K} {μ : K} (hμ : 0 < μ) (hw : InWedge (P, Q) h) (hw' : InWedge (P', Q') h) (hs : Step μ P Q P' Q') : time P Q h < time P' Q' h := by
  have hg := gap_pos hw
  have e := time_sub hw hw'
  obtain ⟨h0, h1⟩ := pos_mem hw'
  have hp : 0 < (time P' Q' h - time P Q h) * ccw (P - Q) h := by
    rw [e]
    rcases hs with ⟨a, b⟩ | ⟨a, b, -⟩ | ⟨a, b, -⟩
    · have := mul_pos h0 (lt_of_lt_of_le hμ b)
      have := mul_pos (sub_pos.2 h1) (lt_of_lt_of_le hμ a)
      linarith
    · have := mul_pos h0 (lt_of_lt_of_le hμ b)
      have h2 : ccw (P - Q) (P' - Q) = 0 := by rw [a]; unfold ccw; ring
      rw [h2]; linarith
    · have := mul_pos (sub_pos.2 h1) (lt_of_lt_of_le hμ b)
      have h2 : ccw (P - Q) (Q' - Q) = 0 := by rw [a]; unfold ccw; simp
      rw [h2]; linarith
  exact sub_pos.1 (pos_of_mul_pos_left hp hg.le)

/-- A polygon is crossed slowly: the time spent in it is at least a given amount. -/
def Long (μ M : K) (h P Q P' Q' : Vec K) : Prop := μ / 2 ≤ (time P' Q' h - time P Q h) * (M * norm1 h)

theorem long_of {P Q P' Q' h : Vec K} {μ M : K} (hμ : 0 < μ) (hM : 0 < M) (hw : InWedge (P, Q) h) (hw' : InWedge (P', Q') h) (hs : Step μ P Q P' Q')
    {E : Vec K} (hE : E.1 ^ 2 + E.2 ^ 2 ≤ M ^ 2) (hl : μ / 2 ≤ (time P' Q' h - time P Q h) * ccw E h) : Long μ M h P Q P' Q' :=
  hl.trans (mul_le_mul_of_nonneg_left (ccw_le_norm1 hM.le hE) (sub_pos.2 (time_lt hμ hw hw' hs)).le)

theorem long_far {P Q P' Q' h : Vec K} {μ M : K} (hμ : 0 < μ) (hM : 0 < M) (hw : InWedge (P, Q) h) (hw' : InWedge (P', Q') h) (hs : Far μ P Q P' Q')
    (hE : (P - Q).1 ^ 2 + (P - Q).2 ^ 2 ≤ M ^ 2) : Long μ M h P Q P' Q' := by
  refine long_of hμ hM hw hw' (Or.inl hs) hE ?_
  rw [time_sub hw hw']
  obtain ⟨h0, h1⟩ := pos_mem hw'
  have := mul_le_mul_of_nonneg_left hs.2 h0.le
  have := mul_le_mul_of_nonneg_left hs.1 (sub_pos.2 h1).le
  linarith

theorem long_right_left {P Q P' Q' P'' Q'' h : Vec K} {μ M : K} (hμ : 0 < μ) (hM : 0 < M) (hw : InWedge (P, Q) h) (hw' : InWedge (P', Q') h) (hw'' : InWedge (P'', Q'') h)
    (hs : Right μ P Q P' Q') (hs' : Left μ P' Q' P'' Q'')
    (hE : (P - Q).1 ^ 2 + (P - Q).2 ^ 2 ≤ M ^ 2) (hE'' : (P'' - Q'').1 ^ 2 + (P'' - Q'').2 ^ 2 ≤ M ^ 2) : Long μ M h P Q P' Q' ∨ Long μ M h P' Q' P'' Q'' := by
  obtain ⟨h0, h1⟩ := pos_mem hw'
  rcases le_total (1 / 2) (pos P' Q' h) with hp | hp
  · left
    refine long_of hμ hM hw hw' (Or.inr (Or.inl hs)) hE ?_
    rw [time_sub hw hw']
    obtain ⟨a, b, -⟩ := hs
    have h2 : ccw (P - Q) (P' - Q) = 0 := by rw [a]; unfold ccw; ring
    rw [h2]
    have := mul_le_mul hp b hμ.le h0.le
    linarith
  · right
    refine long_of hμ hM hw' hw'' (Or.inr (Or.inr hs')) hE'' ?_
    rw [time_sub' hw' hw'']
    obtain ⟨a, -, b⟩ := hs'
    have h2 : ccw (Q'' - P'') (Q' - P'') = 0 := by rw [a]; unfold ccw; ring
    rw [h2]
    have := mul_le_mul (show (1 : K) / 2 ≤ 1 - pos P' Q' h by linarith) b hμ.le (by linarith)
    linarith

theorem long_left_right {P Q P' Q' P'' Q'' h : Vec K} {μ M : K} (hμ : 0 < μ) (hM : 0 < M) (hw : InWedge (P, Q) h) (hw' : InWedge (P', Q') h) (hw'' : InWedge (P'', Q'') h)
    (hs : Left μ P Q P' Q') (hs' : Right μ P' Q' P'' Q'')
    (hE : (P - Q).1 ^ 2 + (P - Q).2 ^ 2 ≤ M ^ 2) (hE'' : (P'' - Q'').1 ^ 2 + (P'' - Q'').2 ^ 2 ≤ M ^ 2) : Long μ M h P Q P' Q' ∨ Long μ M h P' Q' P'' Q'' := by
  obtain ⟨h0, h1⟩ := pos_mem hw'
  rcases le_total (pos P' Q' h) (1 / 2) with hp | hp
  · left
    refine long_of hμ hM hw hw' (Or.inr (Or.inr hs)) hE ?_
    rw [time_sub hw hw']
    obtain ⟨a, b, -⟩ := hs
    have h2 : ccw (P - Q) (Q' - Q) = 0 := by rw [a]; unfold ccw; simp
    rw [h2]
    have := mul_le_mul (show (1 : K) / 2 ≤ 1 - pos P' Q' h by linarith) b hμ.le (by linarith)
    linarith
  · right
    refine long_of hμ hM hw' hw'' (Or.inr (Or.inl hs')) hE'' ?_
    rw [time_sub' hw' hw'']
    obtain ⟨a, -, b⟩ := hs'
    have h2 : ccw (Q'' - P'') (P' - P'') = 0 := by rw [a]; unfold ccw; simp
    rw [h2]
    have := mul_le_mul hp b hμ.le h0.le
    linarith

theorem sector_sq {u v : Vec K} {μ M a b : K} (hμ : 0 ≤ μ) (hc : μ ≤ ccw u v ∨ μ ≤ ccw v u) (hu : u.1 ^ 2 + u.2 ^ 2 ≤ M ^ 2) (hv : v.1 ^ 2 + v.2 ^ 2 ≤ M ^ 2) :
    μ ^ 2 * (((a • u).1 ^ 2 + (a • u).2 ^ 2) * ((b • v).1 ^ 2 + (b • v).2 ^ 2)) ≤ (ccw (a • u) (b • v) * M ^ 2) ^ 2 := by
  have e1 : (u.1 ^ 2 + u.2 ^ 2) * (v.1 ^ 2 + v.2 ^ 2) ≤ M ^ 2 * M ^ 2 :=
    mul_le_mul hu hv (add_nonneg (sq_nonneg _) (sq_nonneg _)) (sq_nonneg _)
  have e2 : μ ^ 2 ≤ ccw u v ^ 2 := by
    rcases hc with hc | hc
    · exact pow_le_pow_left₀ hμ hc 2
    · have := pow_le_pow_left₀ hμ hc 2
      rw [show ccw u v = -ccw v u by unfold ccw; ring, neg_sq]; exact this
  have e3 := mul_le_mul e2 e1 (mul_nonneg (add_nonneg (sq_nonneg _) (sq_nonneg _)) (add_nonneg (sq_nonneg _) (sq_nonneg _))) (sq_nonneg _)
  have e4 := mul_le_mul_of_nonneg_left e3 (sq_nonneg (a * b))
  have e5 : ccw (a • u) (b • v) = a * b * ccw u v := by
    unfold ccw; simp only [Prod.smul_fst, Prod.smul_snd, smul_eq_mul]; ring
  rw [e5]
  simp only [Prod.smul_fst, Prod.smul_snd, smul_eq_mul]
  refine le_trans (le_of_eq ?_) (e4.trans (le_of_eq ?_)) <;> ring

section Sequence
variable {P Q : ℕ → Vec K} {h : Vec K} {μ M : K} {k : ℕ}

/-- Among sufficiently many consecutive polygons at least one is crossed slowly. -/
theorem long_window (hμ : 0 < μ) (hM : 0 < M) {N : ℕ} (hN : 1 ≤ N * (μ / M ^ 2)) (hw : ∀ j ≤ 4 * N, InWedge (P j, Q j) h)
    (hE : ∀ j ≤ 4 * N, (P j - Q j).1 ^ 2 + (P j - Q j).2 ^ 2 ≤ M ^ 2) (hs : ∀ j < 4 * N, Step μ (P j) (Q j) (P (j + 1)) (Q (j + 1))) :
    ∃ j < 4 * N, Long μ M h (P j) (Q j) (P (j + 1)) (Q (j + 1)) := by
  by_contra hno
  push Not at hno
  have hE' : ∀ j ≤ 4 * N, (Q j - P j).1 ^ 2 + (Q j - P j).2 ^ 2 ≤ M ^ 2 := by
    intro j hj
    refine le_trans (le_of_eq ?_) (hE j hj)
    simp only [Prod.fst_sub, Prod.snd_sub]; ring
  have hkind : ∀ j < 4 * N, Right μ (P j) (Q j) (P (j + 1)) (Q (j + 1)) ∨ Left μ (P j) (Q j) (P (j + 1)) (Q (j + 1)) := by
    intro j hj
    rcases hs j hj with h1 | h1
    · exact absurd (long_far hμ hM (hw j (by omega)) (hw (j + 1) (by omega)) h1 (hE j (by omega))) (hno j hj)
    · exact h1
  have hN0 : 0 < N := by
    rcases Nat.eq_zero_or_pos N with rfl | h0
    · exact absurd hN (by simp)
    · exact h0
  have hlt : ∀ j < 4 * N, 0 < time (P (j + 1)) (Q (j + 1)) h - time (P j) (Q j) h := fun j hj =>
    sub_pos.2 (time_lt hμ (hw j (by omega)) (hw (j + 1) (by omega)) (hs j hj))
  rcases hkind 0 (by omega) with h0 | h0
  · have hall : ∀ j < 4 * N, Right μ (P j) (Q j) (P (j + 1)) (Q (j + 1)) := by
      intro j
      induction j with
      | zero => intro _; exact h0
      | succ j ih =>
        intro hj
        rcases hkind (j + 1) hj with h1 | h1
        · exact h1
        · rcases long_right_left hμ hM (hw j (by omega)) (hw (j + 1) (by omega)) (hw (j + 1 + 1) (by omega)) (ih (by omega)) h1 (hE j (by omega)) (hE (j + 1 + 1) (by omega)) with h2 | h2
          · exact absurd h2 (hno j (by omega))
          · exact absurd h2 (hno (j + 1) (by omega))
    have hconst : ∀ j ≤ 4 * N, P j = P 0 := by
      intro j
      induction j with
      | zero => intro _; rfl
      | succ j ih => intro hj; rw [(hall j (by omega)).1]; exact ih (by omega)
    have hX : ∀ j ≤ 4 * N, time (P j) (Q j) h • h - P 0 = pos (P j) (Q j) h • (Q j - P j) := by
      intro j hj
      rw [time_smul (hw j hj), ← hconst j hj, add_sub_cancel_left]
    refine fan_bound (X := fun j => time (P j) (Q j) h • h - P 0) (h := h) (d := fun j => time (P (j + 1)) (Q (j + 1)) h - time (P j) (Q j) h) hμ hM ?_ hN hlt ?_ ?_
    · have : ccw (time (P 0) (Q 0) h • h - P 0) h = - ccw (P 0) h := by
        unfold ccw; simp only [Prod.fst_sub, Prod.snd_sub, Prod.smul_fst, Prod.smul_snd, smul_eq_mul]; ring
      rw [this]
      exact neg_ne_zero.2 (hw 0 (by omega)).1.ne'
    · intro j hj
      rw [sub_smul]
      abel
    · intro j hj
      rw [hX j (by omega), hX (j + 1) (by omega)]
      refine sector_sq hμ.le (Or.inr ?_) (hE' j (by omega)) (hE' (j + 1) (by omega))
      have h1 := (hall j hj).2.2
      rw [(hall j hj).1] at h1 ⊢
      exact h1
  · have hall : ∀ j < 4 * N, Left μ (P j) (Q j) (P (j + 1)) (Q (j + 1)) := by
      intro j
      induction j with
      | zero => intro _; exact h0
      | succ j ih =>
        intro hj
        rcases hkind (j + 1) hj with h1 | h1
        · rcases long_left_right hμ hM (hw j (by omega)) (hw (j + 1) (by omega)) (hw (j + 1 + 1) (by omega)) (ih (by omega)) h1 (hE j (by omega)) (hE (j + 1 + 1) (by omega)) with h2 | h2
          · exact absurd h2 (hno j (by omega))
          · exact absurd h2 (hno (j + 1) (by omega))
        · exact h1
    have hconst : ∀ j ≤ 4 * N, Q j = Q 0 := by
      intro j
      induction j with
      | zero => intro _; rfl
      | succ j ih => intro hj; rw [(hall j (by omega)).1]; exact ih (by omega)
    have hX : ∀ j ≤ 4 * N, time (P j) (Q j) h • h - Q 0 = (1 - pos (P j) (Q j) h) • (P j - Q j) := by
      intro j hj
      rw [time_smul (hw j hj), ← hconst j hj]
      module
    refine fan_bound (X := fun j => time (P j) (Q j) h • h - Q 0) (h := h) (d := fun j => time (P (j + 1)) (Q (j + 1)) h - time (P j) (Q j) h) hμ hM ?_ hN hlt ?_ ?_
    · have : ccw (time (P 0) (Q 0) h • h - Q 0) h = ccw h (Q 0) := by
        unfold ccw; simp only [Prod.fst_sub, Prod.snd_sub, Prod.smul_fst, Prod.smul_snd, smul_eq_mul]; ring
      rw [this]
      exact (hw 0 (by omega)).2.ne'
    · intro j hj
      rw [sub_smul]
      abel
    · intro j hj
      rw [hX j (by omega), hX (j + 1) (by omega)]
      refine sector_sq hμ.le (Or.inl ?_) (hE j (by omega)) (hE (j + 1) (by omega))
      have h1 := (hall j hj).2.1
      rw [(hall j hj).1]
      exact h1

/-- The time grows at least linearly with the number of polygons. -/
theorem time_ge (hμ : 0 < μ) (hM : 0 < M) {N : ℕ} (hN : 1 ≤ N * (μ / M ^ 2)) (hw : ∀ j ≤ k, InWedge (P j, Q j) h)
    (hE : ∀ j ≤ k, (P j - Q j).1 ^ 2 + (P j - Q j).2 ^ 2 ≤ M ^ 2) (hs : ∀ j < k, Step μ (P j) (Q j) (P (j + 1)) (Q (j + 1))) (c : ℕ) (hc : c * (4 * N) ≤ k) :
    c * (μ / 2) ≤ (time (P (c * (4 * N))) (Q (c * (4 * N))) h - time (P 0) (Q 0) h) * (M * norm1 h) := by
  have hn : 0 ≤ M * norm1 h := mul_nonneg hM.le (add_nonneg (abs_nonneg _) (abs_nonneg _))
  have hmono : ∀ a b : ℕ, a + b ≤ k → time (P a) (Q a) h ≤ time (P (a + b)) (Q (a + b)) h := by
    intro a b
    induction b with
    | zero => intro _; exact le_rfl
    | succ b ih =>
      intro hb
      exact (ih (by omega)).trans (time_lt hμ (hw _ (by omega)) (hw _ (by omega)) (hs (a + b) (by omega))).le
  induction c with
  | zero => simp
  | succ c ih =>
    have hc' : c * (4 * N) + 4 * N ≤ k := by rw [← Nat.succ_mul]; exact hc
    have h1 := ih (by omega)
    obtain ⟨j, hj, hl⟩ := long_window (P := fun j => P (c * (4 * N) + j)) (Q := fun j => Q (c * (4 * N) + j)) (h := h) hμ hM hN (fun j hj => hw _ (by omega))
      (fun j hj => hE _ (by omega)) (fun j hj => hs (c * (4 * N) + j) (by omega))
    have m1 := hmono (c * (4 * N)) j (by omega)
    have m2 := hmono (c * (4 * N) + (j + 1)) (4 * N - (j + 1)) (by omega)
    rw [show c * (4 * N) + (j + 1) + (4 * N - (j + 1)) = (c + 1) * (4 * N) by have e := Nat.add_mul c 1 (4 * N); rw [Nat.one_mul] at e; omega] at m2
    unfold Long at hl
    have m3 := mul_le_mul_of_nonneg_right m1 hn
    have m4 := mul_le_mul_of_nonneg_right m2 hn
    push_cast
    linarith

/-- A line all of whose crossings are in a bounded region crosses only a bounded number of edges. -/
theorem crossings_bound [Archimedean K] (hμ : 0 < μ) (hM : 0 < M) (R : K) :
    ∃ n : ℕ, ∀ (P Q : ℕ → Vec K) (h : Vec K) (k : ℕ), (∀ j ≤ k, InWedge (P j, Q j) h) → (∀ j ≤ k, (P j - Q j).1 ^ 2 + (P j - Q j).2 ^ 2 ≤ M ^ 2) →
      (∀ j < k, Step μ (P j) (Q j) (P (j + 1)) (Q (j + 1))) → (∀ j ≤ k, 0 ≤ time (P j) (Q j) h ∧ time (P j) (Q j) h * norm1 h ≤ R) → k < n := by
  obtain ⟨N, hN⟩ := exists_nat_ge (1 / (μ / M ^ 2))
  have hl : 0 < μ / M ^ 2 := div_pos hμ (pow_pos hM 2)
  rw [div_le_iff₀ hl] at hN
  obtain ⟨c, hc⟩ := exists_nat_gt (R * M / (μ / 2))
  rw [div_lt_iff₀ (by linarith)] at hc
  refine ⟨c * (4 * N) + 1, fun P Q h k hw hE hs ht => ?_⟩
  by_contra hk
  have h1 := time_ge hμ hM hN hw hE hs c (by omega)
  have h2 := ht (c * (4 * N)) (by omega)
  have h3 := ht 0 (by omega)
  have hn : 0 ≤ norm1 h := add_nonneg (abs_nonneg _) (abs_nonneg _)
  have h4 := mul_le_mul_of_nonneg_right h2.2 hM.le
  have h5 := mul_nonneg h3.1 (mul_nonneg hM.le hn)
  nlinarith

end Sequence

/-- An edge that is near to the origin is crossed in a bounded region. -/
theorem time_le {P Q h y : Vec K} {M B θ : K} (hM : 0 ≤ M) (hB : 0 ≤ B) (hw : InWedge (P, Q) h) (hE : (P - Q).1 ^ 2 + (P - Q).2 ^ 2 ≤ M ^ 2)
    (hpq : 0 ≤ ccw P Q) (hy : y = P + θ • (Q - P)) (h0 : 0 ≤ θ) (h1 : θ ≤ 1) (hyB : y.1 ^ 2 + y.2 ^ 2 ≤ B ^ 2) :
    0 ≤ time P Q h ∧ time P Q h * norm1 h ≤ 2 * B + 2 * M := by
  have ht : 0 ≤ time P Q h := div_nonneg hpq (gap_pos hw).le
  refine ⟨ht, ?_⟩
  obtain ⟨p0, p1⟩ := pos_mem hw
  have e := time_smul hw
  have bound : ∀ (v : Vec K) (C : K), 0 ≤ C → v.1 ^ 2 + v.2 ^ 2 ≤ C ^ 2 → |v.1| ≤ C ∧ |v.2| ≤ C := fun v C hC hv =>
    ⟨abs_le_of_sq_le_sq (by nlinarith [sq_nonneg v.2]) hC, abs_le_of_sq_le_sq (by nlinarith [sq_nonneg v.1]) hC⟩
  obtain ⟨b1, b2⟩ := bound y B hB hyB
  obtain ⟨m1, m2⟩ := bound (P - Q) M hM hE
  have hc : |θ - pos P Q h| ≤ 1 := abs_le.2 ⟨by linarith, by linarith⟩
  have hx : time P Q h • h = y + (θ - pos P Q h) • (P - Q) := by rw [e, hy]; module
  have x1 : time P Q h * h.1 = y.1 + (θ - pos P Q h) * (P - Q).1 := congrArg Prod.fst hx
  have x2 : time P Q h * h.2 = y.2 + (θ - pos P Q h) * (P - Q).2 := congrArg Prod.snd hx
  have k1 : |time P Q h * h.1| ≤ B + M := by
    rw [x1]
    refine (abs_add_le _ _).trans (add_le_add b1 ?_)
    rw [abs_mul]
    have := mul_le_mul hc m1 (abs_nonneg _) zero_le_one
    linarith
  have k2 : |time P Q h * h.2| ≤ B + M := by
    rw [x2]
    refine (abs_add_le _ _).trans (add_le_add b2 ?_)
    rw [abs_mul]
    have := mul_le_mul hc m2 (abs_nonneg _) zero_le_one
    linarith
  rw [abs_mul, abs_of_nonneg ht] at k1 k2
  unfold norm1
  rw [mul_add]
  linarith

end Beam
end Flat
