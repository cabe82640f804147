import Verif.Props.Hyperbolic
import Mathlib.LinearAlgebra.Matrix.Adjugate
import Mathlib.Tactic.FinCases

/-!
# C52: isometries of the hyperbolic plane
-/

namespace Flat
namespace Hyp
open Matrix
variable {K : Type} [Field K] [LinearOrder K] [IsStrictOrderedRing K]
variable {F : Type} [Field F] [LinearOrder F] [IsStrictOrderedRing F]

/-! ### The matrix of the hyperboloid model -/

theorem sim12_one : sim12 (1 : Matrix (Fin 2) (Fin 2) K) = 1 := by
  ext i j
  fin_cases i <;> fin_cases j <;> simp [sim12]

/-- **C52**. Composition of isometries of the upper half plane is composition in the hyperboloid model. -/
theorem C52_mul (m n : Matrix (Fin 2) (Fin 2) K) : sim12 (m * n) = sim12 m * sim12 n := by
  ext i j
  fin_cases i <;> fin_cases j <;> simp [sim12, Matrix.mul_apply, Fin.sum_univ_succ] <;> ring

/-- **C52**. The matrix in the hyperboloid model preserves the quadratic form up to scaling. -/
theorem C52_form (m : Matrix (Fin 2) (Fin 2) K) : (sim12 m)ᵀ * J * sim12 m = (m.det * m.det) • J := by
  ext i j
  rw [Matrix.det_fin_two]
  fin_cases i <;> fin_cases j <;> simp [sim12, J, Matrix.mul_apply, Fin.sum_univ_succ] <;> ring

theorem det_sim12 (m : Matrix (Fin 2) (Fin 2) K) : (sim12 m).det = m.det ^ 3 := by
  rw [Matrix.det_fin_three, Matrix.det_fin_two]
  simp [sim12]
  ring

/-- The matrix preserves the quadratic form of the hyperboloid model up to a factor. -/
def Sim (m : Matrix (Fin 3) (Fin 3) K) (l : K) : Prop := l ≠ 0 ∧ mᵀ * J * m = l • J

theorem J_mul_J : (J : Matrix (Fin 3) (Fin 3) K) * J = 1 := by
  ext i j
  fin_cases i <;> fin_cases j <;> simp [J, Matrix.mul_apply, Fin.sum_univ_succ]

theorem det_J : (J : Matrix (Fin 3) (Fin 3) K).det = -1 := by
  rw [Matrix.det_fin_three]
  simp [J]

theorem J_transpose : (J : Matrix (Fin 3) (Fin 3) K)ᵀ = J := by
  ext i j
  fin_cases i <;> fin_cases j <;> simp [J]

/-- The determinant of a similitude and its factor. -/
theorem Sim.det {m : Matrix (Fin 3) (Fin 3) K} {l : K} (h : Sim m l) : m.det * m.det = l ^ 3 := by
  have h1 := congrArg Matrix.det h.2
  rw [Matrix.det_mul, Matrix.det_mul, Matrix.det_transpose, Matrix.det_smul, det_J] at h1
  simp only [Fintype.card_fin] at h1
  linear_combination -h1

theorem Sim.pos {m : Matrix (Fin 3) (Fin 3) K} {l : K} (h : Sim m l) : 0 < l := by
  have h1 : 0 ≤ l ^ 3 := h.det ▸ mul_self_nonneg _
  have h2 : 0 ≤ l * (l * l) := by
    have : l ^ 3 = l * (l * l) := by ring
    rwa [← this]
  have h3 : 0 < l * l := lt_of_le_of_ne (mul_self_nonneg l) (mul_self_ne_zero.2 h.1).symm
  exact lt_of_le_of_ne (nonneg_of_mul_nonneg_left h2 h3) h.1.symm

theorem Sim.det_ne {m : Matrix (Fin 3) (Fin 3) K} {l : K} (h : Sim m l) : m.det ≠ 0 := by
  intro h0
  have h1 := h.det
  rw [h0, mul_zero] at h1
  exact h.1 (pow_eq_zero_iff (by norm_num) |>.1 h1.symm)

theorem Sim.inv_mul {m : Matrix (Fin 3) (Fin 3) K} {l : K} (h : Sim m l) : (l⁻¹ • (J * mᵀ * J)) * m = 1 := by
  rw [Matrix.smul_mul, Matrix.mul_assoc, Matrix.mul_assoc, ← Matrix.mul_assoc mᵀ, h.2, Matrix.mul_smul, smul_smul, inv_mul_cancel₀ h.1, one_smul, J_mul_J]

theorem Sim.inv {m : Matrix (Fin 3) (Fin 3) K} {l : K} (h : Sim m l) : m⁻¹ = l⁻¹ • (J * mᵀ * J) := Matrix.inv_eq_left_inv h.inv_mul

/-- The transposed matrix is a similitude with the same factor. -/
theorem Sim.transpose {m : Matrix (Fin 3) (Fin 3) K} {l : K} (h : Sim m l) : Sim mᵀ l := by
  refine ⟨h.1, ?_⟩
  rw [Matrix.transpose_transpose]
  have h1 : m * (l⁻¹ • (J * mᵀ * J)) = 1 := mul_eq_one_comm.1 h.inv_mul
  have h2 : m * J * mᵀ = l • ((m * (l⁻¹ • (J * mᵀ * J))) * J) := by
    rw [Matrix.mul_smul, Matrix.smul_mul, smul_smul, mul_inv_cancel₀ h.1, one_smul]
    simp only [Matrix.mul_assoc, J_mul_J, Matrix.mul_one]
  rw [h2, h1, Matrix.one_mul]

theorem Sim.mul {m n : Matrix (Fin 3) (Fin 3) K} {l k : K} (h : Sim m l) (h' : Sim n k) : Sim (m * n) (l * k) := by
  refine ⟨mul_ne_zero h.1 h'.1, ?_⟩
  have : (m * n)ᵀ * J * (m * n) = nᵀ * (mᵀ * J * m) * n := by
    rw [Matrix.transpose_mul]
    simp only [Matrix.mul_assoc]
  rw [this, h.2, Matrix.mul_smul, Matrix.smul_mul, h'.2, smul_smul]

theorem Sim.inverse {m : Matrix (Fin 3) (Fin 3) K} {l : K} (h : Sim m l) : Sim m⁻¹ l⁻¹ := by
  refine ⟨inv_ne_zero h.1, ?_⟩
  rw [h.inv, Matrix.transpose_smul, Matrix.transpose_mul, Matrix.transpose_mul, J_transpose, Matrix.transpose_transpose]
  simp only [Matrix.smul_mul, Matrix.mul_smul, smul_smul]
  have : J * (m * J) * J * (J * mᵀ * J) = l • (J : Matrix (Fin 3) (Fin 3) K) := by
    have h2 := h.transpose.2
    rw [Matrix.transpose_transpose] at h2
    calc J * (m * J) * J * (J * mᵀ * J) = J * (m * (J * (J * J)) * mᵀ) * J := by simp only [Matrix.mul_assoc]
      _ = J * (m * J * mᵀ) * J := by rw [J_mul_J, Matrix.mul_one]
      _ = l • J := by rw [h2, Matrix.mul_smul, J_mul_J, Matrix.smul_mul, Matrix.one_mul]
  rw [this, smul_smul, mul_assoc, inv_mul_cancel₀ h.1, mul_one]

theorem Sim.map {f : K →+* F} {m : Matrix (Fin 3) (Fin 3) K} {l : K} (h : Sim m l) : Sim (m.map f) (f l) := by
  refine ⟨(map_ne_zero f).2 h.1, ?_⟩
  have hJ : (J : Matrix (Fin 3) (Fin 3) F) = (J : Matrix (Fin 3) (Fin 3) K).map f := by
    ext i j
    fin_cases i <;> fin_cases j <;> simp [J]
  rw [hJ, ← Matrix.transpose_map, ← Matrix.map_mul, ← Matrix.map_mul, h.2]
  ext i j
  simp [Matrix.map_apply]

/-- **C52**. `apply_isometry` accepts exactly the matrices that preserve the quadratic form up to a factor, which is then positive. -/
theorem C52_accepted (m : Matrix (Fin 3) (Fin 3) K) : isIsometry m = true ↔ ∃ l : K, 0 < l ∧ mᵀ * J * m = l • J := by
  have key : isIsometry m = true ↔ ∃ l, Sim m l := by
    unfold isIsometry
    simp only [decide_eq_true_eq]
    generalize hD : mᵀ * J * m = D
    constructor
    · rintro ⟨h1, h2, h3⟩
      have hd : ∀ i, D i i ≠ 0 := fun i hi => h1 i i (by simp [hi])
      have ho : ∀ i j, i ≠ j → D i j = 0 := fun i j hij => by
        by_contra hne
        exact h1 i j (by simp [hij, hne])
      refine ⟨D 0 0, hd 0, ?_⟩
      rw [hD]
      ext i j
      by_cases hij : i = j
      · subst hij
        fin_cases i
        · simp [J]
        · simp [J, h2]
        · simp [J, h3]
      · rw [ho i j hij]
        fin_cases i <;> fin_cases j <;> simp_all [J]
    · rintro ⟨l, hl, h⟩
      rw [hD] at h
      subst h
      refine ⟨?_, by simp [J], by simp [J]⟩
      intro i j
      fin_cases i <;> fin_cases j <;> simp [J, hl]
  rw [key]
  constructor
  · rintro ⟨l, h⟩; exact ⟨l, h.pos, h.2⟩
  · rintro ⟨l, h, h'⟩; exact ⟨l, h.ne', h'⟩

theorem Sim.accepted {m : Matrix (Fin 3) (Fin 3) K} {l : K} (h : Sim m l) : isIsometry m = true := (C52_accepted m).2 ⟨l, h.pos, h.2⟩

theorem sim_of_accepted {m : Matrix (Fin 3) (Fin 3) K} (h : isIsometry m = true) : ∃ l, Sim m l := by
  obtain ⟨l, h1, h2⟩ := (C52_accepted m).1 h
  exact ⟨l, h1.ne', h2⟩

/-- **C52**. A matrix defines an isometry of the upper half plane exactly if it is invertible. -/
theorem C52_accepted_half_plane (m : Matrix (Fin 2) (Fin 2) K) : isIsometry (sim12 m) = true ↔ m.det ≠ 0 := by
  constructor
  · intro h
    obtain ⟨l, hl⟩ := sim_of_accepted h
    have := hl.det_ne
    rw [det_sim12] at this
    intro h0
    rw [h0] at this
    simp at this
  · intro h
    exact Sim.accepted (l := m.det * m.det) ⟨mul_self_ne_zero.2 h, C52_form m⟩

/-! ### The action on points -/

/-- A coordinate of the image of a point of the hyperboloid model. -/
def row (m : Matrix (Fin 3) (Fin 3) K) (i : Fin 3) (x y : K) : K := m i 0 * x + m i 1 * y + m i 2

theorem mulVec_eq (m : Matrix (Fin 3) (Fin 3) K) (x y : K) (i : Fin 3) : m.mulVec ![x, y, 1] i = row m i x y := by
  simp [Matrix.mulVec, dotProduct, Fin.sum_univ_three, row]

theorem Sim.form {m : Matrix (Fin 3) (Fin 3) K} {l : K} (h : Sim m l) (x y : K) :
    row m 0 x y * row m 0 x y + row m 1 x y * row m 1 x y - row m 2 x y * row m 2 x y = l * (x * x + y * y - 1) := by
  have hE := fun i j => congrFun (congrFun h.2 i) j
  have h00 := hE 0 0
  have h01 := hE 0 1
  have h02 := hE 0 2
  have h11 := hE 1 1
  have h12 := hE 1 2
  have h22 := hE 2 2
  simp [J, Matrix.mul_apply, Fin.sum_univ_three] at h00 h01 h02 h11 h12 h22
  unfold row
  linear_combination x * x * h00 + 2 * x * y * h01 + 2 * x * h02 + y * y * h11 + 2 * y * h12 + h22

theorem Sim.last {m : Matrix (Fin 3) (Fin 3) K} {l : K} (h : Sim m l) : m 2 2 * m 2 2 = m 2 0 * m 2 0 + m 2 1 * m 2 1 + l := by
  have h22 := congrFun (congrFun h.transpose.2 2) 2
  simp [J, Matrix.mul_apply, Fin.sum_univ_three] at h22
  linear_combination -h22

theorem Sim.last_ne {m : Matrix (Fin 3) (Fin 3) K} {l : K} (h : Sim m l) : m 2 2 ≠ 0 := by
  intro h0
  have h1 := h.last
  have h2 := h.pos
  have h3 := mul_self_nonneg (m 2 0)
  have h4 := mul_self_nonneg (m 2 1)
  rw [h0] at h1
  linarith

/-- The image of a point of the closed disk is on the same sheet of the hyperboloid as the image of the center. -/
theorem Sim.sheet {m : Matrix (Fin 3) (Fin 3) K} {l : K} (h : Sim m l) {x y : K} (hp : x * x + y * y ≤ 1) : 0 < m 2 2 * row m 2 x y := by
  have h1 := h.last
  have h2 := h.pos
  have h5 : (m 2 0 * x + m 2 1 * y) * (m 2 0 * x + m 2 1 * y) ≤ m 2 0 * m 2 0 + m 2 1 * m 2 1 := by
    have h6 := mul_self_nonneg (m 2 0 * y - m 2 1 * x)
    have h7 : (m 2 0 * m 2 0 + m 2 1 * m 2 1) * (x * x + y * y) ≤ (m 2 0 * m 2 0 + m 2 1 * m 2 1) * 1 :=
      mul_le_mul_of_nonneg_left hp (add_nonneg (mul_self_nonneg _) (mul_self_nonneg _))
    linarith [show (m 2 0 * x + m 2 1 * y) * (m 2 0 * x + m 2 1 * y) + (m 2 0 * y - m 2 1 * x) * (m 2 0 * y - m 2 1 * x) = (m 2 0 * m 2 0 + m 2 1 * m 2 1) * (x * x + y * y) by ring]
  unfold row
  generalize m 2 0 * x + m 2 1 * y = s at *
  have h8 : s * s < m 2 2 * m 2 2 := by linarith
  have h9 := mul_self_nonneg (s + m 2 2)
  nlinarith

theorem Sim.row_ne {m : Matrix (Fin 3) (Fin 3) K} {l : K} (h : Sim m l) {x y : K} (hp : x * x + y * y ≤ 1) : row m 2 x y ≠ 0 := by
  intro h0
  have := h.sheet hp
  rw [h0, mul_zero] at this
  exact lt_irrefl _ this

/-- The image of a point in the Klein disk. -/
def image (m : Matrix (Fin 3) (Fin 3) K) (x y : K) : K × K := (row m 0 x y / row m 2 x y, row m 1 x y / row m 2 x y)

theorem Sim.image_norm {m : Matrix (Fin 3) (Fin 3) K} {l : K} (h : Sim m l) {x y : K} (hp : x * x + y * y ≤ 1) :
    (image m x y).1 * (image m x y).1 + (image m x y).2 * (image m x y).2 = 1 - l * (1 - (x * x + y * y)) / (row m 2 x y * row m 2 x y) := by
  have h1 := h.form x y
  have h2 := h.row_ne hp
  unfold image
  dsimp only
  field_simp
  linear_combination h1

theorem Sim.image_valid {m : Matrix (Fin 3) (Fin 3) K} {l : K} (h : Sim m l) {x y : K} (hp : x * x + y * y ≤ 1) :
    (image m x y).1 * (image m x y).1 + (image m x y).2 * (image m x y).2 ≤ 1 := by
  rw [h.image_norm hp]
  have : 0 ≤ l * (1 - (x * x + y * y)) / (row m 2 x y * row m 2 x y) := div_nonneg (mul_nonneg h.pos.le (by linarith)) (mul_self_nonneg _)
  linarith

theorem applyCoords_ok {m : Matrix (Fin 3) (Fin 3) K} {l : K} (h : Sim m l) {x y : K} (hp : x * x + y * y ≤ 1) :
    applyCoords m x y = .ok (.coords (image m x y).1 (image m x y).2) := by
  unfold applyCoords
  simp only [mulVec_eq]
  rw [point_klein, if_neg]
  · rfl
  · rintro ⟨-, h1⟩
    exact absurd (h.image_valid hp) (not_le.2 h1)

/-! ### The action on geodesics -/

/-- The image of a geodesic under the inverse of the matrix. -/
def Geo.mulMatrix (g : Geo K) (n : Matrix (Fin 3) (Fin 3) K) : Geo K :=
  ⟨g.b * n 0 2 + g.c * n 1 2 + g.a * n 2 2, g.b * n 0 0 + g.c * n 1 0 + g.a * n 2 0, g.b * n 0 1 + g.c * n 1 1 + g.a * n 2 1⟩

theorem Geo.mulMatrix_valid {n : Matrix (Fin 3) (Fin 3) K} {l : K} (h : Sim n l) {g : Geo K} (hg : g.Valid) : (g.mulMatrix n).Valid := by
  have hE := fun i j => congrFun (congrFun h.transpose.2 i) j
  have h00 := hE 0 0
  have h01 := hE 0 1
  have h02 := hE 0 2
  have h11 := hE 1 1
  have h12 := hE 1 2
  have h22 := hE 2 2
  simp [J, Matrix.mul_apply, Fin.sum_univ_three] at h00 h01 h02 h11 h12 h22
  have hpos := mul_pos h.pos (sub_pos.2 hg)
  unfold Geo.Valid Geo.mulMatrix
  dsimp only
  rw [← sub_pos]
  refine lt_of_lt_of_eq hpos ?_
  linear_combination -(g.b * g.b * h00 + 2 * g.b * g.c * h01 + 2 * g.b * g.a * h02 + g.c * g.c * h11 + 2 * g.c * g.a * h12 + g.a * g.a * h22)

theorem applyGeo_ok {n : Matrix (Fin 3) (Fin 3) K} {l : K} (h : Sim n l) {g : Geo K} (hg : g.Valid) : applyGeo n g = .ok (g.mulMatrix n) := by
  have : ∀ i, (![g.b, g.c, g.a] ᵥ* n) i = g.b * n 0 i + g.c * n 1 i + g.a * n 2 i := by
    intro i
    simp [Matrix.vecMul, dotProduct, Fin.sum_univ_three]
  unfold applyGeo
  simp only [this]
  exact geodesic_of_valid true (Geo.mulMatrix_valid h hg)

theorem mulMatrix_mul (g : Geo K) (m n : Matrix (Fin 3) (Fin 3) K) : g.mulMatrix (m * n) = (g.mulMatrix m).mulMatrix n := by
  unfold Geo.mulMatrix
  ext <;> simp [Matrix.mul_apply, Fin.sum_univ_three] <;> ring

/-- The equation of the image holds for the image of a point exactly if the equation holds for the point, and it changes its sign if the isometry swaps the sheets of the hyperboloid. -/
theorem mulMatrix_eval {m n : Matrix (Fin 3) (Fin 3) K} {l : K} (h : Sim m l) (hn : n * m = 1) (g : Geo K) {x y : K} (hp : x * x + y * y ≤ 1) :
    (g.mulMatrix n).a + (g.mulMatrix n).b * (image m x y).1 + (g.mulMatrix n).c * (image m x y).2 = (g.a + g.b * x + g.c * y) / row m 2 x y := by
  have hE := fun i j => congrFun (congrFun hn i) j
  have h00 := hE 0 0
  have h01 := hE 0 1
  have h02 := hE 0 2
  have h10 := hE 1 0
  have h11 := hE 1 1
  have h12 := hE 1 2
  have h20 := hE 2 0
  have h21 := hE 2 1
  have h22 := hE 2 2
  simp [Matrix.mul_apply, Fin.sum_univ_three] at h00 h01 h02 h10 h11 h12 h20 h21 h22
  have hr := h.row_ne hp
  unfold image Geo.mulMatrix
  dsimp only
  rw [eq_div_iff hr]
  have : (g.b * n 0 2 + g.c * n 1 2 + g.a * n 2 2 + (g.b * n 0 0 + g.c * n 1 0 + g.a * n 2 0) * (row m 0 x y / row m 2 x y) + (g.b * n 0 1 + g.c * n 1 1 + g.a * n 2 1) * (row m 1 x y / row m 2 x y)) * row m 2 x y
      = (g.b * n 0 2 + g.c * n 1 2 + g.a * n 2 2) * row m 2 x y + (g.b * n 0 0 + g.c * n 1 0 + g.a * n 2 0) * row m 0 x y + (g.b * n 0 1 + g.c * n 1 1 + g.a * n 2 1) * row m 1 x y := by
    field_simp
  rw [this]
  unfold row
  linear_combination (g.b * x * h00 + g.b * y * h01 + g.b * h02) + (g.c * x * h10 + g.c * y * h11 + g.c * h12) + (g.a * x * h20 + g.a * y * h21 + g.a * h22)

/-- The direction in which the image of a geodesic passes through the image of its starting point. -/
theorem mulMatrix_start {m n : Matrix (Fin 3) (Fin 3) K} {l : K} (h : Sim m l) (hn : n * m = 1) {g : Geo K} {x y : K} (h1 : x * x + y * y = 1) (h2 : g.a + g.b * x + g.c * y = 0) :
    l * l * ((g.mulMatrix n).c * (image m x y).1 - (g.mulMatrix n).b * (image m x y).2) = m.det * (g.c * x - g.b * y) := by
  have hr := h.row_ne h1.le
  have hl := h.1
  have hadj : m.adjugate = m.det • n := by
    calc m.adjugate = m.adjugate * (m * n) := by rw [mul_eq_one_comm.1 hn, Matrix.mul_one]
      _ = m.det • n := by rw [← Matrix.mul_assoc, Matrix.adjugate_mul, Matrix.smul_mul, Matrix.one_mul]
  have hn' : n = l⁻¹ • (J * mᵀ * J) := by
    rw [← h.inv]
    exact (Matrix.inv_eq_left_inv hn).symm
  have hN : ∀ i j, l * n i j = (J * mᵀ * J : Matrix (Fin 3) (Fin 3) K) i j := by
    intro i j
    rw [hn']
    simp [hl]
  have hA := fun i j => congrFun (congrFun hadj i) j
  rw [Matrix.adjugate_fin_three] at hA
  have a0 := hA 0 2
  have a1 := hA 1 2
  have a2 := hA 2 2
  have n00 := hN 0 0
  have n01 := hN 0 1
  have n02 := hN 0 2
  have n10 := hN 1 0
  have n11 := hN 1 1
  have n12 := hN 1 2
  have n20 := hN 2 0
  have n21 := hN 2 1
  have n22 := hN 2 2
  simp [J, Matrix.mul_apply, Matrix.vecMul, dotProduct, Fin.sum_univ_three] at a0 a1 a2 n00 n01 n02 n10 n11 n12 n20 n21 n22
  have ha : g.a = -g.b * x - g.c * y := by linear_combination h2
  have key : l * l * (((g.mulMatrix n).c * row m 0 x y - (g.mulMatrix n).b * row m 1 x y)) = m.det * (g.c * x - g.b * y) * row m 2 x y := by
    have hb : l * (g.mulMatrix n).b = g.b * m 0 0 + g.c * m 0 1 - g.a * m 0 2 := by
      unfold Geo.mulMatrix
      dsimp only
      linear_combination g.b * n00 + g.c * n10 + g.a * n20
    have hc : l * (g.mulMatrix n).c = g.b * m 1 0 + g.c * m 1 1 - g.a * m 1 2 := by
      unfold Geo.mulMatrix
      dsimp only
      linear_combination g.b * n01 + g.c * n11 + g.a * n21
    have c0 : l * (m 0 1 * m 1 2 - m 0 2 * m 1 1) = - m.det * m 2 0 := by linear_combination l * a0 + m.det * n02
    have c1 : l * (m 0 0 * m 1 2 - m 0 2 * m 1 0) = m.det * m 2 1 := by linear_combination -l * a1 - m.det * n12
    have c2 : l * (m 0 0 * m 1 1 - m 0 1 * m 1 0) = m.det * m 2 2 := by linear_combination l * a2 + m.det * n22
    have e : l * l * (((g.mulMatrix n).c * row m 0 x y - (g.mulMatrix n).b * row m 1 x y)) =
        l * ((g.b * m 1 0 + g.c * m 1 1 - g.a * m 1 2) * row m 0 x y - (g.b * m 0 0 + g.c * m 0 1 - g.a * m 0 2) * row m 1 x y) := by
      linear_combination l * row m 0 x y * hc - l * row m 1 x y * hb
    rw [e, ha]
    unfold row
    linear_combination (g.c * x - g.b * y) * c2 - (g.b + (-g.b * x - g.c * y) * x) * c1 - (g.c + (-g.b * x - g.c * y) * y) * c0 + m.det * (m 2 1 * g.b - m 2 0 * g.c) * h1
  unfold image
  dsimp only
  have e2 : ((g.mulMatrix n).c * (row m 0 x y / row m 2 x y) - (g.mulMatrix n).b * (row m 1 x y / row m 2 x y)) = ((g.mulMatrix n).c * row m 0 x y - (g.mulMatrix n).b * row m 1 x y) / row m 2 x y := by
    field_simp
  rw [e2, ← mul_div_assoc, key, mul_div_assoc, div_self hr, mul_one]

/-! ### `apply_isometry` -/

/-- The matrix that acts on the points of the hyperboloid from the left. -/
noncomputable def acting (m : Matrix (Fin 3) (Fin 3) K) (onRight : Bool) : Matrix (Fin 3) (Fin 3) K := if onRight then m⁻¹ else m

theorem Sim.acting {m : Matrix (Fin 3) (Fin 3) K} {l : K} (h : Sim m l) (onRight : Bool) : ∃ k, Sim (acting m onRight) k := by
  cases onRight
  · exact ⟨l, h⟩
  · exact ⟨l⁻¹, h.inverse⟩

theorem Sim.acting_inv {m : Matrix (Fin 3) (Fin 3) K} {l : K} (h : Sim m l) (onRight : Bool) :
    (if onRight then m else m⁻¹) * Hyp.acting m onRight = 1 := by
  have hu : IsUnit m.det := h.det_ne.isUnit
  cases onRight
  · exact Matrix.nonsing_inv_mul m hu
  · exact Matrix.mul_nonsing_inv m hu

theorem Sim.other {m : Matrix (Fin 3) (Fin 3) K} {l : K} (h : Sim m l) (onRight : Bool) : ∃ k, Sim (if onRight then m else m⁻¹) k := by
  cases onRight
  · exact ⟨l⁻¹, h.inverse⟩
  · exact ⟨l, h⟩

theorem acting_det_neg {m : Matrix (Fin 3) (Fin 3) K} {l : K} (h : Sim m l) (onRight : Bool) : (Hyp.acting m onRight).det < 0 ↔ m.det < 0 := by
  cases onRight
  · exact Iff.rfl
  · show m⁻¹.det < 0 ↔ _
    rw [Matrix.det_nonsing_inv, Ring.inverse_eq_inv', inv_lt_zero]

theorem apply_start {m : Matrix (Fin 3) (Fin 3) K} (h : isIsometry m = true) (onRight : Bool) {g : Geo K} (hg : g.Valid) :
    (Pt.start g).apply m onRight = .ok (.start (if m.det < 0 then (g.mulMatrix (if onRight then m else m⁻¹)).neg else g.mulMatrix (if onRight then m else m⁻¹))) := by
  obtain ⟨l, hl⟩ := sim_of_accepted h
  obtain ⟨k, hk⟩ := hl.other onRight
  have hs : sgn m.det = -1 ↔ m.det < 0 := by
    rw [← sgn_neg_iff]
    constructor
    · intro h; rw [h]; decide
    · intro h
      rw [sgn_neg_iff] at h
      exact sgn_neg h
  show (do
    if ¬ isIsometry m then .error .valueError
    let image ← applyGeo (if onRight then m else m⁻¹) g
    pure (.start (if sgn m.det = -1 then image.neg else image)) : Except Err (Pt K)) = _
  rw [applyGeo_ok hk hg]
  simp only [h, not_true_eq_false, if_false, bind, Except.bind, pure, Except.pure, hs]

theorem apply_coords {m : Matrix (Fin 3) (Fin 3) K} (h : isIsometry m = true) (onRight : Bool) {x y : K} (hp : x * x + y * y ≤ 1) :
    (Pt.coords x y).apply m onRight = .ok (.coords (image (acting m onRight) x y).1 (image (acting m onRight) x y).2) := by
  obtain ⟨l, hl⟩ := sim_of_accepted h
  obtain ⟨k, hk⟩ := hl.acting onRight
  show (if isIsometry m then applyCoords (if onRight then m⁻¹ else m) x y else .error .valueError) = _
  rw [if_pos h]
  exact applyCoords_ok hk hp

theorem apply_geo {m : Matrix (Fin 3) (Fin 3) K} (h : isIsometry m = true) (onRight : Bool) {g : Geo K} (hg : g.Valid) :
    g.apply m onRight = .ok (g.mulMatrix (if onRight then m else m⁻¹)) := by
  obtain ⟨l, hl⟩ := sim_of_accepted h
  obtain ⟨k, hk⟩ := hl.other onRight
  unfold Geo.apply
  rw [if_pos h, applyGeo_ok hk hg]

theorem neg_map (f : K →+* F) (g : Geo K) : g.neg.map f = (g.map f).neg := by
  unfold Geo.neg Geo.map
  ext <;> simp

theorem mulMatrix_map (f : K →+* F) (g : Geo K) (n : Matrix (Fin 3) (Fin 3) K) : (g.mulMatrix n).map f = (g.map f).mulMatrix (n.map f) := by
  unfold Geo.mulMatrix Geo.map
  ext <;> simp

theorem map_image (f : K →+* F) (m : Matrix (Fin 3) (Fin 3) K) (x y : K) : image (m.map f) (f x) (f y) = (f (image m x y).1, f (image m x y).2) := by
  unfold image row
  ext <;> simp

theorem map_det (f : K →+* F) (m : Matrix (Fin 3) (Fin 3) K) : (m.map f).det = f m.det := by
  rw [RingHom.map_det]
  rfl

/-- **C52**. The image of a point under an isometry is a point, and it is where the matrix moves the point on the hyperboloid. -/
theorem C52_point {m : Matrix (Fin 3) (Fin 3) K} (h : isIsometry m = true) (onRight : Bool) {p : Pt K} (hp : p.Valid) : ∃ p', p.apply m onRight = .ok p' ∧ p'.Valid := by
  obtain ⟨l, hl⟩ := sim_of_accepted h
  match p with
  | .coords x y =>
    obtain ⟨k, hk⟩ := hl.acting onRight
    exact ⟨_, apply_coords h onRight hp, hk.image_valid hp⟩
  | .start g =>
    obtain ⟨k, hk⟩ := hl.other onRight
    refine ⟨_, apply_start h onRight hp, ?_⟩
    have := Geo.mulMatrix_valid hk (show g.Valid from hp)
    show Geo.Valid (if _ then _ else _)
    by_cases hd : m.det < 0
    · rw [if_pos hd]; exact this.neg
    · rw [if_neg hd]; exact this

theorem loc_norm {f : K →+* F} (hf : StrictMono f) {p : Pt K} (hp : p.Valid) {X Y : F} (hl : Loc f p X Y) : X * X + Y * Y ≤ 1 := by
  match p with
  | .coords x y =>
    obtain ⟨rfl, rfl⟩ := hl
    rw [← map_mul, ← map_mul, ← map_add, ← map_one f]
    exact hf.monotone hp
  | .start g => exact hl.1.le

/-- **C52**. The image of a point is where the matrix moves the point on the hyperboloid. -/
theorem C52_point_position {f : K →+* F} (hf : StrictMono f) {m : Matrix (Fin 3) (Fin 3) K} {onRight : Bool} {p p' : Pt K} (hp : p.Valid) (h : p.apply m onRight = .ok p')
    {X Y : F} (hl : Loc f p X Y) : row ((acting m onRight).map f) 2 X Y ≠ 0 ∧ Loc f p' (image ((acting m onRight).map f) X Y).1 (image ((acting m onRight).map f) X Y).2 := by
  have hacc : isIsometry m = true := by
    match p with
    | .coords x y =>
      by_contra hc
      change (if isIsometry m then applyCoords (if onRight then m⁻¹ else m) x y else .error .valueError) = _ at h
      rw [if_neg hc] at h
      cases h
    | .start g =>
      by_contra hc
      change (do
        if ¬ isIsometry m then .error .valueError
        let image ← applyGeo (if onRight then m else m⁻¹) g
        pure (.start (if sgn m.det = -1 then image.neg else image)) : Except Err (Pt K)) = _ at h
      simp [hc, bind, Except.bind] at h
  obtain ⟨l, hs⟩ := sim_of_accepted hacc
  obtain ⟨k, hk⟩ := hs.acting onRight
  refine ⟨hk.map.row_ne (loc_norm hf hp hl), ?_⟩
  match p with
  | .coords x y =>
    rw [apply_coords hacc onRight hp] at h
    injection h with h
    subst h
    obtain ⟨rfl, rfl⟩ := hl
    rw [map_image]
    exact ⟨rfl, rfl⟩
  | .start g =>
    rw [apply_start hacc onRight hp] at h
    injection h with h
    subst h
    obtain ⟨h1, h2, h3⟩ := hl
    have hinv := hs.acting_inv onRight
    have hinv' := congrArg (fun n : Matrix (Fin 3) (Fin 3) K => n.map f) hinv
    simp only [Matrix.map_mul, Matrix.map_one f (map_zero f) (map_one f)] at hinv'
    have hstart := mulMatrix_start hk.map hinv' h1 h2
    have heval := mulMatrix_eval hk.map hinv' (g.map f) h1.le
    rw [h2, zero_div] at heval
    have hkpos := hk.map (f := f) |>.pos
    have hkk := mul_pos hkpos hkpos
    have hn := hk.map (f := f) |>.image_norm h1.le
    rw [h1, sub_self, mul_zero, zero_div, sub_zero] at hn
    rw [map_det] at hstart
    show IsStart (Geo.map f (if _ then _ else _)) _ _
    by_cases hd : m.det < 0
    · rw [if_pos hd, neg_map, mulMatrix_map]
      refine ⟨hn, ?_, ?_⟩
      · unfold Geo.neg
        dsimp only
        linear_combination -heval
      · unfold Geo.neg
        dsimp only
        have hd' : f (acting m onRight).det < 0 := by
          rw [← map_zero f]
          exact hf ((acting_det_neg hs onRight).2 hd)
        have := mul_pos_of_neg_of_neg hd' h3
        rw [← hstart] at this
        have := (mul_pos_iff_of_pos_left hkk).1 this
        linarith
    · rw [if_neg hd, mulMatrix_map]
      refine ⟨hn, heval, ?_⟩
      have hd' : 0 < f (acting m onRight).det := by
        rw [← map_zero f]
        refine hf (lt_of_le_of_ne (not_lt.1 fun hc => hd ((acting_det_neg hs onRight).1 hc)) hk.det_ne.symm)
      have := mul_neg_of_pos_of_neg hd' h3
      rw [← hstart] at this
      by_contra hc
      exact absurd this (not_lt.2 (mul_nonneg hkk.le (not_lt.1 hc)))

/-- **C52**. The image of a geodesic under an isometry is a geodesic, and it contains the image of a point exactly if the geodesic contains the point. -/
theorem C52_geodesic {f : K →+* F} (hf : StrictMono f) {m : Matrix (Fin 3) (Fin 3) K} (h : isIsometry m = true) (onRight : Bool) {g : Geo K} (hg : g.Valid) :
    ∃ g', g.apply m onRight = .ok g' ∧ g'.Valid ∧ ∀ p p' : Pt K, p.Valid → p.apply m onRight = .ok p' → ∀ X Y : F, Loc f p X Y → g'.contains p' = g.contains p := by
  obtain ⟨l, hs⟩ := sim_of_accepted h
  obtain ⟨k, hk⟩ := hs.acting onRight
  obtain ⟨k', hk'⟩ := hs.other onRight
  have hgv := Geo.mulMatrix_valid hk' hg
  refine ⟨_, apply_geo h onRight hg, hgv, ?_⟩
  intro p p' hp hpp' X Y hl
  obtain ⟨hr, hl'⟩ := C52_point_position hf hp hpp' hl
  have hpv' : p'.Valid := by
    obtain ⟨q, hq, hqv⟩ := C52_point h onRight hp
    rw [hpp'] at hq
    injection hq with hq
    exact hq ▸ hqv
  rw [C51_contains hf hgv hpv' hl', C51_contains hf hg hp hl]
  congr 1
  rw [decide_eq_decide]
  have hinv' := congrArg (fun n : Matrix (Fin 3) (Fin 3) K => n.map f) (hs.acting_inv onRight)
  simp only [Matrix.map_mul, Matrix.map_one f (map_zero f) (map_one f)] at hinv'
  have heval := mulMatrix_eval hk.map hinv' (g.map f) (loc_norm hf hp hl)
  rw [← mulMatrix_map] at heval
  have heval' : f (g.mulMatrix (if onRight then m else m⁻¹)).a + f (g.mulMatrix (if onRight then m else m⁻¹)).b * (image ((acting m onRight).map f) X Y).1
      + f (g.mulMatrix (if onRight then m else m⁻¹)).c * (image ((acting m onRight).map f) X Y).2 = (f g.a + f g.b * X + f g.c * Y) / row ((acting m onRight).map f) 2 X Y := heval
  rw [heval', div_eq_zero_iff, or_iff_left hr]

theorem acting_last {m : Matrix (Fin 3) (Fin 3) K} {l : K} (h : Sim m l) (onRight : Bool) : 0 < (acting m onRight) 2 2 ↔ 0 < m 2 2 := by
  cases onRight
  · exact Iff.rfl
  · show 0 < m⁻¹ 2 2 ↔ _
    rw [h.inv]
    have : (l⁻¹ • (J * mᵀ * J : Matrix (Fin 3) (Fin 3) K)) 2 2 = l⁻¹ * m 2 2 := by
      simp [J, Matrix.mul_apply, Matrix.vecMul, dotProduct, Fin.sum_univ_three]
    rw [this]
    exact mul_pos_iff_of_pos_left (inv_pos.2 h.pos)

/-- **C52**, for matrices that do not swap the sheets of the hyperboloid: the image of a half space contains the image of a point exactly if the half space contains the point. -/
theorem C52_half_space_partial {f : K →+* F} (hf : StrictMono f) {sqrt : K → Option K} (hq : IsSqrt sqrt) {m : Matrix (Fin 3) (Fin 3) K} (h : isIsometry m = true) (h22 : 0 < m 2 2) (onRight : Bool) {g : Geo K} (hg : g.Valid) :
    ∃ g', g.apply m onRight = .ok g' ∧ ∀ p p' : Pt K, p.Valid → p.apply m onRight = .ok p' → ∀ X Y : F, Loc f p X Y → g'.left sqrt p' = g.left sqrt p := by
  obtain ⟨l, hs⟩ := sim_of_accepted h
  obtain ⟨k, hk⟩ := hs.acting onRight
  obtain ⟨k', hk'⟩ := hs.other onRight
  have hgv := Geo.mulMatrix_valid hk' hg
  refine ⟨_, apply_geo h onRight hg, ?_⟩
  intro p p' hp hpp' X Y hl
  obtain ⟨hr, hl'⟩ := C52_point_position hf hp hpp' hl
  have hpv' : p'.Valid := by
    obtain ⟨q, hq, hqv⟩ := C52_point h onRight hp
    rw [hpp'] at hq
    injection hq with hq
    exact hq ▸ hqv
  rw [C51_half_space hf hq hgv hpv' hl', C51_half_space hf hq hg hp hl]
  congr 1
  rw [decide_eq_decide]
  have hinv' := congrArg (fun n : Matrix (Fin 3) (Fin 3) K => n.map f) (hs.acting_inv onRight)
  simp only [Matrix.map_mul, Matrix.map_one f (map_zero f) (map_one f)] at hinv'
  have hnorm := loc_norm hf hp hl
  have heval := mulMatrix_eval hk.map hinv' (g.map f) hnorm
  rw [← mulMatrix_map] at heval
  have heval' : f (g.mulMatrix (if onRight then m else m⁻¹)).a + f (g.mulMatrix (if onRight then m else m⁻¹)).b * (image ((acting m onRight).map f) X Y).1
      + f (g.mulMatrix (if onRight then m else m⁻¹)).c * (image ((acting m onRight).map f) X Y).2 = (f g.a + f g.b * X + f g.c * Y) / row ((acting m onRight).map f) 2 X Y := heval
  have hsheet := hk.map (f := f) |>.sheet hnorm
  have h1 : 0 < ((acting m onRight).map f) 2 2 := by
    rw [Matrix.map_apply, ← map_zero f]
    exact hf ((acting_last hs onRight).2 h22)
  have h2 := (mul_pos_iff_of_pos_left h1).1 hsheet
  rw [heval', le_div_iff₀ h2, zero_mul]

/-- **C52**. Invertible matrices that act on the upper half plane never swap the sheets. -/
theorem C52_sheet (m : Matrix (Fin 2) (Fin 2) K) (h : m.det ≠ 0) : 0 < sim12 m 2 2 := by
  rw [Matrix.det_fin_two] at h
  have : sim12 m 2 2 = (m 0 0 ^ 2 + m 0 1 ^ 2 + m 1 0 ^ 2 + m 1 1 ^ 2) / 2 := by simp [sim12]
  rw [this]
  rcases (show 0 ≤ (m 0 0 ^ 2 + m 0 1 ^ 2 + m 1 0 ^ 2 + m 1 1 ^ 2) / 2 by positivity).lt_or_eq with h1 | h1
  · exact h1
  · exfalso
    have h2 := sq_nonneg (m 0 0)
    have h3 := sq_nonneg (m 0 1)
    have h4 := sq_nonneg (m 1 0)
    have h5 := sq_nonneg (m 1 1)
    have h6 : m 0 0 = 0 := pow_eq_zero_iff (two_ne_zero) |>.1 (by linarith)
    have h7 : m 0 1 = 0 := pow_eq_zero_iff (two_ne_zero) |>.1 (by linarith)
    exact h (by rw [h6, h7]; ring)

/-- **C52**. The half spaces of the upper half plane are mapped to the half spaces of the images. -/
theorem C52_half_space_gl2 {f : K →+* F} (hf : StrictMono f) {sqrt : K → Option K} (hq : IsSqrt sqrt) (m : Matrix (Fin 2) (Fin 2) K) (h : m.det ≠ 0) (onRight : Bool) {g : Geo K} (hg : g.Valid) :
    ∃ g', g.apply (sim12 m) onRight = .ok g' ∧ ∀ p p' : Pt K, p.Valid → p.apply (sim12 m) onRight = .ok p' → ∀ X Y : F, Loc f p X Y → g'.left sqrt p' = g.left sqrt p :=
  C52_half_space_partial hf hq ((C52_accepted_half_plane m).2 h) (C52_sheet m h) onRight hg

/-- **C52** fails for a matrix that swaps the sheets of the hyperboloid: such a matrix is accepted, but a half space is mapped to the complement of the half space that contains the images of its points. -/
theorem C52_half_space_violation : ∃ (m : Matrix (Fin 3) (Fin 3) ℚ) (g g' : Geo ℚ) (p p' : Pt ℚ), isIsometry m = true ∧ m.det = 1 ∧ g.Valid ∧ p.Valid ∧ g.apply m false = .ok g' ∧ p.apply m false = .ok p' ∧
    ∀ sqrt, g.left sqrt p = .ok true ∧ g'.left sqrt p' = .ok false := by
  have hacc : isIsometry (!![1, 0, 0; 0, -1, 0; 0, 0, -1] : Matrix (Fin 3) (Fin 3) ℚ) = true := by decide +kernel
  have hinv : (!![1, 0, 0; 0, -1, 0; 0, 0, -1] : Matrix (Fin 3) (Fin 3) ℚ)⁻¹ = !![1, 0, 0; 0, -1, 0; 0, 0, -1] := Matrix.inv_eq_left_inv (by decide +kernel)
  have hp : (Pt.coords (1 / 2) 0 : Pt ℚ).Valid := by show (1 / 2 : ℚ) * (1 / 2) + 0 * 0 ≤ 1; norm_num
  have hg : (⟨0, 1, 0⟩ : Geo ℚ).Valid := by unfold Geo.Valid; norm_num
  refine ⟨_, ⟨0, 1, 0⟩, ⟨0, 1, 0⟩, .coords (1 / 2) 0, .coords (-1 / 2) 0, hacc, by decide +kernel, hg, hp, ?_, ?_, fun sqrt => ⟨?_, ?_⟩⟩
  · rw [apply_geo hacc false hg]
    simp only [Bool.false_eq_true, if_false, hinv]
    decide +kernel
  · rw [apply_coords hacc false hp]
    decide +kernel
  · show Except.ok (Geo.leftCoords _ _ _) = _
    rw [leftCoords_eq]
    norm_num
  · show Except.ok (Geo.leftCoords _ _ _) = _
    rw [leftCoords_eq]
    norm_num

/-- The hypotheses of the theorems about isometries are satisfied by a rotation around `i` in the upper half plane, a geodesic and a point. -/
example : isIsometry (sim12 (!![3, -4; 4, 3] : Matrix (Fin 2) (Fin 2) ℚ)) = true ∧ 0 < sim12 (!![3, -4; 4, 3] : Matrix (Fin 2) (Fin 2) ℚ) 2 2 ∧ (⟨1, 2, 3⟩ : Geo ℚ).Valid ∧ (Pt.start (⟨1, 2, 3⟩ : Geo ℚ)).Valid := by
  refine ⟨by decide +kernel, by decide +kernel, ?_, ?_⟩
  · show (1 : ℚ) * 1 < 2 * 2 + 3 * 3
    norm_num
  · show (1 : ℚ) * 1 < 2 * 2 + 3 * 3
    norm_num

/-! ### The action on the upper half plane -/

/-- The image of a point of the upper half plane, with `y` negated for an orientation reversing isometry. -/
theorem image_sim12 (m : Matrix (Fin 2) (Fin 2) K) {x y x' y' : K} (hN : (m 1 0 * x + m 1 1) * (m 1 0 * x + m 1 1) + m 1 0 * y * (m 1 0 * y) ≠ 0)
    (h1 : (m 1 0 * x + m 1 1) * x' - m 1 0 * y * y' = m 0 0 * x + m 0 1) (h2 : (m 1 0 * x + m 1 1) * y' + m 1 0 * y * x' = m 0 0 * y) :
    image (sim12 m) (toKlein x y).1 (toKlein x y).2 = toKlein x' y' := by
  have hd := (denom_pos x y).ne'
  have hd' := (denom_pos x' y').ne'
  have hx' : x' * ((m 1 0 * x + m 1 1) * (m 1 0 * x + m 1 1) + m 1 0 * y * (m 1 0 * y)) = (m 0 0 * x + m 0 1) * (m 1 0 * x + m 1 1) + m 0 0 * m 1 0 * (y * y) := by
    linear_combination (m 1 0 * x + m 1 1) * h1 + m 1 0 * y * h2
  have hn' : (x' * x' + y' * y') * ((m 1 0 * x + m 1 1) * (m 1 0 * x + m 1 1) + m 1 0 * y * (m 1 0 * y)) = (m 0 0 * x + m 0 1) * (m 0 0 * x + m 0 1) + m 0 0 * y * (m 0 0 * y) := by
    linear_combination ((m 1 0 * x + m 1 1) * x' - m 1 0 * y * y' + (m 0 0 * x + m 0 1)) * h1 + ((m 1 0 * x + m 1 1) * y' + m 1 0 * y * x' + m 0 0 * y) * h2
  have r0 : row (sim12 m) 0 (toKlein x y).1 (toKlein x y).2 * (1 + x * x + y * y) = 2 * ((m 0 0 * x + m 0 1) * (m 1 0 * x + m 1 1) + m 0 0 * m 1 0 * (y * y)) := by
    simp [row, sim12, toKlein]
    generalize hD : 1 + x * x + y * y = D at *
    field_simp
    rw [← hD]
    ring
  have r1 : row (sim12 m) 1 (toKlein x y).1 (toKlein x y).2 * (1 + x * x + y * y) = (m 0 0 * x + m 0 1) * (m 0 0 * x + m 0 1) + m 0 0 * y * (m 0 0 * y) - ((m 1 0 * x + m 1 1) * (m 1 0 * x + m 1 1) + m 1 0 * y * (m 1 0 * y)) := by
    simp [row, sim12, toKlein]
    generalize hD : 1 + x * x + y * y = D at *
    field_simp
    rw [← hD]
    ring
  have r2 : row (sim12 m) 2 (toKlein x y).1 (toKlein x y).2 * (1 + x * x + y * y) = (m 0 0 * x + m 0 1) * (m 0 0 * x + m 0 1) + m 0 0 * y * (m 0 0 * y) + ((m 1 0 * x + m 1 1) * (m 1 0 * x + m 1 1) + m 1 0 * y * (m 1 0 * y)) := by
    simp [row, sim12, toKlein]
    generalize hD : 1 + x * x + y * y = D at *
    field_simp
    rw [← hD]
    ring
  rw [← hx'] at r0
  rw [← hn'] at r1 r2
  generalize (m 1 0 * x + m 1 1) * (m 1 0 * x + m 1 1) + m 1 0 * y * (m 1 0 * y) = N at *
  have hr2 : row (sim12 m) 2 (toKlein x y).1 (toKlein x y).2 ≠ 0 := by
    intro h0
    rw [h0, zero_mul] at r2
    have : N * (1 + x' * x' + y' * y') = 0 := by linear_combination -r2
    exact (mul_ne_zero hN hd') this
  unfold image
  have e0 : row (sim12 m) 0 (toKlein x y).1 (toKlein x y).2 / row (sim12 m) 2 (toKlein x y).1 (toKlein x y).2 = 2 * x' / (1 + x' * x' + y' * y') := by
    rw [div_eq_div_iff hr2 hd']
    apply mul_right_cancel₀ hd
    linear_combination (1 + x' * x' + y' * y') * r0 - 2 * x' * r2
  have e1 : row (sim12 m) 1 (toKlein x y).1 (toKlein x y).2 / row (sim12 m) 2 (toKlein x y).1 (toKlein x y).2 = (-1 + x' * x' + y' * y') / (1 + x' * x' + y' * y') := by
    rw [div_eq_div_iff hr2 hd']
    apply mul_right_cancel₀ hd
    linear_combination (1 + x' * x' + y' * y') * r1 - (-1 + x' * x' + y' * y') * r2
  rw [e0, e1]
  rfl

theorem toKlein_neg (x y : K) : toKlein x (-y) = toKlein x y := by
  unfold toKlein
  rw [neg_mul_neg]

/-- **C52**. An invertible matrix acts on the points `x + iy` of the upper half plane by the Moebius transformation `(az + b)/(cz + d)`, where `z` is `x + iy` or, if the determinant is negative, `x - iy`; unless the denominator vanishes, when the image is infinity. -/
theorem C52_moebius (m : Matrix (Fin 2) (Fin 2) K) (h : m.det ≠ 0) {x y : K} (hy : 0 ≤ y) {p : Pt K} (hp : point x y .halfPlane true = .ok p) :
    let Y := if 0 < m.det then y else -y
    (¬ (m 1 0 * x + m 1 1 = 0 ∧ m 1 0 * Y = 0) → ∃ x' y' p', 0 ≤ y' ∧ (m 1 0 * x + m 1 1) * x' - m 1 0 * Y * y' = m 0 0 * x + m 0 1 ∧ (m 1 0 * x + m 1 1) * y' + m 1 0 * Y * x' = m 0 0 * Y ∧
      point x' y' .halfPlane true = .ok p' ∧ p.apply (sim12 m) false = .ok p') ∧
    (m 1 0 * x + m 1 1 = 0 ∧ m 1 0 * Y = 0 → p.apply (sim12 m) false = .ok infinity) := by
  intro Y
  have hacc := (C52_accepted_half_plane m).2 h
  rw [C51_point, if_neg (not_lt.2 hy)] at hp
  injection hp with hp
  subst hp
  have hYk : toKlein x y = toKlein x Y := by
    by_cases hd : 0 < m.det
    · rw [show Y = y from if_pos hd]
    · rw [show Y = -y from if_neg hd, toKlein_neg]
  have hdY : 0 ≤ m.det * Y := by
    by_cases hd : 0 < m.det
    · rw [show Y = y from if_pos hd]; exact mul_nonneg hd.le hy
    · rw [show Y = -y from if_neg hd]; nlinarith [not_lt.1 hd]
  rw [apply_coords hacc false (toKlein_valid x y), show acting (sim12 m) false = sim12 m from rfl, hYk]
  clear_value Y
  constructor
  · intro hne
    have hN : (m 1 0 * x + m 1 1) * (m 1 0 * x + m 1 1) + m 1 0 * Y * (m 1 0 * Y) ≠ 0 := by
      intro h0
      have h1 := mul_self_nonneg (m 1 0 * x + m 1 1)
      have h2 := mul_self_nonneg (m 1 0 * Y)
      exact hne ⟨mul_self_eq_zero.1 (by linarith), mul_self_eq_zero.1 (by linarith)⟩
    have hNpos := lt_of_le_of_ne (add_nonneg (mul_self_nonneg (m 1 0 * x + m 1 1)) (mul_self_nonneg (m 1 0 * Y))) hN.symm
    rw [Matrix.det_fin_two] at hdY
    have key : ∃ x' y', 0 ≤ y' ∧ (m 1 0 * x + m 1 1) * x' - m 1 0 * Y * y' = m 0 0 * x + m 0 1 ∧ (m 1 0 * x + m 1 1) * y' + m 1 0 * Y * x' = m 0 0 * Y := by
      refine ⟨((m 0 0 * x + m 0 1) * (m 1 0 * x + m 1 1) + m 0 0 * m 1 0 * (Y * Y)) / ((m 1 0 * x + m 1 1) * (m 1 0 * x + m 1 1) + m 1 0 * Y * (m 1 0 * Y)),
        (m 0 0 * m 1 1 - m 0 1 * m 1 0) * Y / ((m 1 0 * x + m 1 1) * (m 1 0 * x + m 1 1) + m 1 0 * Y * (m 1 0 * Y)), div_nonneg hdY hNpos.le, ?_, ?_⟩
      · generalize hD : (m 1 0 * x + m 1 1) * (m 1 0 * x + m 1 1) + m 1 0 * Y * (m 1 0 * Y) = N at *
        field_simp
        rw [← hD]
        ring
      · generalize hD : (m 1 0 * x + m 1 1) * (m 1 0 * x + m 1 1) + m 1 0 * Y * (m 1 0 * Y) = N at *
        field_simp
        rw [← hD]
        ring
    obtain ⟨x', y', hy', h1, h2⟩ := key
    refine ⟨x', y', _, hy', h1, h2, by rw [C51_point, if_neg (not_lt.2 hy')], ?_⟩
    rw [image_sim12 m hN h1 h2]
  · rintro ⟨h1, h2⟩
    have hd := (denom_pos x Y).ne'
    have h3 : m 1 1 = -(m 1 0 * x) := by linear_combination h1
    have hne : m 0 0 * x + m 0 1 ≠ 0 ∧ m 1 0 ≠ 0 := by
      rw [Matrix.det_fin_two, h3] at h
      constructor
      · intro h0; exact h (by linear_combination -m 1 0 * h0)
      · intro h0; exact h (by rw [h0]; ring)
    have hY0 : Y = 0 := (mul_eq_zero.1 h2).resolve_left hne.2
    subst hY0
    have r0 : row (sim12 m) 0 (toKlein x 0).1 (toKlein x 0).2 = 0 := by
      simp [row, sim12, toKlein, h3] at hd ⊢
      field_simp
      ring
    have r12 : row (sim12 m) 1 (toKlein x 0).1 (toKlein x 0).2 = row (sim12 m) 2 (toKlein x 0).1 (toKlein x 0).2 := by
      simp [row, sim12, toKlein, h3] at hd ⊢
      field_simp
      ring
    have r2 : row (sim12 m) 2 (toKlein x 0).1 (toKlein x 0).2 ≠ 0 := by
      obtain ⟨l, hl⟩ := sim_of_accepted hacc
      exact hl.row_ne (toKlein_valid x 0)
    unfold image infinity
    rw [r0, r12, zero_div, div_self r2]

/-! ### The action is a group action -/

theorem image_mul {m n : Matrix (Fin 3) (Fin 3) K} {l k : K} (hm : Sim m l) (hn : Sim n k) {x y : K} (hp : x * x + y * y ≤ 1) : image (m * n) x y = image m (image n x y).1 (image n x y).2 := by
  have h1 := hn.row_ne hp
  have h2 : ∀ i, row m i (image n x y).1 (image n x y).2 = row (m * n) i x y / row n 2 x y := by
    intro i
    unfold image
    dsimp only
    rw [eq_div_iff h1]
    have : row m i (row n 0 x y / row n 2 x y) (row n 1 x y / row n 2 x y) * row n 2 x y = m i 0 * row n 0 x y + m i 1 * row n 1 x y + m i 2 * row n 2 x y := by
      show (m i 0 * (row n 0 x y / row n 2 x y) + m i 1 * (row n 1 x y / row n 2 x y) + m i 2) * row n 2 x y = _
      field_simp
    rw [this]
    simp [row, Matrix.mul_apply, Fin.sum_univ_three]
    ring
  show _ = (row m 0 _ _ / row m 2 _ _, row m 1 _ _ / row m 2 _ _)
  rw [h2, h2, h2]
  unfold image
  rw [div_div_div_cancel_right₀ h1, div_div_div_cancel_right₀ h1]

theorem neg_mulMatrix (g : Geo K) (n : Matrix (Fin 3) (Fin 3) K) : g.neg.mulMatrix n = (g.mulMatrix n).neg := by
  unfold Geo.mulMatrix Geo.neg
  ext <;> dsimp only <;> ring

theorem neg_neg' (g : Geo K) : g.neg.neg = g := by
  unfold Geo.neg
  ext <;> simp

/-- **C52**. Applying a product of isometries is applying one after the other. -/
theorem C52_compose {m n : Matrix (Fin 3) (Fin 3) K} (hm : isIsometry m = true) (hn : isIsometry n = true) {p : Pt K} (hp : p.Valid) {g : Geo K} (hg : g.Valid) :
    isIsometry (m * n) = true ∧ p.apply (m * n) false = (p.apply n false >>= fun q => q.apply m false) ∧ g.apply (m * n) false = (g.apply n false >>= fun h => h.apply m false) := by
  obtain ⟨l, hl⟩ := sim_of_accepted hm
  obtain ⟨k, hk⟩ := sim_of_accepted hn
  have hmn := (hl.mul hk).accepted
  obtain ⟨k', hk'⟩ := hk.other false
  refine ⟨hmn, ?_, ?_⟩
  · match p with
    | .coords x y =>
      have h1 := hk.image_valid (show x * x + y * y ≤ 1 from hp)
      rw [apply_coords hmn false hp, apply_coords hn false hp]
      show _ = (Pt.coords (image n x y).1 (image n x y).2).apply m false
      rw [apply_coords hm false h1]
      show Except.ok (Pt.coords (image (m * n) x y).1 (image (m * n) x y).2) = .ok (Pt.coords (image m (image n x y).1 (image n x y).2).1 (image m (image n x y).1 (image n x y).2).2)
      rw [image_mul hl hk hp]
    | .start g =>
      have hg : g.Valid := hp
      have h1 := Geo.mulMatrix_valid hk' hg
      rw [apply_start hmn false hg, apply_start hn false hg]
      show _ = (Pt.start _).apply m false
      rw [apply_start hm false (by by_cases hd : n.det < 0; (· rw [if_pos hd]; exact h1.neg); (· rw [if_neg hd]; exact h1))]
      simp only [Bool.false_eq_true, if_false]
      rw [Matrix.mul_inv_rev, mulMatrix_mul, Matrix.det_mul]
      have hdm := hl.det_ne
      have hdn := hk.det_ne
      congr 2
      by_cases a : m.det < 0 <;> by_cases b : n.det < 0
      · rw [if_neg (not_lt.2 (mul_pos_of_neg_of_neg a b).le), if_pos a, if_pos b, neg_mulMatrix, neg_neg']
      · have b' := lt_of_le_of_ne (not_lt.1 b) hdn.symm
        rw [if_pos (mul_neg_of_neg_of_pos a b'), if_pos a, if_neg b]
      · have a' := lt_of_le_of_ne (not_lt.1 a) hdm.symm
        rw [if_pos (mul_neg_of_pos_of_neg a' b), if_neg a, if_pos b, neg_mulMatrix]
      · have a' := lt_of_le_of_ne (not_lt.1 a) hdm.symm
        have b' := lt_of_le_of_ne (not_lt.1 b) hdn.symm
        rw [if_neg (not_lt.2 (mul_pos a' b').le), if_neg a, if_neg b]
  · have h1 := Geo.mulMatrix_valid hk' hg
    rw [apply_geo hmn false hg, apply_geo hn false hg]
    show _ = Geo.apply m false _
    rw [apply_geo hm false h1]
    simp only [Bool.false_eq_true, if_false]
    rw [Matrix.mul_inv_rev, mulMatrix_mul]

theorem acting_one : acting (1 : Matrix (Fin 3) (Fin 3) K) false = 1 := rfl

theorem sim_one : Sim (1 : Matrix (Fin 3) (Fin 3) K) 1 := ⟨one_ne_zero, by simp⟩

/-- **C52**. The identity matrix does nothing. -/
theorem C52_identity {p : Pt K} (hp : p.Valid) {g : Geo K} (hg : g.Valid) : p.apply 1 false = .ok p ∧ g.apply 1 false = .ok g := by
  have hacc := (sim_one (K := K)).accepted
  have hone : ∀ g : Geo K, g.mulMatrix 1 = g := by
    intro g
    unfold Geo.mulMatrix
    ext <;> simp
  constructor
  · match p with
    | .coords x y =>
      rw [apply_coords hacc false hp, acting_one]
      simp [image, row]
    | .start g =>
      rw [apply_start hacc false hp]
      simp [hone]
  · rw [apply_geo hacc false hg]
    simp [hone]

/-- **C52**. The action from the right is the action of the inverse matrix. -/
theorem C52_on_right {m : Matrix (Fin 3) (Fin 3) K} (hm : isIsometry m = true) {p : Pt K} (hp : p.Valid) {g : Geo K} (hg : g.Valid) :
    p.apply m true = p.apply m⁻¹ false ∧ g.apply m true = g.apply m⁻¹ false := by
  obtain ⟨l, hl⟩ := sim_of_accepted hm
  have hi := hl.inverse.accepted
  have hinv : m⁻¹⁻¹ = m := Matrix.nonsing_inv_nonsing_inv m hl.det_ne.isUnit
  constructor
  · match p with
    | .coords x y =>
      rw [apply_coords hm true hp, apply_coords hi false hp]
      rfl
    | .start g =>
      rw [apply_start hm true hp, apply_start hi false hp]
      simp only [Bool.false_eq_true, if_true, if_false, hinv]
      have : m⁻¹.det < 0 ↔ m.det < 0 := acting_det_neg hl true
      simp only [this]
  · rw [apply_geo hm true hg, apply_geo hi false hg]
    simp only [Bool.false_eq_true, if_true, if_false, hinv]

/-! ### From the hyperboloid model to the upper half plane -/

/-- **C52**. The 2x2 matrix that is found for an isometry of the hyperboloid model encodes this isometry. -/
theorem C52_gl2 {sqrt cbrt : K → Option K} (hs : IsSqrt sqrt) {m : Matrix (Fin 3) (Fin 3) K} {g : Matrix (Fin 2) (Fin 2) K} (h : gl2 sqrt cbrt m = .ok g) : sim12 g = m := by
  unfold gl2 at h
  simp only [bind, Except.bind] at h
  cases h0 : root (cbrt m.det) with
  | error e => rw [h0] at h; cases h
  | ok e =>
    rw [h0] at h
    dsimp only at h
    generalize (if sgn m.det ≠ sgn e then e * -1 else e) = e' at h
    have hroot : ∀ x y, root (sqrt x) = .ok y → y * y = x := by
      intro x y hxy
      unfold root at hxy
      cases hq : sqrt x with
      | none => rw [hq] at hxy; cases hxy
      | some z =>
        rw [hq] at hxy
        injection hxy with hxy
        subst hxy
        exact (hs.sound x z hq).2
    cases ha : root (sqrt ((m 1 2 + m 2 2 + m 2 1 + m 1 1) / 2)) with
    | error e => rw [ha] at h; cases h
    | ok pa =>
    rw [ha] at h; dsimp only at h
    cases hb : root (sqrt ((m 1 2 + m 2 2 - m 2 1 - m 1 1) / 2)) with
    | error e => rw [hb] at h; cases h
    | ok pb =>
    rw [hb] at h; dsimp only at h
    cases hc : root (sqrt ((m 2 1 + m 2 2 - m 1 2 - m 1 1) / 2)) with
    | error e => rw [hc] at h; cases h
    | ok pc =>
    rw [hc] at h; dsimp only at h
    cases hd : root (sqrt ((m 1 1 + m 2 2 - m 1 2 - m 2 1) / 2)) with
    | error e => rw [hd] at h; cases h
    | ok pd =>
    rw [hd] at h; dsimp only at h
    have ha := hroot _ _ ha
    have hb := hroot _ _ hb
    have hc := hroot _ _ hc
    have hd := hroot _ _ hd
    split at h
    · rename_i s hf
      injection h with h
      have hfit := List.find?_some hf
      have hmem := List.mem_of_find?_eq_some hf
      have hsq : s.1 * s.1 = 1 ∧ s.2.1 * s.2.1 = 1 ∧ s.2.2.1 * s.2.2.1 = 1 ∧ s.2.2.2 * s.2.2.2 = 1 := by
        simp only [signs, List.mem_flatMap, List.mem_map, List.mem_cons, List.not_mem_nil, or_false] at hmem
        obtain ⟨sa, ha, sb, hb, sc, hc, sd, hd, rfl⟩ := hmem
        dsimp only
        refine ⟨?_, ?_, ?_, ?_⟩
        · rcases ha with rfl | rfl <;> ring
        · rcases hb with rfl | rfl <;> ring
        · rcases hc with rfl | rfl <;> ring
        · rcases hd with rfl | rfl <;> ring
      obtain ⟨sa, sb, sc, sd⟩ := s
      simp only [signFits, decide_eq_true_eq] at hfit
      dsimp only at hsq h
      obtain ⟨q1, q2, q3, q4⟩ := hsq
      obtain ⟨f1, f2, f3, f4, f5, f6⟩ := hfit
      have a2 : (sa * pa) * (sa * pa) = (m 1 2 + m 2 2 + m 2 1 + m 1 1) / 2 := by linear_combination pa * pa * q1 + ha
      have b2 : (sb * pb) * (sb * pb) = (m 1 2 + m 2 2 - m 2 1 - m 1 1) / 2 := by linear_combination pb * pb * q2 + hb
      have c2 : (sc * pc) * (sc * pc) = (m 2 1 + m 2 2 - m 1 2 - m 1 1) / 2 := by linear_combination pc * pc * q3 + hc
      have d2 : (sd * pd) * (sd * pd) = (m 1 1 + m 2 2 - m 1 2 - m 2 1) / 2 := by linear_combination pd * pd * q4 + hd
      subst h
      generalize sa * pa = a at *
      generalize sb * pb = b at *
      generalize sc * pc = c at *
      generalize sd * pd = d at *
      ext i j
      fin_cases i <;> fin_cases j <;> simp [sim12]
      · linear_combination f3 + f4
      · linear_combination f2 - f5
      · linear_combination f2 + f5
      · linear_combination f1 - f6
      · linear_combination (a2 - b2 - c2 + d2) / 2
      · linear_combination (a2 + b2 - c2 - d2) / 2
      · linear_combination f1 + f6
      · linear_combination (a2 - b2 + c2 - d2) / 2
      · linear_combination (a2 + b2 + c2 + d2) / 2
    · cases h

/-- Only opposite matrices define the same isometry of the hyperboloid. -/
theorem C52_gl2_unique {g h : Matrix (Fin 2) (Fin 2) K} (hg : g.det ≠ 0) : sim12 g = sim12 h ↔ h = g ∨ h = -g := by
  constructor
  · intro he
    have hE := fun i j => congrFun (congrFun he i) j
    have e00 := hE 0 0
    have e01 := hE 0 1
    have e02 := hE 0 2
    have e10 := hE 1 0
    have e11 := hE 1 1
    have e12 := hE 1 2
    have e20 := hE 2 0
    have e21 := hE 2 1
    have e22 := hE 2 2
    have ed := congrArg Matrix.det he
    rw [det_sim12, det_sim12] at ed
    have ed := (Odd.strictMono_pow (R := K) (by decide : Odd 3)).injective ed
    rw [Matrix.det_fin_two, Matrix.det_fin_two] at ed
    rw [Matrix.det_fin_two] at hg
    simp [sim12] at e00 e01 e02 e10 e11 e12 e20 e21 e22
    have aa : h 0 0 * h 0 0 = g 0 0 * g 0 0 := by linear_combination -(e11 + e12 + e21 + e22) / 4
    have bb : h 0 1 * h 0 1 = g 0 1 * g 0 1 := by linear_combination -(-e11 + e12 - e21 + e22) / 4
    have ab : h 0 0 * h 0 1 = g 0 0 * g 0 1 := by linear_combination -(e10 + e20) / 2
    have ac : h 0 0 * h 1 0 = g 0 0 * g 1 0 := by linear_combination -(e01 + e02) / 2
    have ad : h 0 0 * h 1 1 = g 0 0 * g 1 1 := by linear_combination -(e00 + ed) / 2
    have bc : h 0 1 * h 1 0 = g 0 1 * g 1 0 := by linear_combination -(e00 - ed) / 2
    have bd : h 0 1 * h 1 1 = g 0 1 * g 1 1 := by linear_combination -(e02 - e01) / 2
    have ext : ∀ (s : K), h 0 0 = s * g 0 0 → h 0 1 = s * g 0 1 → h 1 0 = s * g 1 0 → h 1 1 = s * g 1 1 → h = s • g := by
      intro s h1 h2 h3 h4
      ext i j
      fin_cases i <;> fin_cases j <;> simp [h1, h2, h3, h4]
    have fin : ∃ s : K, (s = 1 ∨ s = -1) ∧ h = s • g := by
      by_cases ha : g 0 0 = 0
      · have hb : g 0 1 ≠ 0 := fun h0 => hg (by rw [ha, h0]; ring)
        have ha' : h 0 0 = 0 := mul_self_eq_zero.1 (by rw [aa, ha, zero_mul])
        rcases mul_self_eq_mul_self_iff.1 bb with hb' | hb'
        · refine ⟨1, Or.inl rfl, ext 1 (by rw [ha, ha']; ring) (by rw [hb']; ring) ?_ ?_⟩
          · apply mul_left_cancel₀ hb; rw [hb'] at bc; linear_combination bc
          · apply mul_left_cancel₀ hb; rw [hb'] at bd; linear_combination bd
        · refine ⟨-1, Or.inr rfl, ext (-1) (by rw [ha, ha']; ring) (by rw [hb']; ring) ?_ ?_⟩
          · apply mul_left_cancel₀ hb; rw [hb'] at bc; linear_combination -bc
          · apply mul_left_cancel₀ hb; rw [hb'] at bd; linear_combination -bd
      · rcases mul_self_eq_mul_self_iff.1 aa with ha' | ha'
        · refine ⟨1, Or.inl rfl, ext 1 (by rw [ha']; ring) ?_ ?_ ?_⟩
          · apply mul_left_cancel₀ ha; rw [ha'] at ab; linear_combination ab
          · apply mul_left_cancel₀ ha; rw [ha'] at ac; linear_combination ac
          · apply mul_left_cancel₀ ha; rw [ha'] at ad; linear_combination ad
        · refine ⟨-1, Or.inr rfl, ext (-1) (by rw [ha']; ring) ?_ ?_ ?_⟩
          · apply mul_left_cancel₀ ha; rw [ha'] at ab; linear_combination -ab
          · apply mul_left_cancel₀ ha; rw [ha'] at ac; linear_combination -ac
          · apply mul_left_cancel₀ ha; rw [ha'] at ad; linear_combination -ad
    obtain ⟨s, hs | hs, hh⟩ := fin
    · left; rw [hh, hs, one_smul]
    · right; rw [hh, hs, neg_one_smul]
  · rintro (rfl | rfl)
    · rfl
    · ext i j
      fin_cases i <;> fin_cases j <;> simp [sim12]

/-- **C52**. From the matrix of the hyperboloid model, the 2x2 matrix is recovered up to sign. -/
theorem C52_gl2_roundtrip {sqrt cbrt : K → Option K} (hs : IsSqrt sqrt) (hc1 : ∀ x y, cbrt x = some y → y ^ 3 = x) (hc2 : ∀ x, cbrt x = none → ∀ y, y ^ 3 ≠ x)
    {g : Matrix (Fin 2) (Fin 2) K} (hg : g.det ≠ 0) : gl2 sqrt cbrt (sim12 g) = .ok g ∨ gl2 sqrt cbrt (sim12 g) = .ok (-g) := by
  suffices h : ∃ h, gl2 sqrt cbrt (sim12 g) = .ok h by
    obtain ⟨h, hh⟩ := h
    rcases (C52_gl2_unique hg).1 (C52_gl2 hs hh).symm with rfl | rfl
    · exact Or.inl hh
    · exact Or.inr hh
  have hroot : ∀ x y : K, x = y * y → ∃ z, root (sqrt x) = .ok z ∧ 0 ≤ z ∧ z * z = y * y := by
    intro x y hxy
    cases hq : sqrt x with
    | none => exact absurd hxy.symm (hs.complete x hq y)
    | some z => exact ⟨z, rfl, (hs.sound x z hq).1, by rw [(hs.sound x z hq).2, hxy]⟩
  have hsign : ∀ z y : K, z * z = y * y → ∃ s : K, (s = 1 ∨ s = -1) ∧ s * z = y := by
    intro z y hzy
    rcases mul_self_eq_mul_self_iff.1 hzy with h | h
    · exact ⟨1, Or.inl rfl, by rw [h, one_mul]⟩
    · exact ⟨-1, Or.inr rfl, by rw [h]; ring⟩
  obtain ⟨pa, ha, -, ha2⟩ := hroot ((sim12 g 1 2 + sim12 g 2 2 + sim12 g 2 1 + sim12 g 1 1) / 2) (g 0 0) (by simp [sim12]; ring)
  obtain ⟨pb, hb, -, hb2⟩ := hroot ((sim12 g 1 2 + sim12 g 2 2 - sim12 g 2 1 - sim12 g 1 1) / 2) (g 0 1) (by simp [sim12]; ring)
  obtain ⟨pc, hc, -, hc2'⟩ := hroot ((sim12 g 2 1 + sim12 g 2 2 - sim12 g 1 2 - sim12 g 1 1) / 2) (g 1 0) (by simp [sim12]; ring)
  obtain ⟨pd, hd, -, hd2⟩ := hroot ((sim12 g 1 1 + sim12 g 2 2 - sim12 g 1 2 - sim12 g 2 1) / 2) (g 1 1) (by simp [sim12]; ring)
  have he : root (cbrt (sim12 g).det) = .ok g.det := by
    cases hq : cbrt (sim12 g).det with
    | none => exact absurd (det_sim12 g).symm (hc2 _ hq g.det)
    | some e =>
      have := hc1 _ _ hq
      rw [det_sim12] at this
      have := (Odd.strictMono_pow (R := K) (by decide : Odd 3)).injective this
      show Except.ok e = _
      rw [this]
  have hsgn : sgn (sim12 g).det = sgn g.det := by
    rw [det_sim12, sgn_eq_iff (pow_ne_zero 3 hg)]
    have : g.det ^ 3 * g.det = (g.det * g.det) * (g.det * g.det) := by ring
    rw [this]
    have h0 : 0 < g.det * g.det := lt_of_le_of_ne (mul_self_nonneg _) (mul_self_ne_zero.2 hg).symm
    exact mul_pos h0 h0
  obtain ⟨sa, ta, ea⟩ := hsign pa _ ha2
  obtain ⟨sb, tb, eb⟩ := hsign pb _ hb2
  obtain ⟨sc, tc, ec⟩ := hsign pc _ hc2'
  obtain ⟨sd, td, ed⟩ := hsign pd _ hd2
  unfold gl2
  simp only [he, ha, hb, hc, hd, hsgn, bind, Except.bind, ne_eq, not_true_eq_false, if_false]
  split
  · exact ⟨_, rfl⟩
  · rename_i hnone
    exfalso
    rw [List.find?_eq_none] at hnone
    refine hnone (sa, sb, sc, sd) ?_ ?_
    · simp only [signs, List.mem_flatMap, List.mem_map, List.mem_cons, List.not_mem_nil, or_false]
      exact ⟨sa, ta, sb, tb, sc, tc, sd, td, rfl⟩
    · simp only [signFits, decide_eq_true_eq, ea, eb, ec, ed]
      rw [Matrix.det_fin_two]
      refine ⟨?_, ?_, ?_, ?_, ?_, ?_⟩ <;> simp [sim12] <;> ring

/-- A matrix that is recovered from its action on the hyperboloid, with the rational square root and the third root of a cube. -/
example : (!![1, 2; 3, 4] : Matrix (Fin 2) (Fin 2) ℚ).det ≠ 0 ∧ gl2 ratSqrt (fun x => if x = -8 then some (-2) else none) (sim12 (!![1, 2; 3, 4] : Matrix (Fin 2) (Fin 2) ℚ)) = .ok !![1, 2; 3, 4] := by
  refine ⟨by decide +kernel, by decide +kernel⟩

end Hyp
end Flat
