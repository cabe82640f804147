import Verif.Lemmas.Angle
import Mathlib.Algebra.Order.Floor.Semifield

/-!
# Counting half turns
-/

namespace Flat
open Real

/-- The parity of the number of half turns is given by the direction. -/
theorem even_half_turns {ψ : ℝ} (h : 0 ≤ ψ) : ⌊ψ / π⌋₊ % 2 = 0 ↔ (0 < sin ψ ∨ sin ψ = 0 ∧ 0 < cos ψ) := by
  have hpi := Real.pi_pos
  set n := ⌊ψ / π⌋₊ with hn
  have h1 : (n : ℝ) ≤ ψ / π := Nat.floor_le (by positivity)
  have h2 : ψ / π < n + 1 := Nat.lt_floor_add_one _
  rw [le_div_iff₀ hpi] at h1
  rw [div_lt_iff₀ hpi] at h2
  obtain ⟨r, hr⟩ : ∃ r, r = ψ - n * π := ⟨_, rfl⟩
  have r0 : 0 ≤ r := by linarith
  have r1 : r < π := by linarith
  have hs : 0 ≤ sin r := Real.sin_nonneg_of_nonneg_of_le_pi r0 r1.le
  have hz : sin r = 0 → r = 0 := by
    intro hz
    by_contra hne
    have := Real.sin_pos_of_pos_of_lt_pi (lt_of_le_of_ne r0 (Ne.symm hne)) r1
    linarith
  rcases Nat.even_or_odd' n with ⟨m, hm | hm⟩
  · have e : ψ = r + m * (2 * π) := by rw [hr, hm]; push_cast; ring
    rw [e, Real.sin_add_nat_mul_two_pi, Real.cos_add_nat_mul_two_pi]
    refine ⟨fun _ => ?_, fun _ => by omega⟩
    rcases hs.lt_or_eq with hs | hs
    · exact .inl hs
    · right
      refine ⟨hs.symm, ?_⟩
      rw [hz hs.symm, Real.cos_zero]; exact one_pos
  · have e : ψ = (r + π) + m * (2 * π) := by rw [hr, hm]; push_cast; ring
    rw [e, Real.sin_add_nat_mul_two_pi, Real.cos_add_nat_mul_two_pi, Real.sin_add_pi, Real.cos_add_pi]
    constructor
    · intro h; omega
    · rintro (h | ⟨h, h'⟩)
      · linarith
      · rw [hz (by linarith), Real.cos_zero] at h'
        linarith

section
variable {K : Type} [Field K] [LinearOrder K] [IsStrictOrderedRing K] {ι : K →+* ℝ}

/-- The angle through which one turns when following vectors, in full turns. -/
noncomputable def pathAngle (ι : K →+* ℝ) : Vec K → List (Vec K) → ℝ
  | _, [] => 0
  | u, v :: vs => angleOf ι u v + pathAngle ι v vs

/-- The signs of the products of vectors at a given angle. -/
theorem sign_dir (hι : StrictMono ι) {u v : Vec K} (hu : u ≠ 0) (hv : v ≠ 0) {ψ : ℝ} (hψ : (ψ : Real.Angle) = vdir ι v - vdir ι u) :
    (0 < ccw u v ↔ 0 < sin ψ) ∧ (ccw u v = 0 ↔ sin ψ = 0) ∧ (0 < u.1 * v.1 + u.2 * v.2 ↔ 0 < cos ψ) := by
  have n1 := norm_pos_iff.2 (cplx_ne_zero ι hu)
  have n2 := norm_pos_iff.2 (cplx_ne_zero ι hv)
  obtain ⟨h1, h2⟩ := cos_sin_angleOf ι hu hv
  have hd := angleOf_vdir ι hu hv
  rw [← hψ] at hd
  have hc : cos (2 * π * angleOf ι u v) = cos ψ := by rw [← Real.Angle.cos_coe, hd, Real.Angle.cos_coe]
  have hs : sin (2 * π * angleOf ι u v) = sin ψ := by rw [← Real.Angle.sin_coe, hd, Real.Angle.sin_coe]
  rw [map_ccw, hs] at h2
  rw [hc, ← map_mul, ← map_mul, ← map_add] at h1
  have hAB := mul_pos n1 n2
  refine ⟨?_, ?_, ?_⟩
  · rw [← hι.lt_iff_lt, map_zero, ← h2, mul_pos_iff_of_pos_left hAB]
  · rw [← ι.injective.eq_iff, map_zero, ← h2, mul_eq_zero, or_iff_right hAB.ne']
  · rw [← hι.lt_iff_lt, map_zero, ← h1, mul_pos_iff_of_pos_left hAB]

/-- One step of the loop. -/
theorem turnStep_spec (hι : StrictMono ι) {start prev vector : Vec K} (hs : start ≠ 0) (hp : prev ≠ 0) (hv : vector ≠ 0) {θ : ℝ} (hθ : 0 ≤ θ)
    (hdir : (θ : Real.Angle) = vdir ι prev - vdir ι start) :
    turnStep start (⌊θ / π⌋₊, prev) vector = (⌊(θ + 2 * π * angleOf ι prev vector) / π⌋₊, vector) := by
  have hpi := Real.pi_pos
  obtain ⟨a, ha⟩ : ∃ a, a = angleOf ι prev vector := ⟨_, rfl⟩
  have a0 : 0 ≤ a := ha ▸ angleOf_nonneg ι prev vector
  have a1 : a < 1 := ha ▸ angleOf_lt_one ι prev vector
  have hav := angleOf_vdir ι hp hv
  rw [← ha] at hav ⊢
  obtain ⟨ψ, hψ⟩ : ∃ ψ, ψ = θ + 2 * π * a := ⟨_, rfl⟩
  have hψ0 : 0 ≤ ψ := by rw [hψ]; positivity
  have hψd : (ψ : Real.Angle) = vdir ι vector - vdir ι start := by
    rw [hψ, Real.Angle.coe_add, hdir, hav]; abel
  obtain ⟨q1, q2, q3⟩ := sign_dir hι hs hv hψd
  obtain ⟨p1, p2, -⟩ := sign_dir hι hp hv hav
  -- more than half a turn
  have hneg : ccw prev vector < 0 ↔ 1 / 2 < a := by
    constructor
    · intro h
      by_contra hc
      push Not at hc
      have : 0 ≤ sin (2 * π * a) := Real.sin_nonneg_of_nonneg_of_le_pi (by positivity) (by nlinarith)
      rcases this.lt_or_eq with h0 | h0
      · exact absurd (p1.2 h0) (not_lt.2 h.le)
      · exact absurd (p2.2 h0.symm) h.ne
    · intro h
      have : 0 < sin (2 * π * a - π) := Real.sin_pos_of_pos_of_lt_pi (by nlinarith) (by nlinarith)
      rw [Real.sin_sub_pi] at this
      rcases lt_trichotomy (ccw prev vector) 0 with h0 | h0 | h0
      · exact h0
      · have := p2.1 h0; linarith
      · have := p1.1 h0; linarith
  have hdec : (0 < (if ccw start vector ≠ 0 then ccw start vector else if isParallel start vector then (1 : K) else -1)) ↔ ⌊ψ / π⌋₊ % 2 = 0 := by
    rw [even_half_turns hψ0, ← q1, ← q2, ← q3]
    by_cases hc : ccw start vector = 0
    · rw [if_neg (not_not.2 hc), hc]
      unfold isParallel
      rw [if_neg (not_not.2 hc)]
      by_cases hd : 0 < start.1 * vector.1 + start.2 * vector.2
      · simp [hd]
      · simp [hd, not_lt.2 (neg_nonpos.2 (zero_le_one (α := K)))]
    · rw [if_pos hc]
      simp [hc]
  have hdiv : ψ / π = θ / π + 2 * a := by rw [hψ]; field_simp
  have hθπ : 0 ≤ θ / π := by positivity
  have f1 : (⌊θ / π⌋₊ : ℝ) ≤ θ / π := Nat.floor_le hθπ
  have f2 : θ / π < ⌊θ / π⌋₊ + 1 := Nat.lt_floor_add_one _
  have f3 : (⌊ψ / π⌋₊ : ℝ) ≤ ψ / π := Nat.floor_le (by positivity)
  have f4 : ψ / π < ⌊ψ / π⌋₊ + 1 := Nat.lt_floor_add_one _
  unfold turnStep
  simp only [← hψ, Prod.mk.injEq, and_true, hdec]
  by_cases hc : ccw prev vector < 0
  · rw [if_pos hc]
    have hh := hneg.1 hc
    have k1 : ⌊θ / π⌋₊ + 1 ≤ ⌊ψ / π⌋₊ := by
      have : (⌊θ / π⌋₊ + 1 : ℝ) < ⌊ψ / π⌋₊ + 1 := by linarith
      have : ⌊θ / π⌋₊ + 1 < ⌊ψ / π⌋₊ + 1 := by exact_mod_cast this
      omega
    have k2 : ⌊ψ / π⌋₊ ≤ ⌊θ / π⌋₊ + 2 := by
      have : (⌊ψ / π⌋₊ : ℝ) < ⌊θ / π⌋₊ + 3 := by linarith
      have : ⌊ψ / π⌋₊ < ⌊θ / π⌋₊ + 3 := by exact_mod_cast this
      omega
    by_cases hpar : ⌊ψ / π⌋₊ % 2 = 0 <;> by_cases hpar' : (⌊θ / π⌋₊ + 1) % 2 = 0 <;> simp [hpar, hpar'] <;> omega
  · rw [if_neg hc]
    have hh : a ≤ 1 / 2 := not_lt.1 (fun h => hc (hneg.2 h))
    have k1 : ⌊θ / π⌋₊ ≤ ⌊ψ / π⌋₊ := Nat.floor_le_floor (by linarith)
    have k2 : ⌊ψ / π⌋₊ ≤ ⌊θ / π⌋₊ + 1 := by
      have : (⌊ψ / π⌋₊ : ℝ) < ⌊θ / π⌋₊ + 2 := by linarith
      have : ⌊ψ / π⌋₊ < ⌊θ / π⌋₊ + 2 := by exact_mod_cast this
      omega
    by_cases hpar : ⌊ψ / π⌋₊ % 2 = 0 <;> by_cases hpar' : ⌊θ / π⌋₊ % 2 = 0 <;> simp [hpar, hpar'] <;> omega

/-- The loop. -/
theorem turnLoop_spec (hι : StrictMono ι) {start : Vec K} (hs : start ≠ 0) : ∀ (vs : List (Vec K)) (prev : Vec K) (θ : ℝ), prev ≠ 0 →
    (∀ v ∈ vs, v ≠ 0) → 0 ≤ θ → (θ : Real.Angle) = vdir ι prev - vdir ι start →
    vs.foldl (turnStep start) (⌊θ / π⌋₊, prev) = (⌊(θ + 2 * π * pathAngle ι prev vs) / π⌋₊, vs.getLastD prev) ∧
      ((θ + 2 * π * pathAngle ι prev vs : ℝ) : Real.Angle) = vdir ι (vs.getLastD prev) - vdir ι start ∧ 0 ≤ pathAngle ι prev vs := by
  have hpi := Real.pi_pos
  intro vs
  induction vs with
  | nil => intro prev θ hp _ hθ hd; simp [pathAngle, hd]
  | cons v vs ih =>
    intro prev θ hp hvs hθ hd
    have hv := hvs v List.mem_cons_self
    have a0 := angleOf_nonneg ι prev v
    rw [List.foldl_cons, turnStep_spec hι hs hp hv hθ hd]
    have hav := angleOf_vdir ι hp hv
    obtain ⟨i1, i2, i3⟩ := ih v (θ + 2 * π * angleOf ι prev v) hv (fun w hw => hvs w (List.mem_cons_of_mem _ hw)) (by positivity)
      (by rw [Real.Angle.coe_add, hd, hav]; abel)
    have e : θ + 2 * π * angleOf ι prev v + 2 * π * pathAngle ι v vs = θ + 2 * π * pathAngle ι prev (v :: vs) := by
      rw [pathAngle]; ring
    rw [e] at i1 i2
    refine ⟨i1.trans ?_, i2.trans ?_, by rw [pathAngle]; positivity⟩
    · rw [List.getLastD_cons]
    · rw [List.getLastD_cons]

/-- The result of the loop: the full turns, and the rest is the angle between the first and the last vector. -/
theorem turns_spec (hι : StrictMono ι) {start : Vec K} (hs : start ≠ 0) (vs : List (Vec K)) (hv : ∀ v ∈ vs, v ≠ 0) :
    (vs.foldl (turnStep start) (0, start)).1 / 2 = ⌊pathAngle ι start vs⌋₊ ∧ (vs.foldl (turnStep start) (0, start)).2 = vs.getLastD start ∧
      (⌊pathAngle ι start vs⌋₊ : ℝ) + angleOf ι start (vs.getLastD start) = pathAngle ι start vs ∧ 0 ≤ pathAngle ι start vs := by
  have hpi := Real.pi_pos
  obtain ⟨h1, h2, h3⟩ := turnLoop_spec hι hs vs start 0 hs hv le_rfl (by simp)
  rw [zero_add] at h1 h2
  rw [zero_div, Nat.floor_zero] at h1
  rw [h1]
  have e : 2 * π * pathAngle ι start vs / π = 2 * pathAngle ι start vs := by field_simp
  rw [e]
  set A := pathAngle ι start vs with hA
  refine ⟨?_, rfl, ?_, h3⟩
  · have : ⌊2 * A⌋₊ / 2 = ⌊2 * A / 2⌋₊ := by rw [show (2 * A / 2) = 2 * A / ((2 : ℕ) : ℝ) by norm_num, Nat.floor_div_natCast (2 * A) 2]
    rw [this]
    congr 1
    ring
  · have hl : vs.getLastD start ≠ 0 := by
      rcases List.eq_nil_or_concat vs with h | ⟨l, x, h⟩
      · rw [h]; exact hs
      · rw [h, List.concat_eq_append, List.getLastD_eq_getLast?, List.getLast?_append_of_ne_nil _ (by simp)]
        exact hv x (by rw [h]; simp)
    have hd := angleOf_vdir ι hs hl
    rw [← h2] at hd
    have a0 := angleOf_nonneg ι start (vs.getLastD start)
    have a1 := angleOf_lt_one ι start (vs.getLastD start)
    have f1 := Nat.floor_le h3
    have f2 := Nat.lt_floor_add_one A
    have key : 2 * π * ((⌊A⌋₊ : ℝ) + angleOf ι start (vs.getLastD start)) = 2 * π * A := by
      refine eq_of_angle ?_ (by nlinarith) (by nlinarith)
      rw [mul_add, Real.Angle.coe_add, hd, show (2 * π * (⌊A⌋₊ : ℝ)) = (⌊A⌋₊ : ℕ) • (2 * π) by rw [nsmul_eq_mul]; ring, Real.Angle.coe_nsmul, Real.Angle.coe_two_pi,
        smul_zero, zero_add]
    exact mul_left_cancel₀ (by positivity) key

end
end Flat
