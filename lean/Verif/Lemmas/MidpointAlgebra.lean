import Verif.Props.HyperbolicPerpendicular
import Verif.Lemmas.HalfSpaceCanonical

/-!
# The construction of the midpoint of a segment

Helper lemmas: an ideal point on the perpendicular at a point `S` of a geodesic with normal vector `n` is a combination of `S` and `n` in the hyperboloid model.
-/

namespace Flat
namespace Hyp
variable {K : Type} [Field K] [LinearOrder K] [IsStrictOrderedRing K]

/-- The number by which `p` is off the geodesic `g` when `p` is on the perpendicular at `s`. -/
def offset (g : Geo K) (s p : K × K) : K := (g.a + g.b * p.1 + g.c * p.2) * (1 - (s.1 * s.1 + s.2 * s.2)) / ((g.b * g.b + g.c * g.c - g.a * g.a) * (1 - (p.1 * s.1 + p.2 * s.2)))

/-- Two points in the disk that are not the same ideal point. -/
theorem one_sub_dot {s p : K × K} (hs : s.1 * s.1 + s.2 * s.2 < 1) (hp : p.1 * p.1 + p.2 * p.2 ≤ 1) : 0 < 1 - (p.1 * s.1 + p.2 * s.2) := by
  have h1 := mul_self_nonneg (p.1 - s.1)
  have h2 := mul_self_nonneg (p.2 - s.2)
  nlinarith

theorem decompose {g P : Geo K} (hg : g.Valid) (hP : P.Valid) (h0 : lorentz g P = 0) {s p : K × K} (hs : s.1 * s.1 + s.2 * s.2 < 1) (sg : g.a + g.b * s.1 + g.c * s.2 = 0)
    (sP : P.a + P.b * s.1 + P.c * s.2 = 0) (hp : p.1 * p.1 + p.2 * p.2 = 1) (pP : P.a + P.b * p.1 + P.c * p.2 = 0) :
    ∃ μ, 0 < μ ∧ 1 = μ * (1 - offset g s p * g.a) ∧ p.1 = μ * (s.1 + offset g s p * g.b) ∧ p.2 = μ * (s.2 + offset g s p * g.c) ∧
      offset g s p * offset g s p * (g.b * g.b + g.c * g.c - g.a * g.a) = 1 - (s.1 * s.1 + s.2 * s.2) := by
  have hN : 0 < g.b * g.b + g.c * g.c - g.a * g.a := by unfold Geo.Valid at hg; linarith
  have hPN : 0 < P.b * P.b + P.c * P.c - P.a * P.a := by unfold Geo.Valid at hP; linarith
  have hA : 0 < 1 - (s.1 * s.1 + s.2 * s.2) := by linarith
  have hD := one_sub_dot hs hp.le
  obtain ⟨ε, he⟩ : ∃ ε, ε = offset g s p := ⟨_, rfl⟩
  rw [← he]
  obtain ⟨N, eN⟩ : ∃ N, N = g.b * g.b + g.c * g.c - g.a * g.a := ⟨_, rfl⟩
  obtain ⟨A, eA⟩ : ∃ A, A = 1 - (s.1 * s.1 + s.2 * s.2) := ⟨_, rfl⟩
  obtain ⟨D, eD⟩ : ∃ D, D = 1 - (p.1 * s.1 + p.2 * s.2) := ⟨_, rfl⟩
  unfold offset at he
  rw [← eN, ← eA, ← eD] at he
  rw [← eN] at hN
  rw [← eA] at hA
  rw [← eD] at hD
  have hμ : 0 < D / A := div_pos hD hA
  have hεμ : D / A * ε * N = g.a + g.b * p.1 + g.c * p.2 := by rw [he]; field_simp
  obtain ⟨μ, eμ⟩ : ∃ μ, μ = D / A := ⟨_, rfl⟩
  have hμA : μ * A = D := by rw [eμ]; field_simp
  rw [← eμ] at hμ hεμ
  -- the difference is orthogonal to everything
  obtain ⟨r0, er0⟩ : ∃ r, r = 1 - μ * (1 - ε * g.a) := ⟨_, rfl⟩
  obtain ⟨r1, er1⟩ : ∃ r, r = p.1 - μ * (s.1 + ε * g.b) := ⟨_, rfl⟩
  obtain ⟨r2, er2⟩ : ∃ r, r = p.2 - μ * (s.2 + ε * g.c) := ⟨_, rfl⟩
  unfold lorentz at h0
  have o1 : -r0 * 1 + r1 * s.1 + r2 * s.2 = 0 := by
    rw [er0, er1, er2]; linear_combination hμA + eD - μ * eA - μ * ε * sg
  have o2 : -r0 * -g.a + r1 * g.b + r2 * g.c = 0 := by
    rw [er0, er1, er2]; linear_combination -hεμ - μ * sg + μ * ε * eN
  have o3 : P.a * r0 + P.b * r1 + P.c * r2 = 0 := by
    rw [er0, er1, er2]; linear_combination pP - μ * sP - μ * ε * h0
  obtain ⟨c1, c2, c3⟩ := orthogonal_parallel (u1 := 1) (u2 := s.1) (u3 := s.2) (v1 := -g.a) (v2 := g.b) (v3 := g.c) (w1 := -r0) (w2 := r1) (w3 := r2)
    (z1 := P.a) (z2 := P.b) (z3 := P.c) (by
      by_contra hcon
      push Not at hcon
      obtain ⟨c1, c2, c3⟩ := hcon
      have e1 : g.b = -g.a * s.1 := by linear_combination c3
      have e2 : g.c = -g.a * s.2 := by linear_combination -c2
      rw [e1, e2] at eN
      have := mul_nonneg (mul_self_nonneg g.a) hA.le
      have : N = -(g.a * g.a * A) := by rw [eN, eA]; ring
      linarith) o1 o2 (by linear_combination sP) (by linear_combination h0)
  have z0 : r0 = 0 := by
    refine (mul_eq_zero.1 (show r0 * (P.b * P.b + P.c * P.c - P.a * P.a) = 0 from ?_)).resolve_right hPN.ne'
    linear_combination -P.b * c1 - P.c * c2 - P.a * o3
  have z1 : r1 = 0 := by
    refine (mul_eq_zero.1 (show r1 * (P.b * P.b + P.c * P.c - P.a * P.a) = 0 from ?_)).resolve_right hPN.ne'
    linear_combination P.b * o3 + P.c * c3 + P.a * c1
  have z2 : r2 = 0 := by
    refine (mul_eq_zero.1 (show r2 * (P.b * P.b + P.c * P.c - P.a * P.a) = 0 from ?_)).resolve_right hPN.ne'
    linear_combination P.c * o3 - P.b * c3 + P.a * c2
  have q0 : 1 = μ * (1 - ε * g.a) := by linear_combination er0.symm.trans z0
  have q1 : p.1 = μ * (s.1 + ε * g.b) := by linear_combination er1.symm.trans z1
  have q2 : p.2 = μ * (s.2 + ε * g.c) := by linear_combination er2.symm.trans z2
  refine ⟨μ, hμ, q0, q1, q2, ?_⟩
  have hz : μ * μ * (ε * ε * N - A) = 0 := by
    have h1 : p.1 * p.1 + p.2 * p.2 - 1 = 0 := by linarith
    rw [q1, q2] at h1
    have h2 : (1 : K) = μ * (1 - ε * g.a) * (μ * (1 - ε * g.a)) := by rw [← q0]; ring
    rw [eN, eA]
    linear_combination h1 + h2 - 2 * μ * μ * ε * sg
  rcases mul_eq_zero.1 hz with h | h
  · exact absurd (mul_self_eq_zero.1 h) hμ.ne'
  · rw [← eN, ← eA]; linear_combination h

/-- The point `m` is between `s` and `e` and at the same hyperbolic distance from both; the hyperbolic cosine of the distance of two points in the Klein disk is
`(1 - p·q) / √((1 - p·p) (1 - q·q))`. -/
def IsMidpoint (s e m : K × K) : Prop :=
  (∃ t, 0 < t ∧ t < 1 ∧ m = (s.1 + t * (e.1 - s.1), s.2 + t * (e.2 - s.2))) ∧
  (1 - (m.1 * s.1 + m.2 * s.2)) ^ 2 * (1 - (e.1 * e.1 + e.2 * e.2)) = (1 - (m.1 * e.1 + m.2 * e.2)) ^ 2 * (1 - (s.1 * s.1 + s.2 * s.2))

theorem gram_pos {s e : K × K} (hs : s.1 * s.1 + s.2 * s.2 < 1) (hne : s ≠ e) :
    0 < (1 - (s.1 * e.1 + s.2 * e.2)) ^ 2 - (1 - (s.1 * s.1 + s.2 * s.2)) * (1 - (e.1 * e.1 + e.2 * e.2)) := by
  have hd : 0 < (e.1 - s.1) * (e.1 - s.1) + (e.2 - s.2) * (e.2 - s.2) := by
    by_contra hcon
    have h1 := mul_self_nonneg (e.1 - s.1)
    have h2 := mul_self_nonneg (e.2 - s.2)
    have h3 : (e.1 - s.1) * (e.1 - s.1) = 0 := by linarith
    have h4 : (e.2 - s.2) * (e.2 - s.2) = 0 := by linarith
    have h5 := mul_self_eq_zero.1 h3
    have h6 := mul_self_eq_zero.1 h4
    exact hne (Prod.ext (by linarith) (by linarith))
  have key : (1 - (s.1 * e.1 + s.2 * e.2)) ^ 2 - (1 - (s.1 * s.1 + s.2 * s.2)) * (1 - (e.1 * e.1 + e.2 * e.2)) =
      (1 - (s.1 * s.1 + s.2 * s.2)) * ((e.1 - s.1) * (e.1 - s.1) + (e.2 - s.2) * (e.2 - s.2)) +
        (s.1 * (e.1 - s.1) + s.2 * (e.2 - s.2)) * (s.1 * (e.1 - s.1) + s.2 * (e.2 - s.2)) := by ring
  rw [key]
  have := mul_pos (sub_pos.2 hs) hd
  have := mul_self_nonneg (s.1 * (e.1 - s.1) + s.2 * (e.2 - s.2))
  linarith

theorem midpoint_equation {s e : K × K} (hs : s.1 * s.1 + s.2 * s.2 < 1) (hne : s ≠ e) (t : K) {m : K × K} (hm : m = (s.1 + t * (e.1 - s.1), s.2 + t * (e.2 - s.2))) :
    (1 - (m.1 * s.1 + m.2 * s.2)) ^ 2 * (1 - (e.1 * e.1 + e.2 * e.2)) = (1 - (m.1 * e.1 + m.2 * e.2)) ^ 2 * (1 - (s.1 * s.1 + s.2 * s.2)) ↔
      (1 - t) ^ 2 * (1 - (s.1 * s.1 + s.2 * s.2)) = t ^ 2 * (1 - (e.1 * e.1 + e.2 * e.2)) := by
  have hG := (gram_pos hs hne).ne'
  have key : (1 - (m.1 * s.1 + m.2 * s.2)) ^ 2 * (1 - (e.1 * e.1 + e.2 * e.2)) - (1 - (m.1 * e.1 + m.2 * e.2)) ^ 2 * (1 - (s.1 * s.1 + s.2 * s.2)) =
      ((1 - (s.1 * e.1 + s.2 * e.2)) ^ 2 - (1 - (s.1 * s.1 + s.2 * s.2)) * (1 - (e.1 * e.1 + e.2 * e.2))) *
        (t ^ 2 * (1 - (e.1 * e.1 + e.2 * e.2)) - (1 - t) ^ 2 * (1 - (s.1 * s.1 + s.2 * s.2))) := by
    rw [hm]; ring
  constructor
  · intro h
    rw [sub_eq_zero.2 h] at key
    exact (sub_eq_zero.1 ((mul_eq_zero.1 key.symm).resolve_left hG)).symm
  · intro h
    rw [h, sub_self, mul_zero] at key
    exact sub_eq_zero.1 key

/-- There is at most one midpoint. -/
theorem IsMidpoint.unique {s e m m' : K × K} (hs : s.1 * s.1 + s.2 * s.2 < 1) (he : e.1 * e.1 + e.2 * e.2 < 1) (hne : s ≠ e) (h : IsMidpoint s e m) (h' : IsMidpoint s e m') : m = m' := by
  obtain ⟨⟨t, t0, t1, hm⟩, hq⟩ := h
  obtain ⟨⟨u, u0, u1, hm'⟩, hq'⟩ := h'
  rw [midpoint_equation hs hne t hm] at hq
  rw [midpoint_equation hs hne u hm'] at hq'
  have hA : 0 < 1 - (s.1 * s.1 + s.2 * s.2) := by linarith
  have hB : 0 < 1 - (e.1 * e.1 + e.2 * e.2) := by linarith
  have h1 : ((1 - t) * u) ^ 2 = ((1 - u) * t) ^ 2 := by
    refine mul_right_cancel₀ (mul_pos hA hB).ne' ?_
    linear_combination u ^ 2 * (1 - (e.1 * e.1 + e.2 * e.2)) * hq - t ^ 2 * (1 - (e.1 * e.1 + e.2 * e.2)) * hq'
  have h2 : (1 - t) * u = (1 - u) * t := by
    have a : 0 < (1 - t) * u := mul_pos (by linarith) u0
    have b : 0 < (1 - u) * t := mul_pos (by linarith) t0
    rcases sq_eq_sq_iff_eq_or_eq_neg.1 h1 with h | h
    · exact h
    · linarith
  have h3 : t = u := by linarith
  rw [hm, hm', h3]

/-- The values of a line through an ideal point of a perpendicular. -/
theorem line_value {g P l : Geo K} (hg : g.Valid) (hP : P.Valid) (h0 : lorentz g P = 0) {s p : K × K} (hs : s.1 * s.1 + s.2 * s.2 < 1) (sg : g.a + g.b * s.1 + g.c * s.2 = 0)
    (sP : P.a + P.b * s.1 + P.c * s.2 = 0) (hp : p.1 * p.1 + p.2 * p.2 = 1) (pP : P.a + P.b * p.1 + P.c * p.2 = 0) (pl : l.a + l.b * p.1 + l.c * p.2 = 0) :
    l.a + l.b * s.1 + l.c * s.2 = -offset g s p * lorentz l g := by
  obtain ⟨μ, h1, h2, h3, h4, -⟩ := decompose hg hP h0 hs sg sP hp pP
  rw [h3, h4] at pl
  unfold lorentz
  refine mul_left_cancel₀ h1.ne' ?_
  linear_combination pl - l.a * h2

/-- A line that goes through ideal points of both perpendiculars is not orthogonal to the geodesic. -/
theorem line_lorentz {g l : Geo K} (hg : g.Valid) (hl : l.Valid) {s e : K × K} (hne : s ≠ e) (sg : g.a + g.b * s.1 + g.c * s.2 = 0) (eg : g.a + g.b * e.1 + g.c * e.2 = 0) {ε δ : K}
    (ls : l.a + l.b * s.1 + l.c * s.2 = -ε * lorentz l g) (le : l.a + l.b * e.1 + l.c * e.2 = -δ * lorentz l g) : lorentz l g ≠ 0 := by
  intro h0
  rw [h0, mul_zero] at ls le
  obtain ⟨c1, c2, c3⟩ := orthogonal_parallel (u1 := 1) (u2 := s.1) (u3 := s.2) (v1 := 1) (v2 := e.1) (v3 := e.2) (w1 := l.a) (w2 := l.b) (w3 := l.c)
    (z1 := g.a) (z2 := g.b) (z3 := g.c) (by
      by_contra hcon
      push Not at hcon
      obtain ⟨-, c2, c3⟩ := hcon
      exact hne (Prod.ext (by linarith) (by linarith))) (by linear_combination ls) (by linear_combination le) (by linear_combination sg) (by linear_combination eg)
  unfold lorentz at h0
  unfold Geo.Valid at hg hl
  have hN : g.b * g.b + g.c * g.c - g.a * g.a ≠ 0 := by intro h; linarith
  have za : l.a = 0 := by
    refine (mul_eq_zero.1 (show l.a * (g.b * g.b + g.c * g.c - g.a * g.a) = 0 from ?_)).resolve_right hN
    linear_combination g.b * c1 + g.c * c2 + g.a * h0
  have zb : l.b = 0 := by
    refine (mul_eq_zero.1 (show l.b * (g.b * g.b + g.c * g.c - g.a * g.a) = 0 from ?_)).resolve_right hN
    linear_combination g.a * c1 + g.c * c3 + g.b * h0
  have zc : l.c = 0 := by
    refine (mul_eq_zero.1 (show l.c * (g.b * g.b + g.c * g.c - g.a * g.a) = 0 from ?_)).resolve_right hN
    linear_combination g.a * c2 - g.b * c3 + g.c * h0
  rw [za, zb, zc] at hl
  simp at hl

/-- A line along a geodesic. -/
theorem value_along {g l : Geo K} (hg : g.Valid) {s e z : K × K} (sg : g.a + g.b * s.1 + g.c * s.2 = 0) (eg : g.a + g.b * e.1 + g.c * e.2 = 0) (zg : g.a + g.b * z.1 + g.c * z.2 = 0) :
    (l.a + l.b * z.1 + l.c * z.2) * (g.pos e - g.pos s) = (l.a + l.b * s.1 + l.c * s.2) * (g.pos e - g.pos z) + (l.a + l.b * e.1 + l.c * e.2) * (g.pos z - g.pos s) := by
  have hN := (g.valid_norm hg).ne'
  have along : ∀ w : K × K, g.a + g.b * w.1 + g.c * w.2 = 0 →
      (g.b * g.b + g.c * g.c) * (l.a + l.b * w.1 + l.c * w.2) = (g.b * g.b + g.c * g.c) * l.a - g.a * (g.b * l.b + g.c * l.c) + (l.b * g.c - l.c * g.b) * g.pos w := by
    intro w hw
    unfold Geo.pos
    linear_combination (g.b * l.b + g.c * l.c) * hw
  refine mul_left_cancel₀ hN ?_
  linear_combination (g.pos e - g.pos s) * along z zg - (g.pos e - g.pos z) * along s sg - (g.pos z - g.pos s) * along e eg

end Hyp
end Flat
