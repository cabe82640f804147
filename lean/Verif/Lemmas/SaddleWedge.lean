import Verif.Model.Saddle
import Verif.Lemmas.FlowSegment

/-!
# Wedges and rays through convex polygons: helper lemmas
-/

namespace Flat
variable {K : Type} [Field K] [LinearOrder K] [IsStrictOrderedRing K]

/-- The direction `h` is strictly inside of the wedge. -/
def InWedge (w : Vec K × Vec K) (h : Vec K) : Prop := 0 < ccw w.1 h ∧ 0 < ccw h w.2

omit [LinearOrder K] [IsStrictOrderedRing K] in
theorem ccw_swap (a b : Vec K) : ccw b a = -ccw a b := by unfold ccw; ring

omit [LinearOrder K] [IsStrictOrderedRing K] in
theorem plucker (a b c d : Vec K) : ccw a c * ccw b d = ccw a b * ccw c d + ccw a d * ccw b c := by unfold ccw; ring

theorem inWedge_ne {w : Vec K × Vec K} {h : Vec K} (hw : InWedge w h) : h ≠ 0 := by
  rintro rfl
  have := hw.1
  simp [ccw] at this

theorem pos_of_mul_pos {a b : K} (hb : 0 < b) (h : 0 < a * b) : 0 < a := pos_of_mul_pos_of_pos_right h hb.le
where
  pos_of_mul_pos_of_pos_right {a b : K} (h : 0 < a * b) (hb : 0 ≤ b) : 0 < a := by
    by_contra ha
    push Not at ha
    exact absurd h (not_lt.2 (mul_nonpos_of_nonpos_of_nonneg ha hb))

/-- The new wedge consists of the directions of the old wedge that go through the edge. -/
theorem scWedge_iff {w : Vec K × Vec K} {a b : Vec K} (h0 : 0 ≤ ccw w.1 w.2) (h1 : 0 < ccw a b) (h2 : 0 < ccw w.1 b) (h3 : 0 < ccw a w.2) (h : Vec K) :
    InWedge (RSurf.scWedge w a b) h ↔ InWedge w h ∧ InWedge (a, b) h := by
  obtain ⟨u, v⟩ := w
  dsimp only at h0 h2 h3
  unfold RSurf.scWedge InWedge
  dsimp only
  have i1 := plucker u a h b
  have i2 := plucker h a b v
  have i3 := plucker a u h b
  have i4 := plucker h a v b
  have i5 := plucker u a b v
  have sw := ccw_swap (K := K)
  by_cases ca : 0 < ccw u a <;> by_cases cb : 0 < ccw b v
  · rw [if_pos ca, if_pos cb]
    dsimp only
    constructor
    · rintro ⟨x, y⟩
      refine ⟨⟨?_, ?_⟩, x, y⟩
      · refine pos_of_mul_pos h1 ?_
        rw [i1]
        exact add_pos (mul_pos ca y) (mul_pos h2 x)
      · refine pos_of_mul_pos h1 ?_
        rw [i4, sw a h, sw b v, neg_mul_neg]
        exact add_pos (mul_pos x cb) (mul_pos y h3)
    · rintro ⟨-, x⟩; exact x
  · rw [if_pos ca, if_neg cb]
    push Not at cb
    dsimp only
    constructor
    · rintro ⟨x, y⟩
      have z : 0 < ccw h b := by
        refine pos_of_mul_pos h3 ?_
        rw [i2, sw a h, neg_mul, ← mul_neg]
        exact add_pos_of_nonneg_of_pos (mul_nonneg x.le (neg_nonneg.2 cb)) (mul_pos y h1)
      refine ⟨⟨?_, y⟩, x, z⟩
      refine pos_of_mul_pos h1 ?_
      rw [i1]
      exact add_pos (mul_pos ca z) (mul_pos h2 x)
    · rintro ⟨⟨-, x⟩, y, -⟩; exact ⟨y, x⟩
  · rw [if_neg ca, if_pos cb]
    push Not at ca
    dsimp only
    constructor
    · rintro ⟨x, y⟩
      have z : 0 < ccw a h := by
        refine pos_of_mul_pos h2 ?_
        rw [i3, sw u a]
        exact add_pos_of_nonneg_of_pos (mul_nonneg (neg_nonneg.2 ca) y.le) (mul_pos h1 x)
      refine ⟨⟨x, ?_⟩, z, y⟩
      refine pos_of_mul_pos h1 ?_
      rw [i4, sw a h, sw b v, neg_mul_neg]
      exact add_pos (mul_pos z cb) (mul_pos y h3)
    · rintro ⟨⟨x, -⟩, -, y⟩; exact ⟨x, y⟩
  · rw [if_neg ca, if_neg cb]
    push Not at ca cb
    dsimp only
    constructor
    · rintro ⟨x, y⟩
      refine ⟨⟨x, y⟩, ?_⟩
      -- `X = ccw a h` and `Y = ccw h b` are solutions of two linear equations
      have e1 : ccw a h * ccw u b = -ccw u a * ccw h b + ccw a b * ccw u h := by rw [i3, sw u a]
      have e2 : ccw h b * ccw a v = ccw a h * -ccw b v + ccw h v * ccw a b := by rw [i2, sw a h]; ring
      have e3 : ccw a h * (ccw u v * ccw a b) = -ccw u a * (ccw h v * ccw a b) + ccw a b * ccw u h * ccw a v := by
        linear_combination (ccw a v) * e1 + (-ccw u a) * e2 - ccw a h * i5
      have e4 : ccw h b * (ccw u v * ccw a b) = -ccw b v * (ccw a b * ccw u h) + ccw h v * ccw a b * ccw u b := by
        linear_combination (ccw u b) * e2 + (-ccw b v) * e1 - ccw h b * i5
      have hX : 0 < ccw a h * (ccw u v * ccw a b) := by
        rw [e3]
        exact add_pos_of_nonneg_of_pos (mul_nonneg (neg_nonneg.2 ca) (mul_pos y h1).le) (mul_pos (mul_pos h1 x) h3)
      have hY : 0 < ccw h b * (ccw u v * ccw a b) := by
        rw [e4]
        exact add_pos_of_nonneg_of_pos (mul_nonneg (neg_nonneg.2 cb) (mul_pos h1 x).le) (mul_pos (mul_pos y h1) h2)
      have hD : 0 < ccw u v * ccw a b := by
        refine lt_of_le_of_ne (mul_nonneg h0 h1.le) ?_
        intro h
        rw [← h, mul_zero] at hX
        exact lt_irrefl _ hX
      exact ⟨pos_of_mul_pos hD hX, pos_of_mul_pos hD hY⟩
    · rintro ⟨x, -⟩; exact x

/-- The new wedge is again at most a half plane, and it is between the two ends of the edge. -/
theorem scWedge_bounds {w : Vec K × Vec K} {a b : Vec K} (h0 : 0 ≤ ccw w.1 w.2) (h1 : 0 < ccw a b) (h2 : 0 < ccw w.1 b) (h3 : 0 < ccw a w.2) :
    0 ≤ ccw (RSurf.scWedge w a b).1 (RSurf.scWedge w a b).2 ∧ 0 ≤ ccw a (RSurf.scWedge w a b).1 ∧ 0 ≤ ccw (RSurf.scWedge w a b).2 b := by
  have sw := ccw_swap (K := K)
  have ss : ∀ x : Vec K, ccw x x = 0 := fun x => by unfold ccw; ring
  unfold RSurf.scWedge
  split_ifs with ca cb cb
  · exact ⟨h1.le, (ss a).ge, (ss b).ge⟩
  · exact ⟨h3.le, (ss a).ge, by dsimp only; rw [sw b]; push Not at cb; exact neg_nonneg.2 cb⟩
  · exact ⟨h2.le, by dsimp only; rw [sw w.1]; push Not at ca; exact neg_nonneg.2 ca, (ss b).ge⟩
  · push Not at ca cb
    exact ⟨h0, by rw [sw w.1]; exact neg_nonneg.2 ca, by rw [sw b]; exact neg_nonneg.2 cb⟩

/-- Beyond the edge from `p` to `q`: what is to the left of a direction in the wedge is to the left of the right bound of the wedge. -/
theorem beyond_left {p q u h x : Vec K} (hpq : 0 < ccw p q) (hx : ccw p q ≤ ccw p x + ccw x q) (h1 : 0 < ccw p h) (h2 : 0 < ccw h q)
    (hu : 0 ≤ ccw p u) (huh : 0 < ccw u h) (hhx : 0 < ccw h x) : 0 < ccw u x := by
  have sw := ccw_swap (K := K)
  have hp : 0 < ccw p x := by
    by_contra hn
    push Not at hn
    have hq : 0 < ccw x q := by linarith
    have i1 := plucker h p x q
    have : ccw h p * ccw x q + ccw h q * ccw p x ≤ 0 := by
      rw [sw p h]
      have e1 := mul_pos h1 hq
      have e2 := mul_nonneg h2.le (neg_nonneg.2 hn)
      linarith
    rw [← i1] at this
    exact absurd (mul_pos hhx hpq) (not_lt.2 this)
  refine pos_of_mul_pos h1 ?_
  rw [plucker u p x h, sw p u, sw h x, neg_mul_neg]
  exact add_pos_of_nonneg_of_pos (mul_nonneg hu hhx.le) (mul_pos huh hp)

/-- The same for what is to the right. -/
theorem beyond_right {p q v h x : Vec K} (hpq : 0 < ccw p q) (hx : ccw p q ≤ ccw p x + ccw x q) (h1 : 0 < ccw p h) (h2 : 0 < ccw h q)
    (hv : 0 ≤ ccw v q) (hhv : 0 < ccw h v) (hhx : 0 < ccw x h) : 0 < ccw x v := by
  have sw := ccw_swap (K := K)
  have hq : 0 < ccw x q := by
    by_contra hn
    push Not at hn
    have hp : 0 < ccw p x := by linarith
    have i1 := plucker p x h q
    have : ccw p x * ccw h q + ccw p q * ccw x h = ccw p h * ccw x q := i1.symm
    have e1 := mul_pos hp h2
    have e2 := mul_pos hpq hhx
    have e3 := mul_nonneg h1.le (neg_nonneg.2 hn)
    linarith
  refine pos_of_mul_pos h2 ?_
  rw [plucker x h v q, mul_comm (ccw x q)]
  exact add_pos_of_nonneg_of_pos (mul_nonneg hhx.le hv) (mul_pos hhv hq)

namespace Poly

/-- A ray from `O` in the direction `u` runs through the inside of the polygon between the times `s` and `t` at which it meets the boundary. -/
structure Ray (p : Poly K) (O u : Vec K) (s t : K) : Prop where
  lt : s < t
  interior : ∀ r : K, s < r → r < t → p.pointPosition (O + r • u) = .interior
  enter : ∃ i, O + s • u ∈ p.side i
  leave : ∃ i, O + t • u ∈ p.side i

omit [LinearOrder K] [IsStrictOrderedRing K] in
theorem left_line (p : Poly K) (O u : Vec K) (i : ℕ) (r s t : K) :
    (t - r) * p.left (O + s • u) i = (t - s) * p.left (O + r • u) i + (s - r) * p.left (O + t • u) i := by
  unfold left ccw
  simp only [Prod.fst_sub, Prod.snd_sub, Prod.fst_add, Prod.snd_add, Prod.smul_fst, Prod.smul_snd, smul_eq_mul]
  ring

/-- The line of the ray meets the boundary of a convex polygon only at two times. -/
theorem Ray.boundary {p : Poly K} (hv : p.Valid) (hc : p.Convex) {O u : Vec K} {s t : K} (h : p.Ray O u s t) {r : K} {i : ℕ}
    (hi : O + r • u ∈ p.side i) : r = s ∨ r = t := by
  have hlt := h.lt
  set m := (s + t) / 2 with hm
  have m1 : s < m := by rw [hm]; linarith
  have m2 : m < t := by rw [hm]; linarith
  have hmid := (C12_interior hv hc _).1.1 (h.interior m m1 m2)
  have hmid : ∀ k, 0 < p.left (O + m • u) k := hmid
  by_contra hn
  push Not at hn
  rcases lt_trichotomy r s with hr | hr | hr
  · obtain ⟨j, hj⟩ := h.enter
    refine RSurf.not_side hv (.inl ((C12_interior hv hc _).1.2 fun k => ?_)) j hj
    have e := left_line p O u k r s m
    have p1 := mul_pos (sub_pos.2 hr) (hmid k)
    have p2 := mul_nonneg (sub_pos.2 m1).le (hc.side_left hi k)
    have : 0 < (m - r) * p.left (O + s • u) k := by rw [e]; linarith
    exact (pos_iff_pos_of_mul_pos this).1 (by linarith)
  · exact hn.1 hr
  · rcases lt_trichotomy r t with ht | ht | ht
    · exact RSurf.not_side hv (.inl (h.interior r hr ht)) i hi
    · exact hn.2 ht
    · obtain ⟨j, hj⟩ := h.leave
      refine RSurf.not_side hv (.inl ((C12_interior hv hc _).1.2 fun k => ?_)) j hj
      have e := left_line p O u k m t r
      have p1 := mul_pos (sub_pos.2 ht) (hmid k)
      have p2 := mul_nonneg (sub_pos.2 m2).le (hc.side_left hi k)
      have : 0 < (r - m) * p.left (O + t • u) k := by rw [e]; linarith
      exact (pos_iff_pos_of_mul_pos this).1 (by linarith)

theorem vertex_mem_side (p : Poly K) (i : ℕ) : p.vertex i ∈ p.side i := ⟨0, le_rfl, zero_le_one, by simp⟩

/-- The ray leaves the polygon at a vertex if and only if the vertex is on its line. -/
theorem Ray.vertex_iff {p : Poly K} (hv : p.Valid) (hc : p.Convex) {O u : Vec K} {s t : K} (h : p.Ray O u s t) {i : ℕ} (hi : i < p.length)
    (hn : O + s • u ≠ p.vertex i) : p.pointPosition (O + t • u) = .vertex i ↔ ∃ c : K, p.vertex i = O + c • u := by
  rw [C12_vertex hv]
  constructor
  · rintro ⟨-, e⟩; exact ⟨t, e.symm⟩
  · rintro ⟨c, e⟩
    refine ⟨hi, ?_⟩
    rcases h.boundary hv hc (r := c) (i := i) (by rw [← e]; exact p.vertex_mem_side i) with rfl | rfl
    · exact absurd e.symm hn
    · exact e.symm

/-- The ray leaves the polygon through an edge if and only if it points between the ends of the edge. -/
theorem Ray.edge_iff {p : Poly K} (hv : p.Valid) (hc : p.Convex) {O u : Vec K} {s t : K} (h : p.Ray O u s t) (s0 : 0 ≤ s) {i : ℕ} (hi : i < p.length)
    (hn : O + s • u ∉ p.openSide i) : p.pointPosition (O + t • u) = .edgeInterior i ↔
      0 < ccw (p.vertex i - O) (p.vertex (i + 1) - O) ∧ InWedge (p.vertex i - O, p.vertex (i + 1) - O) u := by
  rw [C12_edge hv]
  have hlt := h.lt
  set a := p.vertex i - O with ha
  set b := p.vertex (i + 1) - O with hb
  have he : p.edge i = b - a := by rw [ha, hb]; unfold edge; abel
  have hO : ∀ x : K, p.vertex i + x • p.edge i = O + (a + x • (b - a)) := by
    intro x; rw [he, ha]; abel
  constructor
  · rintro ⟨-, r, r0, r1, hr⟩
    rw [hO, add_right_inj] at hr
    set m := (s + t) / 2 with hm
    have hmid := (C12_interior hv hc _).1.1 (h.interior m (by rw [hm]; linarith) (by rw [hm]; linarith)) i
    have t0 : 0 < t := by linarith
    have k1 : ccw (b - a) (O + m • u - p.vertex i) = (t - m) * ccw u (b - a) := by
      have : O + m • u - p.vertex i = r • (b - a) - (t - m) • u := by
        have e1 : p.vertex i = O + a := by rw [ha]; abel
        rw [e1, sub_smul, hr]; abel
      rw [this]
      unfold ccw
      simp only [Prod.fst_sub, Prod.snd_sub, Prod.smul_fst, Prod.smul_snd, smul_eq_mul]
      ring
    rw [he, k1] at hmid
    have hue : 0 < ccw u (b - a) := by
      have : 0 < t - m := by rw [hm]; linarith
      exact (pos_iff_pos_of_mul_pos hmid).1 this
    have k2 : t * ccw u (b - a) = ccw a b := by
      have : t * ccw u (b - a) = ccw (t • u) (b - a) := by
        unfold ccw; simp only [Prod.fst_sub, Prod.snd_sub, Prod.smul_fst, Prod.smul_snd, smul_eq_mul]; ring
      rw [this, hr]
      unfold ccw; simp only [Prod.fst_sub, Prod.snd_sub, Prod.fst_add, Prod.snd_add, Prod.smul_fst, Prod.smul_snd, smul_eq_mul]; ring
    have hab : 0 < ccw a b := by rw [← k2]; exact mul_pos t0 hue
    have k3 : t * ccw a u = r * ccw a b := by
      have : t * ccw a u = ccw a (t • u) := by unfold ccw; simp only [Prod.smul_fst, Prod.smul_snd, smul_eq_mul]; ring
      rw [this, hr]
      unfold ccw; simp only [Prod.fst_sub, Prod.snd_sub, Prod.fst_add, Prod.snd_add, Prod.smul_fst, Prod.smul_snd, smul_eq_mul]; ring
    have k4 : t * ccw u b = (1 - r) * ccw a b := by
      have : t * ccw u b = ccw (t • u) b := by unfold ccw; simp only [Prod.smul_fst, Prod.smul_snd, smul_eq_mul]; ring
      rw [this, hr]
      unfold ccw; simp only [Prod.fst_sub, Prod.snd_sub, Prod.fst_add, Prod.snd_add, Prod.smul_fst, Prod.smul_snd, smul_eq_mul]; ring
    refine ⟨hab, ?_, ?_⟩
    · exact (pos_iff_pos_of_mul_pos (show 0 < t * ccw a u by rw [k3]; exact mul_pos r0 hab)).1 t0
    · exact (pos_iff_pos_of_mul_pos (show 0 < t * ccw u b by rw [k4]; exact mul_pos (by linarith) hab)).1 t0
  · rintro ⟨hab, h1, h2⟩
    dsimp only at h1 h2
    refine ⟨hi, ?_⟩
    set D := ccw a u + ccw u b with hD
    have D0 : 0 < D := add_pos h1 h2
    have hopen : O + (ccw a b / D) • u ∈ p.openSide i := by
      refine ⟨ccw a u / D, div_pos h1 D0, by rw [div_lt_one D0, hD]; linarith, ?_⟩
      rw [hO, add_right_inj]
      have hDne := D0.ne'
      have e1 : D • ((ccw a b / D) • u) = D • (a + (ccw a u / D) • (b - a)) := by
        rw [smul_smul, smul_add, smul_smul, mul_div_cancel₀ _ hDne, mul_div_cancel₀ _ hDne, hD]
        unfold ccw
        ext
        · simp only [Prod.fst_sub, Prod.snd_sub, Prod.fst_add, Prod.snd_add, Prod.smul_fst, Prod.smul_snd, smul_eq_mul]; ring
        · simp only [Prod.fst_sub, Prod.snd_sub, Prod.fst_add, Prod.snd_add, Prod.smul_fst, Prod.smul_snd, smul_eq_mul]; ring
      have e2 := congrArg (fun x => D⁻¹ • x) e1
      simpa [smul_smul, inv_mul_cancel₀ hDne, inv_mul_cancel_left₀ hDne] using e2
    have hside : O + (ccw a b / D) • u ∈ p.side i := by
      obtain ⟨x, x0, x1, hx⟩ := hopen
      exact ⟨x, x0.le, x1.le, hx⟩
    rcases h.boundary hv hc hside with e | e
    · rw [e] at hopen; exact absurd hopen hn
    · rw [e] at hopen; exact hopen

end Poly
end Flat
