import Verif.Model.Tangent
import Verif.Props.SurfacePoint
import Verif.Props.Euclidean
import Verif.Props.Covers
import Mathlib.Tactic.IntervalCases

/-!
# C45: tangent vectors
-/

namespace Flat
section
variable {K : Type} [Field K] [LinearOrder K] [IsStrictOrderedRing K]

theorem isParallel_iff' (u v : Vec K) : isParallel u v = true ↔ ccw u v = 0 ∧ 0 < dot u v := by
  unfold isParallel dot
  by_cases h : ccw u v = 0
  · simp [h]
  · simp [h]

theorem normSq_pos' {v : Vec K} (hv : v ≠ 0) : 0 < v.1 * v.1 + v.2 * v.2 :=
  lt_of_le_of_ne (add_nonneg (mul_self_nonneg _) (mul_self_nonneg _)) (normSq_ne_zero hv).symm

/-- Vectors on a common line are parallel or anti-parallel. -/
theorem parallel_or {u v : Vec K} (hu : u ≠ 0) (hv : v ≠ 0) (h : ccw u v = 0) : isParallel u v = true ∨ isAntiParallel u v = true := by
  have h1 : dot u v ≠ 0 := by
    intro h0
    have n1 := normSq_pos' hu
    have n2 := normSq_pos' hv
    have : (u.1 * u.1 + u.2 * u.2) * (v.1 * v.1 + v.2 * v.2) = ccw u v * ccw u v + dot u v * dot u v := by unfold ccw dot; ring
    rw [h, h0] at this
    have := mul_pos n1 n2
    linarith
  rcases lt_or_gt_of_ne h1 with h1 | h1
  · right
    unfold isAntiParallel
    rw [isParallel_iff']
    constructor
    · unfold ccw at *; simp; linear_combination -h
    · unfold dot at *; simp; linarith
  · left
    exact (isParallel_iff' u v).2 ⟨h, h1⟩

theorem isAntiParallel_iff' (u v : Vec K) : isAntiParallel u v = true ↔ ccw u v = 0 ∧ dot u v < 0 := by
  unfold isAntiParallel
  rw [isParallel_iff']
  unfold ccw dot
  simp only [Prod.fst_neg, Prod.snd_neg]
  constructor
  · rintro ⟨h1, h2⟩; exact ⟨by linear_combination -h1, by linarith⟩
  · rintro ⟨h1, h2⟩; exact ⟨by linear_combination -h1, by linarith⟩

/-- `is_between` in terms of orientations, for directions that are not the same. -/
theorem isBetween_iff' {u w v : Vec K} (hu : u ≠ 0) (hw : w ≠ 0) (h : isParallel u w = false) :
    isBetween u w v = true ↔ (0 < ccw u w ∧ 0 < ccw u v ∧ 0 < ccw v w) ∨ (ccw u w = 0 ∧ 0 < ccw u v) ∨ (ccw u w < 0 ∧ (0 < ccw u v ∨ 0 < ccw v w)) := by
  unfold isBetween
  rcases lt_trichotomy (ccw u w) 0 with hc | hc | hc
  · have h1 : ¬ (u.1 * w.2 > w.1 * u.2) := by unfold ccw at hc; intro h; linarith
    have h2 : ¬ (u.1 * w.2 = w.1 * u.2) := by unfold ccw at hc; intro h; linarith
    rw [if_neg h1, if_neg h2, decide_eq_true_eq]
    constructor
    · intro h
      refine Or.inr (Or.inr ⟨hc, ?_⟩)
      unfold ccw
      rcases h with h | h
      · left; linarith
      · right; linarith
    · rintro (h | h | ⟨-, h⟩)
      · exact absurd h.1 (not_lt.2 hc.le)
      · exact absurd h.1 hc.ne
      · unfold ccw at h
        rcases h with h | h
        · left; linarith
        · right; linarith
  · have h1 : ¬ (u.1 * w.2 > w.1 * u.2) := by unfold ccw at hc; intro h; linarith
    have h2 : (u.1 * w.2 = w.1 * u.2) := by unfold ccw at hc; linarith
    have h3 : ¬ (u.1 * w.1 ≥ 0 ∧ u.2 * w.2 ≥ 0) := by
      rintro ⟨h4, h5⟩
      rcases parallel_or hu hw hc with h6 | h6
      · rw [h] at h6; cases h6
      · have := ((isAntiParallel_iff' u w).1 h6).2
        unfold dot at this
        linarith
    rw [if_neg h1, if_pos h2, if_neg h3, decide_eq_true_eq]
    constructor
    · intro h
      refine Or.inr (Or.inl ⟨hc, ?_⟩)
      unfold ccw; linarith
    · rintro (h | ⟨-, h⟩ | h)
      · exact absurd h.1 (not_lt.2 hc.le)
      · unfold ccw at h; linarith
      · exact absurd h.1 (not_lt.2 hc.ge)
  · have h1 : (u.1 * w.2 > w.1 * u.2) := by unfold ccw at hc; linarith
    rw [if_pos h1, decide_eq_true_eq]
    constructor
    · rintro ⟨h, h'⟩
      refine Or.inl ⟨hc, ?_, ?_⟩ <;> unfold ccw <;> linarith
    · rintro (⟨-, h, h'⟩ | h | h)
      · unfold ccw at h h'; exact ⟨by linarith, by linarith⟩
      · exact absurd h.1 hc.ne'
      · exact absurd h.1 (not_lt.2 hc.le)

theorem isParallel_false {u v : Vec K} : isParallel u v = false ↔ ¬ (ccw u v = 0 ∧ 0 < dot u v) := by
  rw [← isParallel_iff', Bool.not_eq_true]

theorem isParallel_comm' (u v : Vec K) : isParallel u v = isParallel v u := C05_isParallel_symm u v

/-- A direction is strictly between `w` and `u`, or it is that of `w`, or it is in the sector from `u`, included, to `w`, excluded. -/
theorem sector_cases {u w v : Vec K} (hu : u ≠ 0) (hw : w ≠ 0) (hv : v ≠ 0) (h : isParallel u w = false) :
    (isBetween w u v = false ∧ isParallel w v = false) ↔ (isParallel u v = true ∨ isBetween u w v = true) := by
  have h' : isParallel w u = false := by rw [isParallel_comm']; exact h
  have hb : isBetween w u v = false ↔ ¬ (isBetween w u v = true) := by simp
  have hp : isParallel w v = false ↔ ¬ (isParallel w v = true) := by simp
  rw [hb, hp, isBetween_iff' hw hu h', isBetween_iff' hu hw h, isParallel_iff' u v, isParallel_iff' w v]
  have e1 : ccw w u = - ccw u w := by unfold ccw; ring
  have e2 : ccw w v = - ccw v w := by unfold ccw; ring
  have e3 : ccw v u = - ccw u v := by unfold ccw; ring
  rw [e1, e2, e3]
  have n1 := normSq_pos' hu
  have n2 := normSq_pos' hw
  have n3 := normSq_pos' hv
  have d1 : ccw u w * dot u v = ccw v w * (u.1 * u.1 + u.2 * u.2) + ccw u v * dot u w := by unfold ccw dot; ring
  have d2 : ccw u w * dot w v = ccw v w * dot u w + ccw u v * (w.1 * w.1 + w.2 * w.2) := by unfold ccw dot; ring
  have hpar := isParallel_false.1 h
  have l1 : (u.1 * u.1 + u.2 * u.2) * (v.1 * v.1 + v.2 * v.2) = ccw u v * ccw u v + dot u v * dot u v := by unfold ccw dot; ring
  have l2 : (w.1 * w.1 + w.2 * w.2) * (v.1 * v.1 + v.2 * v.2) = ccw v w * ccw v w + dot w v * dot w v := by unfold ccw dot; ring
  have l3 : (u.1 * u.1 + u.2 * u.2) * (w.1 * w.1 + w.2 * w.2) = ccw u w * ccw u w + dot u w * dot u w := by unfold ccw dot; ring
  have d3 : dot u w * (v.1 * v.1 + v.2 * v.2) = dot u v * dot w v + ccw u v * -ccw v w := by unfold ccw dot; ring
  have m1 := mul_pos n1 n3
  have m2 := mul_pos n2 n3
  have m3 := mul_pos n1 n2
  generalize ccw u w = c at *
  generalize ccw u v = p at *
  generalize ccw v w = q at *
  generalize dot u v = a at *
  generalize dot w v = b at *
  generalize dot u w = d at *
  generalize u.1 * u.1 + u.2 * u.2 = nu at *
  generalize w.1 * w.1 + w.2 * w.2 = nw at *
  generalize v.1 * v.1 + v.2 * v.2 = nv at *
  have ha : p = 0 → a ≠ 0 := by rintro rfl rfl; rw [l1] at m1; simp at m1
  have hb : q = 0 → b ≠ 0 := by rintro rfl rfl; rw [l2] at m2; simp at m2
  have A1 : p = 0 → (0 < c * a ↔ 0 < q) := by rintro rfl; rw [d1]; simp [n1]
  have A1' : p = 0 → (c * a < 0 ↔ q < 0) := by rintro rfl; rw [d1]; simp [mul_neg_iff, n1, not_lt.2 n1.le]
  have A2 : q = 0 → (0 < c * b ↔ 0 < p) := by rintro rfl; rw [d2]; simp [n2]
  have A2' : q = 0 → (c * b < 0 ↔ p < 0) := by rintro rfl; rw [d2]; simp [mul_neg_iff, n2, not_lt.2 n2.le]
  have A3 : c = 0 → d < 0 := by
    rintro rfl
    by_contra h0
    rcases lt_or_eq_of_le (not_lt.1 h0) with h1 | h1
    · exact hpar ⟨rfl, h1⟩
    · rw [l3, ← h1] at m3; simp at m3
  have A4 : c = 0 → (0 < p ↔ 0 < q) := by
    intro h0
    have := A3 h0
    subst h0
    have e : q * nu = p * (-d) := by linarith
    have hd : 0 < -d := by linarith
    constructor
    · intro h1
      exact (mul_pos_iff_of_pos_right n1).1 (by rw [e]; exact mul_pos h1 hd)
    · intro h1
      exact (mul_pos_iff_of_pos_right hd).1 (by rw [← e]; exact mul_pos h1 n1)
  have A5 : c = 0 → p = 0 → q = 0 → (0 < a ↔ b < 0) := by
    intro h0 h1 h2
    have hd := A3 h0
    subst h0 h1 h2
    have e : a * b < 0 := by
      have := mul_pos (neg_pos.2 hd) n3
      linarith
    rcases mul_neg_iff.1 e with ⟨h1, h2⟩ | ⟨h1, h2⟩
    · exact ⟨fun _ => h2, fun _ => h1⟩
    · exact ⟨fun h => absurd h (not_lt.2 h1.le), fun h => absurd h (not_lt.2 h2.le)⟩
  have A6 : c = 0 → (q = 0 ↔ p = 0) := by
    intro h0
    have := (A3 h0).ne
    subst h0
    have e : q * nu = p * (-d) := by linarith
    constructor
    · rintro rfl
      simpa [this] using e.symm
    · rintro rfl
      simpa [n1.ne'] using e
  clear d1 d2 d3 l1 l2 l3 hpar e1 e2 e3 m1 m2 m3 n1 n2 n3 h h' hp
  rcases lt_trichotomy c 0 with hc | hc | hc <;> rcases lt_trichotomy p 0 with hp | hp | hp <;> rcases lt_trichotomy q 0 with hq | hq | hq <;>
    simp only [mul_pos_iff, mul_neg_iff] at A1 A1' A2 A2' <;> grind

/-! ### Similarities -/

namespace Similarity

/-- How a similarity acts on vectors. -/
theorem call_add {g : Similarity K} (hs : g.sign = 1) (x v : Vec K) : g.call (x + v) - g.call x = g.derivative.mulVec v := by
  unfold call derivative Mat2.mulVec
  rw [hs]
  ext <;> simp <;> ring

theorem ccw_derivative {g : Similarity K} (hs : g.sign = 1) (u v : Vec K) :
    ccw (g.derivative.mulVec u) (g.derivative.mulVec v) = (g.a * g.a + g.b * g.b) * ccw u v := by
  unfold derivative Mat2.mulVec ccw
  rw [hs]
  simp
  ring

theorem dot_derivative {g : Similarity K} (hs : g.sign = 1) (u v : Vec K) :
    dot (g.derivative.mulVec u) (g.derivative.mulVec v) = (g.a * g.a + g.b * g.b) * dot u v := by
  unfold derivative Mat2.mulVec dot
  rw [hs]
  simp
  ring

theorem WF.normSq_pos {g : Similarity K} (hg : g.WF) : 0 < g.a * g.a + g.b * g.b :=
  lt_of_le_of_ne (add_nonneg (mul_self_nonneg _) (mul_self_nonneg _)) (Ne.symm hg.1)

theorem isParallel_derivative {g : Similarity K} (hg : g.WF) (hs : g.sign = 1) (u v : Vec K) :
    isParallel (g.derivative.mulVec u) (g.derivative.mulVec v) = isParallel u v := by
  rw [Bool.eq_iff_iff, isParallel_iff', isParallel_iff', ccw_derivative hs, dot_derivative hs]
  have := hg.normSq_pos
  simp [this, this.ne']

theorem derivative_neg (g : Similarity K) (v : Vec K) : g.derivative.mulVec (-v) = -g.derivative.mulVec v := by
  unfold Mat2.mulVec
  ext <;> simp <;> ring

theorem derivative_ne {g : Similarity K} (hg : g.WF) (hs : g.sign = 1) {v : Vec K} (hv : v ≠ 0) : g.derivative.mulVec v ≠ 0 := by
  intro h
  have h1 := dot_derivative hs v v
  rw [h] at h1
  have := mul_pos hg.normSq_pos (normSq_pos' hv)
  unfold dot at h1
  simp at h1
  rcases h1 with h1 | h1
  · exact hg.1 h1
  · exact normSq_ne_zero hv h1

end Similarity

theorem isAntiParallel_neg (u v : Vec K) : isAntiParallel u (-v) = isParallel u v := by
  unfold isAntiParallel; rw [neg_neg]

theorem isParallel_neg_neg (u v : Vec K) : isParallel (-u) (-v) = isParallel u v := by
  rw [Bool.eq_iff_iff, isParallel_iff', isParallel_iff']
  unfold ccw dot; simp

theorem isParallel_neg_left (u v : Vec K) : isParallel (-u) v = isAntiParallel u v := by
  rw [← isParallel_neg_neg, neg_neg]; rfl

namespace RSurf
variable {L : Type}

/-- A vector at a point of a polygon points into the polygon: at a point on an edge it points to the left of the edge or along the edge,
at a vertex it points along the edge that starts there or strictly between this edge and the previous edge, reversed. -/
def Points (p : Poly K) (pt v : Vec K) : Prop :=
  v ≠ 0 ∧ match p.pointPosition pt with
  | .interior => True
  | .edgeInterior e => 0 < ccw (p.edge e) v ∨ isParallel (p.edge e) v = true
  | .vertex i => isParallel (p.edge i) v = true ∨ isBetween (p.edge i) (-p.edge (i + (p.length - 1))) v = true
  | .outside => False

/-- A point of a polygon with a vector. -/
abbrev Arrow (L K : Type) := L × Vec K × Vec K

/-- Two points with vectors are identified by the gluing of an edge: the points are inside of the edge, or at its start if the vector
points along the edge, or at its end if the vector points to its start; the similarity that maps the edge to the opposite edge maps the
point and the vector to each other. -/
def TVGlue (S : RSurf L K) (valid : L → Prop) (x y : Arrow L K) : Prop :=
  ∃ p p' e e' g, valid x.1 ∧ S.polygon x.1 = .ok p ∧ e < p.length ∧ S.opp x.1 e = .ok (some (y.1, e')) ∧ S.polygon y.1 = .ok p' ∧
    Similarity.WF g ∧ g.sign = 1 ∧ g.call (p.vertex e) = p'.vertex (e' + 1) ∧ g.call (p.vertex (e + 1)) = p'.vertex e' ∧
    x.2.2 ≠ 0 ∧ y.2.1 = g.call x.2.1 ∧ y.2.2 = g.call (x.2.1 + x.2.2) - g.call x.2.1 ∧
    (x.2.1 ∈ p.openSide e ∨ (x.2.1 = p.vertex e ∧ isParallel (p.edge e) x.2.2 = true) ∨
      (x.2.1 = p.vertex (e + 1) ∧ isAntiParallel (p.edge e) x.2.2 = true))

section
variable {S : RSurf L K} {valid : L → Prop}

theorem derivative_edge {g : Similarity K} (hs : g.sign = 1) {p p' : Poly K} {e e' : ℕ} (h1 : g.call (p.vertex e) = p'.vertex (e' + 1))
    (h2 : g.call (p.vertex (e + 1)) = p'.vertex e') : g.derivative.mulVec (p.edge e) = -p'.edge e' := by
  rw [← Similarity.call_add hs (p.vertex e)]
  unfold Poly.edge
  rw [add_sub_cancel, h1, h2]
  abel

theorem call_openSide {g : Similarity K} (hs : g.sign = 1) {p p' : Poly K} {e e' : ℕ} (h1 : g.call (p.vertex e) = p'.vertex (e' + 1))
    (h2 : g.call (p.vertex (e + 1)) = p'.vertex e') {x : Vec K} (hx : x ∈ p.openSide e) : g.call x ∈ p'.openSide e' := by
  obtain ⟨t, t0, t1, rfl⟩ := hx
  refine ⟨1 - t, by linarith, by linarith, ?_⟩
  unfold Poly.edge
  rw [call_affine hs, h1, h2]
  ext <;> simp <;> ring

/-- The gluings of arrows are symmetric. -/
theorem tvGlue_symm (hS : S.Bordered valid) {x y : Arrow L K} (h : S.TVGlue valid x y) : S.TVGlue valid y x := by
  obtain ⟨p, p', e, e', g, hl, hp, he, ho, hp', hg, hs, g1, g2, hv, hy1, hy2, hpos⟩ := h
  obtain ⟨hl', q, hq, he', hb⟩ := hS.back hl hp he ho
  rw [hp'] at hq; injection hq with hq; subst hq
  have hsi : g.inv.sign = 1 := by simp [Similarity.inv, hs]
  have hi : ∀ z, g.inv.call (g.call z) = z := fun z => inv_call hg hs rfl
  have hd := derivative_edge hs g1 g2
  rw [Similarity.call_add hs] at hy2
  have hpar : isParallel (p'.edge e') y.2.2 = isAntiParallel (p.edge e) x.2.2 := by
    rw [hy2, ← isParallel_neg_neg, ← hd, ← Similarity.derivative_neg, Similarity.isParallel_derivative hg hs]
    rfl
  have hanti : isAntiParallel (p'.edge e') y.2.2 = isParallel (p.edge e) x.2.2 := by
    rw [← isParallel_neg_left, hy2, ← hd, Similarity.isParallel_derivative hg hs]
  refine ⟨p', p, e', e, g.inv, hl', hp', he', hb, hp, Similarity.C01_inv_wf g hg, hsi, ?_, ?_, ?_, ?_, ?_, ?_⟩
  · rw [← g2, hi]
  · rw [← g1, hi]
  · rw [hy2]; exact Similarity.derivative_ne hg hs hv
  · rw [hy1, hi]
  · rw [hy1, hy2, ← Similarity.call_add hs x.2.1, add_sub_cancel, hi, hi]; abel
  · rw [hpar, hanti, hy1]
    rcases hpos with h | ⟨h1, h2⟩ | ⟨h1, h2⟩
    · exact Or.inl (call_openSide hs g1 g2 h)
    · exact Or.inr (Or.inr ⟨by rw [h1, g1], h2⟩)
    · exact Or.inr (Or.inl ⟨by rw [h1, g2], h2⟩)

/-- Vectors are moved across an edge by the similarity that maps the edge to the opposite edge. -/
theorem tvMove_ok {l l' : L} {e e' : ℕ} {p p' : Poly K} (ho : S.opp l e = .ok (some (l', e')))
    (hp : S.polygon l = .ok p) (hp' : S.polygon l' = .ok p') (hv : p.edge e ≠ 0) (hv' : p'.edge e' ≠ 0) {g : Similarity K}
    (hs : g.sign = 1) (g1 : g.call (p.vertex e) = p'.vertex (e' + 1)) (g2 : g.call (p.vertex (e + 1)) = p'.vertex e') (pt v : Vec K) :
    S.tvMove l e pt v = .ok ⟨l', g.call pt, g.call (pt + v) - g.call pt, p'.pointPosition (g.call pt)⟩ := by
  obtain ⟨h, hh, -, hs', h1, h2⟩ := edgeTransformation_ok ho hp hp' hv hv'
  have hne : p.vertex e ≠ p.vertex (e + 1) := fun h => hv (by unfold Poly.edge; rw [h, sub_self])
  have : h = g := similarity_unique hs' hs hne (by rw [h1, g1]) (by rw [h2, g2])
  subst this
  unfold tvMove
  simp only [opp!_ok ho, hh, hp', bind, Except.bind, pure, Except.pure, Similarity.call_add hs]

/-- `Points` at a point of an edge, at a vertex. -/
theorem points_edge {p : Poly K} (hv : p.Valid) {e : ℕ} (he : e < p.length) {pt v : Vec K} (hpt : pt ∈ p.openSide e) :
    Points p pt v ↔ v ≠ 0 ∧ (0 < ccw (p.edge e) v ∨ isParallel (p.edge e) v = true) := by
  unfold Points
  rw [(Poly.C12_edge hv pt e).2 ⟨he, hpt⟩]

theorem points_vertex {p : Poly K} (hv : p.Valid) {i : ℕ} (hi : i < p.length) {v : Vec K} :
    Points p (p.vertex i) v ↔ v ≠ 0 ∧ (isParallel (p.edge i) v = true ∨ isBetween (p.edge i) (-p.edge (i + (p.length - 1))) v = true) := by
  unfold Points
  rw [(Poly.C12_vertex hv _ i).2 ⟨hi, rfl⟩]

theorem prev_edge {p : Poly K} {e : ℕ} (he : e < p.length) : p.edge ((e + 1) % p.length + (p.length - 1)) = p.edge e := by
  rw [← Poly.edge_mod, prev_succ he]

theorem turn_prev {p : Poly K} (hv : p.Valid) {i : ℕ} (hi : i < p.length) :
    isParallel (p.edge i) (-p.edge (i + (p.length - 1))) = false := by
  have h := hv.turn (i + (p.length - 1))
  have : p.edge (i + (p.length - 1) + 1) = p.edge i := by
    have hn := hv.len3
    rw [show i + (p.length - 1) + 1 = i + p.length by omega, Poly.edge_add_length]
  rw [this] at h
  rw [isParallel_comm', isParallel_neg_left]
  exact h

/-- A vector that points along the edge that starts at a vertex does not point along the previous edge. -/
theorem not_anti_of_points {p : Poly K} (hv : p.Valid) {i : ℕ} (hi : i < p.length) {v : Vec K} (hne : v ≠ 0) :
    (isBetween (-p.edge (i + (p.length - 1))) (p.edge i) v = false ∧ isAntiParallel (p.edge (i + (p.length - 1))) v = false) ↔
      (isParallel (p.edge i) v = true ∨ isBetween (p.edge i) (-p.edge (i + (p.length - 1))) v = true) := by
  have h := sector_cases (hv.edge_ne i) (neg_ne_zero.2 (hv.edge_ne (i + (p.length - 1)))) hne (turn_prev hv hi)
  rw [isParallel_neg_left] at h
  exact h

/-- On the two sides of an edge. -/
theorem edge_sides {u v : Vec K} (hu : u ≠ 0) (hv : v ≠ 0) : ¬ (ccw u v < 0 ∨ isAntiParallel u v = true) ↔ (0 < ccw u v ∨ isParallel u v = true) := by
  constructor
  · intro h
    push Not at h
    rcases lt_or_eq_of_le h.1 with h1 | h1
    · exact Or.inl h1
    · rcases parallel_or hu hv h1.symm with h2 | h2
      · exact Or.inr h2
      · exact absurd h2 (by simp [h.2])
  · rintro h (h1 | h1)
    · rcases h with h | h
      · exact absurd h (not_lt.2 h1.le)
      · exact absurd ((isParallel_iff' u v).1 h).1 h1.ne
    · have h1 := (isAntiParallel_iff' u v).1 h1
      rcases h with h | h
      · exact absurd h1.1 h.ne'
      · exact absurd ((isParallel_iff' u v).1 h).2 (not_lt.2 h1.2.le)

/-- **C45.** A tangent vector that points into the polygon is not moved. -/
theorem C45_fixed (hS : S.Bordered valid) {l : L} (hl : valid l) {p : Poly K} (hp : S.polygon l = .ok p) {pt v : Vec K}
    (h : Points p pt v) : S.tangentVector l pt v = .ok ⟨l, pt, v, p.pointPosition pt⟩ := by
  have hv := hS.valid_of_polygon hl hp
  obtain ⟨hne, h⟩ := h
  unfold tangentVector
  simp only [hp, bind, Except.bind, pure, Except.pure]
  rw [if_neg hne]
  cases hpos : p.pointPosition pt with
  | interior => rfl
  | outside => rw [hpos] at h; exact h.elim
  | edgeInterior e =>
    rw [hpos] at h
    dsimp only at h ⊢
    rw [if_neg ((edge_sides (hv.edge_ne e) hne).2 h)]
  | vertex i =>
    rw [hpos] at h
    dsimp only at h ⊢
    obtain ⟨h1, h2⟩ := (not_anti_of_points hv ((Poly.C12_vertex hv pt i).1 hpos).1 hne).2 h
    rw [h1, h2]
    rfl

/-- The description of the move of a tangent vector across an edge that is glued. -/
theorem tvMove_glue (hS : S.Bordered valid) {l : L} (hl : valid l) {p : Poly K} (hp : S.polygon l = .ok p) {e : ℕ} (he : e < p.length)
    {pt v : Vec K} (hne : v ≠ 0)
    (hpos : pt ∈ p.openSide e ∨ (pt = p.vertex e ∧ isParallel (p.edge e) v = true) ∨
      (pt = p.vertex (e + 1) ∧ isAntiParallel (p.edge e) v = true))
    {t : TVec L K} (h : S.tvMove l e pt v = .ok t) :
    S.TVGlue valid (l, pt, v) (t.label, t.point, t.vector) ∧ ∃ p', valid t.label ∧ S.polygon t.label = .ok p' ∧
      t.position = p'.pointPosition t.point := by
  rcases hS.glue l p e hl hp he with hno | ⟨l', e', p', ho, hl', hp', he', hb⟩
  · unfold tvMove at h
    rw [opp!_none hno] at h
    cases h
  · have hv := hS.valid_of_polygon hl hp
    have hv' := hS.valid_of_polygon hl' hp'
    obtain ⟨g, hg, hwf, hs, g1, g2⟩ := edgeTransformation_ok ho hp hp' (hv.edge_ne e) (hv'.edge_ne e')
    rw [tvMove_ok ho hp hp' (hv.edge_ne e) (hv'.edge_ne e') hs g1 g2] at h
    injection h with h
    subst h
    exact ⟨⟨p, p', e, e', g, hl, hp, he, ho, hp', hwf, hs, g1, g2, hne, rfl, rfl, hpos⟩, p', hl', hp', rfl⟩

/-- **C45.** A tangent vector is kept, or it is moved across one edge by the gluing of this edge. -/
theorem C45_moved (hS : S.Bordered valid) {l : L} (hl : valid l) {pt v : Vec K} {t : TVec L K} (h : S.tangentVector l pt v = .ok t) :
    (t.label = l ∧ t.point = pt ∧ t.vector = v ∨ S.TVGlue valid (l, pt, v) (t.label, t.point, t.vector)) ∧
    ∃ p, valid t.label ∧ S.polygon t.label = .ok p ∧ t.position = p.pointPosition t.point ∧ Points p t.point t.vector := by
  obtain ⟨p, hp, hv⟩ := hS.poly l hl
  unfold tangentVector at h
  simp only [hp, bind, Except.bind, pure, Except.pure] at h
  by_cases hne : v = 0
  · rw [if_pos hne] at h; cases h
  rw [if_neg hne] at h
  have key : ∀ {e : ℕ}, e < p.length → S.tvMove l e pt v = .ok t →
      (pt ∈ p.openSide e ∧ (ccw (p.edge e) v < 0 ∨ isAntiParallel (p.edge e) v = true) ∨
        (pt = p.vertex (e + 1) ∧ isAntiParallel (p.edge e) v = true)) →
      S.TVGlue valid (l, pt, v) (t.label, t.point, t.vector) ∧
        ∃ p, valid t.label ∧ S.polygon t.label = .ok p ∧ t.position = p.pointPosition t.point ∧ Points p t.point t.vector := by
    intro e he hm hpos
    obtain ⟨hgl, p', hl', hp', hpos'⟩ := tvMove_glue hS hl hp he hne (by rcases hpos with h | h; exacts [Or.inl h.1, Or.inr (Or.inr h)]) hm
    refine ⟨hgl, p', hl', hp', hpos', ?_⟩
    have hv' := hS.valid_of_polygon hl' hp'
    have hno : ∃ c, S.opp l e = .ok (some c) := by
      rcases hS.glue l p e hl hp he with hno | ⟨l', e', p', ho, -⟩
      · unfold tvMove at hm
        rw [opp!_none hno] at hm
        cases hm
      · exact ⟨_, ho⟩
    obtain ⟨⟨l2, e'⟩, ho⟩ := hno
    obtain ⟨hl2, p2, hp2, he2, hb⟩ := hS.back hl hp he ho
    have hv2 := hS.valid_of_polygon hl2 hp2
    obtain ⟨g, hg, hwf, hs, g1, g2⟩ := edgeTransformation_ok ho hp hp2 (hv.edge_ne e) (hv2.edge_ne e')
    rw [tvMove_ok ho hp hp2 (hv.edge_ne e) (hv2.edge_ne e') hs g1 g2] at hm
    injection hm with hm
    subst hm
    dsimp only at *
    rw [hp2] at hp'; injection hp' with hp'; subst hp'
    rw [Similarity.call_add hs]
    have hd := derivative_edge hs g1 g2
    have hpar : isParallel (p2.edge e') (g.derivative.mulVec v) = isAntiParallel (p.edge e) v := by
      rw [← isParallel_neg_neg, ← hd, ← Similarity.derivative_neg, Similarity.isParallel_derivative hwf hs]
      rfl
    have hcc : ccw (p2.edge e') (g.derivative.mulVec v) = -((g.a * g.a + g.b * g.b) * ccw (p.edge e) v) := by
      rw [← Similarity.ccw_derivative hs, hd]
      unfold ccw; simp; ring
    have hne' := Similarity.derivative_ne hwf hs hne
    rcases hpos with ⟨h1, h2⟩ | ⟨h1, h2⟩
    · refine (points_edge hv2 he2 (call_openSide hs g1 g2 h1)).2 ⟨hne', ?_⟩
      rw [hpar, hcc]
      rcases h2 with h2 | h2
      · left
        have := mul_pos_of_neg_of_neg h2 (neg_lt_zero.2 hwf.normSq_pos)
        linarith
      · exact Or.inr h2
    · rw [h1, g2]
      exact (points_vertex hv2 he2).2 ⟨hne', Or.inl (by rw [hpar]; exact h2)⟩
  cases hpos : p.pointPosition pt with
  | interior =>
    rw [hpos] at h
    injection h with h
    subst h
    refine ⟨Or.inl ⟨rfl, rfl, rfl⟩, p, hl, hp, hpos.symm, hne, ?_⟩
    dsimp only
    rw [hpos]
    trivial
  | outside => rw [hpos] at h; cases h
  | edgeInterior e =>
    rw [hpos] at h
    dsimp only at h
    obtain ⟨he, hopen⟩ := (Poly.C12_edge hv pt e).1 hpos
    by_cases hc : ccw (p.edge e) v < 0 ∨ isAntiParallel (p.edge e) v = true
    · rw [if_pos hc] at h
      obtain ⟨h1, h2⟩ := key he h (Or.inl ⟨hopen, hc⟩)
      exact ⟨Or.inr h1, h2⟩
    · rw [if_neg hc] at h
      injection h with h
      subst h
      exact ⟨Or.inl ⟨rfl, rfl, rfl⟩, p, hl, hp, hpos.symm, (points_edge hv he hopen).2 ⟨hne, (edge_sides (hv.edge_ne e) hne).1 hc⟩⟩
  | vertex i =>
    rw [hpos] at h
    dsimp only at h
    obtain ⟨hi, rfl⟩ := (Poly.C12_vertex hv pt i).1 hpos
    have hn : 0 < p.length := by omega
    by_cases hb : isBetween (-p.edge (i + (p.length - 1))) (p.edge i) v = true
    · rw [if_pos hb] at h; cases h
    rw [if_neg hb] at h
    by_cases hc : isAntiParallel (p.edge (i + (p.length - 1))) v = true
    · rw [if_pos hc] at h
      obtain ⟨h1, h2⟩ := key (Nat.mod_lt _ hn) h (Or.inr ⟨by rw [← Poly.vertex_mod p ((i + (p.length - 1)) % p.length + 1), succ_prev hi], by rw [Poly.edge_mod]; exact hc⟩)
      exact ⟨Or.inr h1, h2⟩
    · rw [if_neg hc] at h
      injection h with h
      subst h
      exact ⟨Or.inl ⟨rfl, rfl, rfl⟩, p, hl, hp, hpos.symm, (points_vertex hv hi).2 ⟨hne, (not_anti_of_points hv hi hne).1 ⟨by simpa using hb, by simpa using hc⟩⟩⟩

/-- The data of a gluing, with how directions are related to the two edges. -/
theorem tvGlue_data {x y : Arrow L K} (h : S.TVGlue valid x y) : ∃ p p' e e' g, valid x.1 ∧ S.polygon x.1 = .ok p ∧ e < p.length ∧
    S.opp x.1 e = .ok (some (y.1, e')) ∧ S.polygon y.1 = .ok p' ∧
    Similarity.WF g ∧ g.sign = 1 ∧ g.call (p.vertex e) = p'.vertex (e' + 1) ∧ g.call (p.vertex (e + 1)) = p'.vertex e' ∧
    x.2.2 ≠ 0 ∧ y.2.1 = g.call x.2.1 ∧ y.2.2 = g.call (x.2.1 + x.2.2) - g.call x.2.1 ∧
    (x.2.1 ∈ p.openSide e ∨ (x.2.1 = p.vertex e ∧ isParallel (p.edge e) x.2.2 = true) ∨
      (x.2.1 = p.vertex (e + 1) ∧ isAntiParallel (p.edge e) x.2.2 = true)) ∧
    y.2.2 ≠ 0 ∧ isParallel (p'.edge e') y.2.2 = isAntiParallel (p.edge e) x.2.2 ∧
    isAntiParallel (p'.edge e') y.2.2 = isParallel (p.edge e) x.2.2 ∧
    (ccw (p'.edge e') y.2.2 < 0 ↔ 0 < ccw (p.edge e) x.2.2) ∧ (0 < ccw (p'.edge e') y.2.2 ↔ ccw (p.edge e) x.2.2 < 0) := by
  obtain ⟨p, p', e, e', g, hl, hp, he, ho, hp', hg, hs, g1, g2, hv, hy1, hy2, hpos⟩ := h
  refine ⟨p, p', e, e', g, hl, hp, he, ho, hp', hg, hs, g1, g2, hv, hy1, hy2, hpos, ?_⟩
  have hd := derivative_edge hs g1 g2
  have hcc : ccw (p'.edge e') y.2.2 = -((g.a * g.a + g.b * g.b) * ccw (p.edge e) x.2.2) := by
    rw [hy2, Similarity.call_add hs, ← Similarity.ccw_derivative hs, hd]
    unfold ccw; simp; ring
  have hpos := hg.normSq_pos
  rw [hcc]
  rw [Similarity.call_add hs] at hy2
  refine ⟨by rw [hy2]; exact Similarity.derivative_ne hg hs hv, ?_, ?_, ?_, ?_⟩
  · rw [hy2, ← isParallel_neg_neg, ← hd, ← Similarity.derivative_neg, Similarity.isParallel_derivative hg hs]
    rfl
  · rw [← isParallel_neg_left, hy2, ← hd, Similarity.isParallel_derivative hg hs]
  · rw [neg_lt_zero, mul_pos_iff_of_pos_left hpos]
  · rw [neg_pos, mul_neg_iff]
    simp [hpos, not_lt.2 hpos.le]

/-- An arrow that is glued to one that points into its polygon is moved there. -/
theorem tangentVector_of_glue (hS : S.Bordered valid) {x y : Arrow L K} (h : S.TVGlue valid x y) {p : Poly K} (hp : S.polygon x.1 = .ok p)
    (hx : Points p x.2.1 x.2.2) : S.tangentVector y.1 y.2.1 y.2.2 = .ok ⟨x.1, x.2.1, x.2.2, p.pointPosition x.2.1⟩ := by
  obtain ⟨q, p', e, e', g, hl, hq, he, ho, hp', hg, hs, g1, g2, hne, hy1, hy2, hpos, hne', hpar, hanti, hc1, hc2⟩ := tvGlue_data h
  rw [hp] at hq; injection hq with hq; subst hq
  obtain ⟨hl', q, hq, he', hb⟩ := hS.back hl hp he ho
  rw [hp'] at hq; injection hq with hq; subst hq
  have hv := hS.valid_of_polygon hl hp
  have hv' := hS.valid_of_polygon hl' hp'
  have hn : 0 < p.length := by omega
  have hn' : 0 < p'.length := by omega
  have hsi : g.inv.sign = 1 := by simp [Similarity.inv, hs]
  have hi : ∀ z, g.inv.call (g.call z) = z := fun z => inv_call hg hs rfl
  have hm : S.tvMove y.1 e' y.2.1 y.2.2 = .ok ⟨x.1, x.2.1, x.2.2, p.pointPosition x.2.1⟩ := by
    rw [tvMove_ok hb hp' hp (hv'.edge_ne e') (hv.edge_ne e) hsi (by rw [← g2, hi]) (by rw [← g1, hi])]
    rw [hy1, hy2, add_sub_cancel, hi, hi, add_sub_cancel_left]
  unfold tangentVector
  simp only [hp', bind, Except.bind, pure, Except.pure]
  rw [if_neg hne']
  have hend : ∀ {i : ℕ}, i < p.length → x.2.1 = p.vertex (i + 1) → isAntiParallel (p.edge i) x.2.2 = true → False := by
    intro i hi h1 h2
    have h3 : x.2.1 = p.vertex ((i + 1) % p.length) := by rw [Poly.vertex_mod]; exact h1
    rw [h3] at hx
    have := ((not_anti_of_points hv (Nat.mod_lt _ hn) hne).2 ((points_vertex hv (Nat.mod_lt _ hn)).1 hx).2).2
    rw [prev_edge hi] at this
    rw [this] at h2
    cases h2
  rcases hpos with h1 | ⟨h1, h2⟩ | ⟨h1, h2⟩
  · have h3 := ((points_edge hv he h1).1 hx).2
    have h4 : y.2.1 ∈ p'.openSide e' := by rw [hy1]; exact call_openSide hs g1 g2 h1
    rw [(Poly.C12_edge hv' y.2.1 e').2 ⟨he', h4⟩]
    dsimp only
    rw [if_pos, hm]
    rw [hc1, hanti]
    exact h3
  · have h3 : y.2.1 = p'.vertex ((e' + 1) % p'.length) := by rw [Poly.vertex_mod, hy1, h1, g1]
    rw [(Poly.C12_vertex hv' y.2.1 ((e' + 1) % p'.length)).2 ⟨Nat.mod_lt _ hn', h3⟩]
    dsimp only
    rw [prev_succ he', prev_edge he', hanti, if_pos h2, if_neg, hm]
    intro hbt
    have hba : isParallel (-p'.edge e') y.2.2 = true := by rw [isParallel_neg_left, hanti]; exact h2
    have hturn := turn_prev hv' (Nat.mod_lt (e' + 1) hn')
    rw [prev_edge he'] at hturn
    have hk := (isBetween_iff' (neg_ne_zero.2 (hv'.edge_ne e')) (hv'.edge_ne ((e' + 1) % p'.length)) (by rw [isParallel_comm']; exact hturn)).1 hbt
    have hz := ((isParallel_iff' _ _).1 hba).1
    rw [hz] at hk
    rcases hk with hk | hk | hk
    · exact lt_irrefl _ hk.2.1
    · exact lt_irrefl _ hk.2
    · have hk2 := hk.2.resolve_left (lt_irrefl _)
      have hd := ((isParallel_iff' _ _).1 hba).2
      have n1 := normSq_pos' (neg_ne_zero.2 (hv'.edge_ne e'))
      have : ccw y.2.2 (p'.edge ((e' + 1) % p'.length)) * ((-p'.edge e').1 * (-p'.edge e').1 + (-p'.edge e').2 * (-p'.edge e').2) =
          dot (-p'.edge e') y.2.2 * ccw (-p'.edge e') (p'.edge ((e' + 1) % p'.length)) +
          ccw (-p'.edge e') y.2.2 * -(dot (-p'.edge e') (p'.edge ((e' + 1) % p'.length))) := by
        unfold ccw dot; ring
      rw [hz] at this
      have h5 := mul_pos hk2 n1
      have h6 := mul_pos_of_neg_of_neg (neg_lt_zero.2 hd) hk.1
      linarith
  · exact (hend he h1 h2).elim

/-- **C45.** Points with vectors that are related by a gluing give the same tangent vector. -/
theorem C45_glued (hS : S.Bordered valid) {x y : Arrow L K} (h : S.TVGlue valid x y) :
    S.tangentVector x.1 x.2.1 x.2.2 = S.tangentVector y.1 y.2.1 y.2.2 := by
  obtain ⟨p, p', e, e', g, hl, hp, he, ho, hp', hg, hs, g1, g2, hne, hy1, hy2, hpos, hne', hpar, hanti, hc1, hc2⟩ := tvGlue_data h
  obtain ⟨hl', q, hq, he', hb⟩ := hS.back hl hp he ho
  rw [hp'] at hq; injection hq with hq; subst hq
  have hv := hS.valid_of_polygon hl hp
  have hv' := hS.valid_of_polygon hl' hp'
  have : Points p x.2.1 x.2.2 ∨ Points p' y.2.1 y.2.2 := by
    rcases hpos with h1 | ⟨h1, h2⟩ | ⟨h1, h2⟩
    · by_cases hk : ccw (p.edge e) x.2.2 < 0 ∨ isAntiParallel (p.edge e) x.2.2 = true
      · right
        rw [points_edge hv' he' (by rw [hy1]; exact call_openSide hs g1 g2 h1), hc2, hpar]
        exact ⟨hne', hk⟩
      · left
        rw [points_edge hv he h1]
        exact ⟨hne, (edge_sides (hv.edge_ne e) hne).1 hk⟩
    · left
      rw [h1, points_vertex hv he]
      exact ⟨hne, Or.inl h2⟩
    · right
      rw [hy1, h1, g2, points_vertex hv' he', hpar]
      exact ⟨hne', Or.inl h2⟩
  rcases this with h1 | h1
  · rw [C45_fixed hS hl hp h1, tangentVector_of_glue hS h hp h1]
  · rw [C45_fixed hS hl' hp' h1, tangentVector_of_glue hS (tvGlue_symm hS h) hp' h1]

/-- **C45.** Tangent vectors are equal if and only if they are related by a chain of gluings. -/
theorem C45_eq_iff (hS : S.Bordered valid) {x y : Arrow L K} (hx : valid x.1) (hy : valid y.1) {t t' : TVec L K}
    (ht : S.tangentVector x.1 x.2.1 x.2.2 = .ok t) (ht' : S.tangentVector y.1 y.2.1 y.2.2 = .ok t') :
    t = t' ↔ Relation.EqvGen (S.TVGlue valid) x y := by
  constructor
  · rintro rfl
    have key : ∀ {z : Arrow L K}, valid z.1 → S.tangentVector z.1 z.2.1 z.2.2 = .ok t →
        Relation.EqvGen (S.TVGlue valid) z (t.label, t.point, t.vector) := by
      rintro ⟨l, pt, v⟩ hz h
      rcases (C45_moved hS hz h).1 with ⟨h1, h2, h3⟩ | h1
      · dsimp only at h1 h2 h3
        rw [h1, h2, h3]
        exact .refl _
      · exact .rel _ _ h1
    exact .trans _ _ _ (key hx ht) (.symm _ _ (key hy ht'))
  · intro h
    have : S.tangentVector x.1 x.2.1 x.2.2 = S.tangentVector y.1 y.2.1 y.2.2 := by
      clear hx hy ht ht'
      induction h with
      | rel _ _ h => exact C45_glued hS h
      | refl => rfl
      | symm _ _ _ ih => exact ih.symm
      | trans _ _ _ _ _ ih1 ih2 => exact ih1.trans ih2
    rw [ht, ht'] at this
    injection this

/-- **C45.** When tangent vectors exist: the vector must not be zero, the point must not be outside of the polygon, and at a vertex
the vector must not point away from the polygon.  A vector that points along the edge before the vertex is accepted. -/
theorem C45_defined (hS : S.Closed valid) {l : L} (hl : valid l) {p : Poly K} (hp : S.polygon l = .ok p) (pt v : Vec K) :
    (v = 0 → S.tangentVector l pt v = .error .notImplemented) ∧
    (v ≠ 0 → p.pointPosition pt = .outside → S.tangentVector l pt v = .error .valueError) ∧
    (v ≠ 0 → p.pointPosition pt = .interior → ∃ t, S.tangentVector l pt v = .ok t) ∧
    (∀ e, v ≠ 0 → p.pointPosition pt = .edgeInterior e → ∃ t, S.tangentVector l pt v = .ok t) ∧
    (∀ i, v ≠ 0 → p.pointPosition pt = .vertex i →
      ((∃ t, S.tangentVector l pt v = .ok t) ↔ isBetween (-p.edge (i + (p.length - 1))) (p.edge i) v = false) ∧
      (isBetween (-p.edge (i + (p.length - 1))) (p.edge i) v = true → S.tangentVector l pt v = .error .valueError)) := by
  have hv := hS.bordered.valid_of_polygon hl hp
  have hm : ∀ {e}, e < p.length → ∃ t, S.tvMove l e pt v = .ok t := by
    intro e he
    obtain ⟨l', e', p', ho, hl', hp', -⟩ := hS.glue l p e hl hp he
    have hv' := hS.bordered.valid_of_polygon hl' hp'
    obtain ⟨g, hg, -, hs, g1, g2⟩ := edgeTransformation_ok ho hp hp' (hv.edge_ne e) (hv'.edge_ne e')
    exact ⟨_, tvMove_ok ho hp hp' (hv.edge_ne e) (hv'.edge_ne e') hs g1 g2 pt v⟩
  unfold tangentVector
  simp only [hp, bind, Except.bind, pure, Except.pure]
  refine ⟨?_, ?_, ?_, ?_, ?_⟩
  · intro h; rw [if_pos h]; rfl
  · intro h hpos; rw [if_neg h, hpos]; rfl
  · intro h hpos; rw [if_neg h, hpos]; exact ⟨_, rfl⟩
  · intro e h hpos
    rw [if_neg h, hpos]
    dsimp only
    split_ifs
    · exact hm ((Poly.C12_edge hv pt e).1 hpos).1
    · exact ⟨_, rfl⟩
  · intro i h hpos
    have hi := ((Poly.C12_vertex hv pt i).1 hpos).1
    rw [if_neg h, hpos]
    dsimp only
    cases hb : isBetween (-p.edge (i + (p.length - 1))) (p.edge i) v with
    | true =>
      refine ⟨⟨?_, fun h => by cases h⟩, fun _ => rfl⟩
      rintro ⟨t, ht⟩
      cases ht
    | false =>
      refine ⟨⟨fun _ => rfl, fun _ => ?_⟩, fun h => by cases h⟩
      simp only [Bool.false_eq_true, if_false]
      split_ifs
      · exact hm (Nat.mod_lt _ (by omega))
      · exact ⟨_, rfl⟩

/-- **C45.** To invert a tangent vector twice gives the vector.  At vertices vectors cannot be inverted. -/
theorem C45_invert (hS : S.Closed valid) {l : L} (hl : valid l) {pt v : Vec K} {t : TVec L K} (h : S.tangentVector l pt v = .ok t) :
    ((∀ i, t.position ≠ .vertex i) → ∃ t', S.tvInvert t = .ok t' ∧ S.tvInvert t' = .ok t ∧
      Relation.EqvGen (S.TVGlue valid) (t.label, t.point, -t.vector) (t'.label, t'.point, t'.vector)) ∧
    (∀ i, t.position = .vertex i → S.tvInvert t = .error .valueError) := by
  obtain ⟨-, p, hl', hp, hpos, hpts⟩ := C45_moved hS.bordered hl h
  have hv := hS.bordered.valid_of_polygon hl' hp
  constructor
  · intro hnv
    have hinv : ∀ {s : TVec L K}, (∀ i, s.position ≠ .vertex i) → S.tvInvert s = S.tangentVector s.label s.point (-s.vector) := by
      intro s hs
      unfold tvInvert
      split
      · next i hi => exact absurd hi (hs i)
      · rfl
    have hne : -t.vector ≠ 0 := neg_ne_zero.2 hpts.1
    have hex : ∃ t', S.tangentVector t.label t.point (-t.vector) = .ok t' := by
      obtain ⟨-, h2, h3, h4, h5⟩ := C45_defined hS hl' hp t.point (-t.vector)
      cases hq : p.pointPosition t.point with
      | interior => exact h3 hne hq
      | edgeInterior e => exact h4 e hne hq
      | vertex i => rw [hq] at hpos; exact absurd hpos (hnv i)
      | outside => have := hpts.2; rw [hq] at this; exact this.elim
    obtain ⟨t', ht'⟩ := hex
    have hfix := C45_fixed hS.bordered hl' hp hpts
    rw [← hpos] at hfix
    obtain ⟨hmv, p', hl2, hp', hpos', hpts'⟩ := C45_moved hS.bordered hl' ht'
    refine ⟨t', by rw [hinv hnv, ht'], ?_, ?_⟩
    · rcases hmv with ⟨h1, h2, h3⟩ | hgl
      · have hp2 : p' = p := by rw [h1, hp] at hp'; injection hp' with hp'; exact hp'.symm
        subst hp2
        rw [hinv (by rw [hpos', h2, ← hpos]; exact hnv), h1, h2, h3, neg_neg]
        exact hfix
      · have hgl' : S.TVGlue valid (t.label, t.point, t.vector) (t'.label, t'.point, -t'.vector) ∧ ∀ i, t'.position ≠ .vertex i := by
          obtain ⟨q, q', e, e', g, hlq, hq, he, ho, hq', hg, hs, g1, g2, hn, hy1, hy2, hside⟩ := hgl
          dsimp only at *
          rw [hp] at hq; injection hq with hq; subst hq
          rw [hp'] at hq'; injection hq' with hq'; subst hq'
          have hopen : t.point ∈ p.openSide e := by
            have hnn : 0 < p.length := by omega
            rcases hside with h1 | ⟨h1, -⟩ | ⟨h1, -⟩
            · exact h1
            · exact absurd (hpos.trans ((Poly.C12_vertex hv t.point e).2 ⟨he, h1⟩)) (hnv e)
            · exact absurd (hpos.trans ((Poly.C12_vertex hv t.point ((e + 1) % p.length)).2 ⟨Nat.mod_lt _ hnn, by rw [Poly.vertex_mod]; exact h1⟩)) (hnv _)
          refine ⟨⟨p, p', e, e', g, hlq, hp, he, ho, hp', hg, hs, g1, g2, hpts.1, hy1, ?_, Or.inl hopen⟩, ?_⟩
          · dsimp only
            rw [hy2, Similarity.call_add hs, Similarity.call_add hs, Similarity.derivative_neg, neg_neg]
          · intro i hi
            obtain ⟨-, q, hq, he', -⟩ := hS.bordered.back hlq hp he ho
            rw [hp'] at hq; injection hq with hq; subst hq
            have hv' := hS.bordered.valid_of_polygon hl2 hp'
            have h6 := (Poly.C12_edge hv' t'.point e').2 ⟨he', by rw [hy1]; exact call_openSide hs g1 g2 hopen⟩
            rw [← hpos', hi] at h6
            cases h6
        rw [hinv hgl'.2]
        exact (C45_glued hS.bordered hgl'.1).symm.trans hfix
    · rcases hmv with ⟨h1, h2, h3⟩ | hgl
      · rw [h1, h2, h3]; exact .refl _
      · exact .rel _ _ hgl
  · intro i hi
    unfold tvInvert
    rw [hi]
    rfl

/-! ### The direction into which a vector points -/

/-- The first of the numbers that is not zero is positive. -/
def LexPos (a b c : K) : Prop := 0 < a ∨ a = 0 ∧ (0 < b ∨ b = 0 ∧ 0 < c)

theorem lexPos_small {a b c : K} (h : LexPos a b c) : ∃ ε > 0, ∀ s, 0 < s → s < ε → ∃ δ > 0, ∀ r, 0 < r → r < δ → 0 < a + s * b + r * c := by
  have second : ∀ {d c : K}, 0 < d → ∃ δ > 0, ∀ r, 0 < r → r < δ → 0 < d + r * c := by
    intro d c hd
    refine ⟨d / (|c| + 1), div_pos hd (by positivity), fun r r0 r1 => ?_⟩
    have hc : 0 < |c| + 1 := by positivity
    rw [lt_div_iff₀ hc] at r1
    have : -(r * |c|) ≤ r * c := by
      have := neg_abs_le c
      have := mul_le_mul_of_nonneg_left this r0.le
      linarith
    linarith
  rcases h with h | ⟨rfl, h | ⟨rfl, h⟩⟩
  · obtain ⟨ε, h0, h1⟩ := second (c := b) h
    exact ⟨ε, h0, fun s s0 s1 => second (h1 s s0 s1)⟩
  · refine ⟨1, one_pos, fun s s0 s1 => ?_⟩
    rw [zero_add]
    exact second (mul_pos s0 h)
  · refine ⟨1, one_pos, fun s s0 s1 => ⟨1, one_pos, fun r r0 r1 => ?_⟩⟩
    have := mul_pos r0 h
    linarith

theorem lexPos_all (n : ℕ) (a b c : ℕ → K) (h : ∀ i < n, LexPos (a i) (b i) (c i)) :
    ∃ ε > 0, ∀ s, 0 < s → s < ε → ∃ δ > 0, ∀ r, 0 < r → r < δ → ∀ i < n, 0 < a i + s * b i + r * c i := by
  induction n with
  | zero => exact ⟨1, one_pos, fun s _ _ => ⟨1, one_pos, fun r _ _ i hi => absurd hi (by omega)⟩⟩
  | succ n ih =>
    obtain ⟨ε, h0, h1⟩ := ih (fun i hi => h i (by omega))
    obtain ⟨ε', h0', h1'⟩ := lexPos_small (h n (by omega))
    refine ⟨min ε ε', lt_min h0 h0', fun s s0 s1 => ?_⟩
    obtain ⟨δ, k0, k1⟩ := h1 s s0 (lt_of_lt_of_le s1 (min_le_left _ _))
    obtain ⟨δ', k0', k1'⟩ := h1' s s0 (lt_of_lt_of_le s1 (min_le_right _ _))
    refine ⟨min δ δ', lt_min k0 k0', fun r r0 r1 i hi => ?_⟩
    rcases Nat.lt_succ_iff_lt_or_eq.1 hi with h2 | rfl
    · exact k1 r r0 (lt_of_lt_of_le r1 (min_le_left _ _)) i h2
    · exact k1' r r0 (lt_of_lt_of_le r1 (min_le_right _ _))

theorem lexPos_of_small {a b c : K} (hbc : b = 0 → c ≠ 0)
    (h : ∃ ε > 0, ∀ s, 0 < s → s < ε → ∃ δ > 0, ∀ r, 0 < r → r < δ → 0 < a + s * b + r * c) : LexPos a b c := by
  by_contra hn
  have hneg : LexPos (-a) (-b) (-c) := by
    unfold LexPos at *
    push Not at hn
    obtain ⟨h1, h2⟩ := hn
    rcases lt_or_eq_of_le h1 with h1 | h1
    · left; linarith
    · obtain ⟨h3, h4⟩ := h2 h1
      right
      refine ⟨by rw [h1, neg_zero], ?_⟩
      rcases lt_or_eq_of_le h3 with h3 | h3
      · left; linarith
      · right
        refine ⟨by rw [h3, neg_zero], ?_⟩
        have := lt_of_le_of_ne (h4 h3) (hbc h3)
        linarith
  obtain ⟨ε, h0, h1⟩ := h
  obtain ⟨ε', h0', h1'⟩ := lexPos_small hneg
  have e1 : 0 < min ε ε' / 2 := half_pos (lt_min h0 h0')
  have e2 : min ε ε' / 2 < min ε ε' := half_lt_self (lt_min h0 h0')
  obtain ⟨δ, k0, k1⟩ := h1 _ e1 (lt_of_lt_of_le e2 (min_le_left _ _))
  obtain ⟨δ', k0', k1'⟩ := h1' _ e1 (lt_of_lt_of_le e2 (min_le_right _ _))
  have e3 : 0 < min δ δ' / 2 := half_pos (lt_min k0 k0')
  have e4 : min δ δ' / 2 < min δ δ' := half_lt_self (lt_min k0 k0')
  have m1 := k1 _ e3 (lt_of_lt_of_le e4 (min_le_left _ _))
  have m2 := k1' _ e3 (lt_of_lt_of_le e4 (min_le_right _ _))
  linarith

theorem left_vertex_succ (p : Poly K) (i j : ℕ) : p.left (p.vertex (j + 1)) i = p.left (p.vertex j) i + ccw (p.edge i) (p.edge j) := by
  have : p.vertex (j + 1) = p.vertex j + p.edge j := by unfold Poly.edge; abel
  rw [this]
  unfold Poly.left ccw
  simp
  ring

/-- In a convex polygon edges on a common line have the same direction. -/
theorem convex_parallel {p : Poly K} (hv : p.Valid) (hc : p.Convex) {i e : ℕ} (h1 : p.left (p.vertex e) i = 0)
    (h2 : p.left (p.vertex (e + 1)) i = 0) : isParallel (p.edge i) (p.edge e) = true := by
  have h3 : ccw (p.edge i) (p.edge e) = 0 := by rw [left_vertex_succ, h1, zero_add] at h2; exact h2
  rcases parallel_or (hv.edge_ne i) (hv.edge_ne e) h3 with h | h
  · exact h
  · exfalso
    have hd := ((isAntiParallel_iff' _ _).1 h).2
    obtain ⟨j, hj⟩ := hv.not_collinear (p.edge i) (p.vertex i) (hv.edge_ne i)
    have ha := lt_of_le_of_ne (hc i j) hj.symm
    have hb := hc e j
    have n := normSq_pos' (hv.edge_ne i)
    have : ccw (p.edge e) (p.vertex j - p.vertex e) * ((p.edge i).1 * (p.edge i).1 + (p.edge i).2 * (p.edge i).2) =
        dot (p.edge i) (p.edge e) * (ccw (p.edge i) (p.vertex j - p.vertex i) - p.left (p.vertex e) i) -
        ccw (p.edge i) (p.edge e) * dot (p.edge i) (p.vertex j - p.vertex e) := by
      unfold Poly.left ccw dot; simp; ring
    rw [h1, h3, sub_zero, zero_mul, sub_zero] at this
    have h5 := mul_nonneg hb n.le
    have h6 := mul_pos (neg_pos.2 hd) ha
    linarith

theorem lexPos_smul {u w v : Vec K} (h : isParallel w u = true) (hl : 0 < ccw w v ∨ isParallel w v = true) :
    0 < ccw u v ∨ ccw u v = 0 ∧ 0 < dot u v := by
  obtain ⟨h1, h2⟩ := (isParallel_iff' w u).1 h
  have hw : 0 < w.1 * w.1 + w.2 * w.2 := by
    apply normSq_pos'
    rintro rfl
    unfold dot at h2
    simp at h2
  have e1 : ccw u v * (w.1 * w.1 + w.2 * w.2) = dot w u * ccw w v - ccw w u * dot w v := by unfold ccw dot; ring
  have e2 : dot u v * (w.1 * w.1 + w.2 * w.2) = dot w u * dot w v + ccw w u * ccw w v := by unfold ccw dot; ring
  rw [h1] at e1 e2
  rcases hl with h | h
  · left
    have := mul_pos h2 h
    exact (mul_pos_iff_of_pos_right hw).1 (by rw [e1]; linarith)
  · obtain ⟨h3, h4⟩ := (isParallel_iff' w v).1 h
    right
    rw [h3] at e1
    have := mul_pos h2 h4
    refine ⟨?_, (mul_pos_iff_of_pos_right hw).1 (by rw [e2]; linarith)⟩
    simpa [hw.ne'] using e1

theorem vertex_prev_succ {p : Poly K} (hv : p.Valid) {j : ℕ} : p.vertex (j + (p.length - 1) + 1) = p.vertex j := by
  have := hv.len3
  rw [show j + (p.length - 1) + 1 = j + p.length by omega, ← Poly.vertex_mod, Nat.add_mod_right, Poly.vertex_mod]

theorem edge_prev_succ {p : Poly K} (hv : p.Valid) {j : ℕ} : p.edge (j + (p.length - 1) + 1) = p.edge j := by
  have := hv.len3
  rw [show j + (p.length - 1) + 1 = j + p.length by omega, ← Poly.edge_mod, Nat.add_mod_right, Poly.edge_mod]

theorem convex_turn {p : Poly K} (hv : p.Valid) (hc : p.Convex) (j : ℕ) : 0 ≤ ccw (p.edge j) (-p.edge (j + (p.length - 1))) := by
  have h1 : p.left (p.vertex (j + (p.length - 1) + 1)) (j + (p.length - 1)) = 0 := by
    unfold Poly.left Poly.edge ccw
    simp
    ring
  have h := hc (j + (p.length - 1)) (j + (p.length - 1) + 1 + 1)
  have h2 := left_vertex_succ p (j + (p.length - 1)) (j + (p.length - 1) + 1)
  rw [h1, zero_add, edge_prev_succ hv] at h2
  unfold Poly.left at h2
  rw [h2] at h
  have : ccw (p.edge j) (-p.edge (j + (p.length - 1))) = ccw (p.edge (j + (p.length - 1))) (p.edge j) := by unfold ccw; simp; ring
  rw [this]
  exact h

/-- A vector at a point of a convex polygon points into the polygon in terms of the sides of the polygon. -/
theorem points_iff_lex {p : Poly K} (hv : p.Valid) (hc : p.Convex) {pt v : Vec K} (hne : v ≠ 0) :
    Points p pt v ↔ ∀ i < p.length, LexPos (p.left pt i) (ccw (p.edge i) v) (dot (p.edge i) v) := by
  have hn : 0 < p.length := by have := hv.len3; omega
  have hself : ∀ i, p.left (p.vertex i) i = 0 := by intro i; unfold Poly.left ccw; simp
  cases hpos : p.pointPosition pt with
  | interior =>
    have := ((Poly.C12_interior hv hc pt).1).1 hpos
    refine ⟨fun _ i _ => Or.inl (this i), fun _ => ⟨hne, ?_⟩⟩
    rw [hpos]
    trivial
  | outside =>
    obtain ⟨i, hi⟩ := ((Poly.C12_interior hv hc pt).2).1 hpos
    constructor
    · rintro ⟨-, h⟩; rw [hpos] at h; exact h.elim
    · intro h
      have h1 := h (i % p.length) (Nat.mod_lt _ hn)
      rw [Poly.left_mod] at h1
      change p.left pt i < 0 at hi
      rcases h1 with h1 | ⟨h1, -⟩
      · exact absurd h1 (not_lt.2 hi.le)
      · exact absurd h1 hi.ne
  | edgeInterior e =>
    obtain ⟨he, hopen⟩ := (Poly.C12_edge hv pt e).1 hpos
    rw [points_edge hv he hopen]
    obtain ⟨t, t0, t1, rfl⟩ := hopen
    constructor
    · rintro ⟨-, h⟩ i hi
      have hl : p.left (p.vertex e + t • p.edge e) i = (1 - t) * p.left (p.vertex e) i + t * p.left (p.vertex (e + 1)) i := by
        rw [left_vertex_succ]
        unfold Poly.left ccw
        simp
        ring
      have a1 : 0 ≤ p.left (p.vertex e) i := hc i e
      have a2 : 0 ≤ p.left (p.vertex (e + 1)) i := hc i (e + 1)
      have b1 := mul_nonneg (sub_nonneg.2 t1.le) a1
      have b2 := mul_nonneg t0.le a2
      rcases lt_or_eq_of_le (add_nonneg b1 b2) with h0 | h0
      · left; rw [hl]; exact h0
      · right
        refine ⟨by rw [hl, ← h0], ?_⟩
        have c1 : (1 - t) * p.left (p.vertex e) i = 0 := by linarith
        have c2 : t * p.left (p.vertex (e + 1)) i = 0 := by linarith
        rw [mul_eq_zero] at c1 c2
        have d1 := c1.resolve_left (by linarith)
        have d2 := c2.resolve_left (by linarith)
        have := convex_parallel hv hc d1 d2
        rw [isParallel_comm'] at this
        exact lexPos_smul this h
    · intro h
      refine ⟨hne, ?_⟩
      have hz : p.left (p.vertex e + t • p.edge e) e = 0 := by
        unfold Poly.left ccw
        simp
        ring
      rcases h e he with h1 | ⟨-, h1 | h1⟩
      · rw [hz] at h1; exact absurd h1 (lt_irrefl _)
      · exact Or.inl h1
      · exact Or.inr ((isParallel_iff' _ _).2 h1)
  | vertex j =>
    obtain ⟨hj, rfl⟩ := (Poly.C12_vertex hv pt j).1 hpos
    rw [points_vertex hv hj]
    have hcc := convex_turn hv hc j
    have hne1 := hv.edge_ne j
    have hne2 : -p.edge (j + (p.length - 1)) ≠ 0 := neg_ne_zero.2 (hv.edge_ne _)
    have hturn := turn_prev hv hj
    rw [isBetween_iff' hne1 hne2 hturn]
    constructor
    · rintro ⟨-, h⟩ i hi
      have a0 : 0 ≤ p.left (p.vertex j) i := hc i j
      rcases lt_or_eq_of_le a0 with a0 | a0
      · exact Or.inl a0
      refine Or.inr ⟨a0.symm, ?_⟩
      have a1 : 0 ≤ p.left (p.vertex (j + 1)) i := hc i (j + 1)
      have a2 : 0 ≤ p.left (p.vertex (j + (p.length - 1))) i := hc i _
      have a3 := left_vertex_succ p i (j + (p.length - 1))
      rw [vertex_prev_succ hv] at a3
      rw [left_vertex_succ, ← a0, zero_add] at a1
      rw [← a0] at a3
      have a4 : 0 ≤ ccw (p.edge i) (-p.edge (j + (p.length - 1))) := by
        have : ccw (p.edge i) (-p.edge (j + (p.length - 1))) = -ccw (p.edge i) (p.edge (j + (p.length - 1))) := by unfold ccw; simp; ring
        rw [this]; linarith
      have hpar : ccw (p.edge i) (p.edge j) = 0 → isParallel (p.edge j) (p.edge i) = true := by
        intro h
        rw [isParallel_comm']
        exact convex_parallel hv hc a0.symm (by rw [left_vertex_succ, ← a0, h, zero_add])
      rcases h with h | ⟨h1, h2, h3⟩ | ⟨h1, h2⟩ | ⟨h1, -⟩
      · rcases lt_or_eq_of_le a1 with a1 | a1
        · left
          obtain ⟨k1, k2⟩ := (isParallel_iff' _ _).1 h
          have n := normSq_pos' hne1
          have : ccw (p.edge i) v * ((p.edge j).1 * (p.edge j).1 + (p.edge j).2 * (p.edge j).2) =
            dot (p.edge j) v * ccw (p.edge i) (p.edge j) + ccw (p.edge j) v * dot (p.edge i) (p.edge j) := by unfold ccw dot; ring
          rw [k1, zero_mul, add_zero] at this
          exact (mul_pos_iff_of_pos_right n).1 (by rw [this]; exact mul_pos k2 a1)
        · exact lexPos_smul (hpar a1.symm) (Or.inr h)
      · left
        set w := -p.edge (j + (p.length - 1)) with hw
        have e : ccw (p.edge j) w * ccw (p.edge i) v = ccw v w * ccw (p.edge i) (p.edge j) + ccw (p.edge j) v * ccw (p.edge i) w := by
          unfold ccw; ring
        have b1 := mul_nonneg h3.le a1
        have b2 := mul_nonneg h2.le a4
        rcases lt_or_eq_of_le (add_nonneg b1 b2) with h0 | h0
        · exact (mul_pos_iff_of_pos_left h1).1 (by rw [e]; exact h0)
        · exfalso
          have c1 : ccw v w * ccw (p.edge i) (p.edge j) = 0 := by linarith
          have c2 : ccw (p.edge j) v * ccw (p.edge i) w = 0 := by linarith
          have d1 := (mul_eq_zero.1 c1).resolve_left h3.ne'
          have d2 := (mul_eq_zero.1 c2).resolve_left h2.ne'
          have n := normSq_pos' (hv.edge_ne i)
          have : ccw (p.edge j) w * ((p.edge i).1 * (p.edge i).1 + (p.edge i).2 * (p.edge i).2) =
            dot (p.edge i) (p.edge j) * ccw (p.edge i) w - ccw (p.edge i) (p.edge j) * dot (p.edge i) w := by unfold ccw dot; ring
          rw [d1, d2] at this
          have := mul_pos h1 n
          linarith
      · set w := -p.edge (j + (p.length - 1)) with hw
        have hanti : isAntiParallel (p.edge j) w = true := by
          rcases parallel_or hne1 hne2 h1 with h3 | h3
          · rw [h3] at hturn; cases hturn
          · exact h3
        have hd := ((isAntiParallel_iff' _ _).1 hanti).2
        have n := normSq_pos' hne1
        have : ccw (p.edge i) w * ((p.edge j).1 * (p.edge j).1 + (p.edge j).2 * (p.edge j).2) =
            dot (p.edge j) w * ccw (p.edge i) (p.edge j) + ccw (p.edge j) w * dot (p.edge i) (p.edge j) := by unfold ccw dot; ring
        rw [h1, zero_mul, add_zero] at this
        have b := mul_nonneg a4 n.le
        have hz : ccw (p.edge i) (p.edge j) = 0 := by
          by_contra hz
          have := mul_pos (neg_pos.2 hd) (lt_of_le_of_ne a1 (Ne.symm hz))
          linarith
        exact lexPos_smul (hpar hz) (Or.inl h2)
      · exact absurd h1 (not_lt.2 hcc)
    · intro h
      refine ⟨hne, ?_⟩
      have h1 := h j hj
      have h2 := h ((j + (p.length - 1)) % p.length) (Nat.mod_lt _ hn)
      rw [Poly.left_mod, Poly.edge_mod] at h2
      have z2 : p.left (p.vertex j) (j + (p.length - 1)) = 0 := by
        have := left_vertex_succ p (j + (p.length - 1)) (j + (p.length - 1))
        rw [vertex_prev_succ hv, hself] at this
        rw [this]
        unfold ccw; ring
      have h1 := (h1.resolve_left (by rw [hself]; exact lt_irrefl _)).2
      have h2 := (h2.resolve_left (by rw [z2]; exact lt_irrefl _)).2
      set u := p.edge (j + (p.length - 1)) with hu
      have hq : ccw v (-u) = ccw u v := by unfold ccw; simp; ring
      have hcu : ccw (p.edge j) (-u) = ccw u (p.edge j) := by unfold ccw; simp; ring
      rw [hq, hcu]
      rw [hcu] at hcc
      rcases h1 with h1 | h1
      · right
        rcases lt_or_eq_of_le hcc with h3 | h3
        · left
          refine ⟨h3, h1, ?_⟩
          rcases h2 with h2 | ⟨h2, h4⟩
          · exact h2
          · exfalso
            have n := normSq_pos' (hv.edge_ne (j + (p.length - 1)))
            rw [← hu] at n
            have : ccw (p.edge j) v * (u.1 * u.1 + u.2 * u.2) = dot u (p.edge j) * ccw u v - ccw u (p.edge j) * dot u v := by unfold ccw dot; ring
            rw [h2] at this
            have b1 := mul_pos h1 n
            have b2 := mul_pos h3 h4
            linarith
        · exact Or.inr (Or.inl ⟨h3.symm, h1⟩)
      · exact Or.inl ((isParallel_iff' _ _).2 h1)

/-- A small step along the vector, and a much smaller step to the left of the vector, leads to a point inside of the polygon. -/
def Enters (p : Poly K) (pt v : Vec K) : Prop :=
  ∃ ε > 0, ∀ s : K, 0 < s → s < ε → ∃ δ > 0, ∀ r : K, 0 < r → r < δ → p.pointPosition (pt + s • v + r • (-v.2, v.1)) = .interior

theorem points_iff_enters {p : Poly K} (hv : p.Valid) (hc : p.Convex) {pt v : Vec K} (hne : v ≠ 0) :
    Points p pt v ↔ Enters p pt v := by
  have hleft : ∀ i (s r : K), ccw (p.edge i) (pt + s • v + r • (-v.2, v.1) - p.vertex i) =
      p.left pt i + s * ccw (p.edge i) v + r * dot (p.edge i) v := by
    intro i s r
    unfold Poly.left ccw dot
    simp
    ring
  rw [points_iff_lex hv hc hne]
  unfold Enters
  constructor
  · intro h
    obtain ⟨ε, h0, h1⟩ := lexPos_all p.length _ _ _ h
    refine ⟨ε, h0, fun s s0 s1 => ?_⟩
    obtain ⟨δ, k0, k1⟩ := h1 s s0 s1
    refine ⟨δ, k0, fun r r0 r1 => ((Poly.C12_interior hv hc _).1).2 fun i => ?_⟩
    rw [← Poly.edge_mod, ← Poly.vertex_mod, hleft]
    exact k1 r r0 r1 _ (Nat.mod_lt _ (by have := hv.len3; omega))
  · rintro ⟨ε, h0, h1⟩ i hi
    refine lexPos_of_small ?_ ⟨ε, h0, fun s s0 s1 => ?_⟩
    · intro h2 h3
      have n1 := mul_pos (normSq_pos' (hv.edge_ne i)) (normSq_pos' hne)
      have : ((p.edge i).1 * (p.edge i).1 + (p.edge i).2 * (p.edge i).2) * (v.1 * v.1 + v.2 * v.2) =
        ccw (p.edge i) v * ccw (p.edge i) v + dot (p.edge i) v * dot (p.edge i) v := by unfold ccw dot; ring
      rw [this, h2, h3] at n1
      simp at n1
    · obtain ⟨δ, k0, k1⟩ := h1 s s0 s1
      refine ⟨δ, k0, fun r r0 r1 => ?_⟩
      rw [← hleft]
      exact ((Poly.C12_interior hv hc _).1).1 (k1 r r0 r1) i

/-- **C45.** A tangent vector is given in the polygon into which it points, if this polygon is convex: from its point one enters the
polygon along the vector or, if the vector runs along an edge, just to the left of the vector. -/
theorem C45_enters (hS : S.Bordered valid) {l : L} (hl : valid l) {pt v : Vec K} {t : TVec L K} (h : S.tangentVector l pt v = .ok t)
    {p : Poly K} (hp : S.polygon t.label = .ok p) (hc : p.Convex) : Enters p t.point t.vector := by
  obtain ⟨-, q, hl', hq, -, hpts⟩ := C45_moved hS hl h
  rw [hp] at hq; injection hq with hq; subst hq
  exact (points_iff_enters (hS.valid_of_polygon hl' hp) hc hpts.1).1 hpts

/-- **C45.** A tangent vector is not moved if and only if it points into the polygon. -/
theorem C45_kept_iff (hS : S.Bordered valid) {l : L} (hl : valid l) {p : Poly K} (hp : S.polygon l = .ok p) (hc : p.Convex) {pt v : Vec K}
    (hne : v ≠ 0) : S.tangentVector l pt v = .ok ⟨l, pt, v, p.pointPosition pt⟩ ↔ Enters p pt v := by
  rw [← points_iff_enters (hS.valid_of_polygon hl hp) hc hne]
  refine ⟨fun h => ?_, C45_fixed hS hl hp⟩
  obtain ⟨-, q, -, hq, -, hpts⟩ := C45_moved hS hl h
  dsimp only at hq hpts
  rw [hp] at hq; injection hq with hq; subst hq
  exact hpts

end

/-- On the torus of two triangles a vector that points out of a triangle is moved to the other one. -/
example : exTorus2.tangentVector false (1 / 2, 0) (1, -1) = .ok ⟨true, (1 / 2, 1), (1, -1), .edgeInterior 0⟩ ∧
    exTorus2.tangentVector false (0, 0) (0, 2) = .ok ⟨true, (1, 0), (0, 2), .vertex 2⟩ ∧
    exTorus2.tangentVector false (0, 0) (1, 1) = .ok ⟨false, (0, 0), (1, 1), .vertex 0⟩ ∧
    exTorus2.tangentVector false (0, 0) (-1, 1) = .error .valueError := by decide +kernel

example : Enters (K := ℚ) [(1, 1), (0, 1), (1, 0)] (1 / 2, 1) (1, -1) := by
  have h : exTorus2.tangentVector false (1 / 2, 0) (1, -1) = .ok ⟨true, (1 / 2, 1), (1, -1), .edgeInterior 0⟩ := by decide +kernel
  refine C45_enters exTorus2_closed.bordered (valid := fun _ => True) trivial h rfl ?_
  intro i j
  rw [← Poly.vertex_mod _ j, ← Poly.vertex_mod _ i, ← Poly.edge_mod]
  have hi : i % 3 < 3 := Nat.mod_lt _ (by norm_num)
  have hj : j % 3 < 3 := Nat.mod_lt _ (by norm_num)
  change 0 ≤ ccw (Poly.edge _ (i % 3)) (Poly.vertex _ (j % 3) - Poly.vertex _ (i % 3))
  generalize i % 3 = a at *
  generalize j % 3 = b at *
  interval_cases a <;> interval_cases b <;> decide +kernel

/-- A vector inside of an edge is inverted twice. -/
example : (do
    let t ← exTorus2.tangentVector false (1 / 2, 0) (1, -1)
    let t' ← exTorus2.tvInvert t
    let t'' ← exTorus2.tvInvert t'
    return decide (t' = ⟨false, (1 / 2, 0), (-1, 1), .edgeInterior 0⟩ ∧ t'' = t)) = (.ok true : Except Err Bool) := by decide +kernel

/-- The hypotheses of `C45_eq_iff` hold for two descriptions of a vector that runs along an edge. -/
example : Relation.EqvGen (exTorus2.TVGlue (fun _ => True)) (false, (0, 0), (0, 2)) (true, (1, 0), (0, 2)) := by
  have h1 : exTorus2.tangentVector false (0, 0) (0, 2) = .ok ⟨true, (1, 0), (0, 2), .vertex 2⟩ := by decide +kernel
  have h2 : exTorus2.tangentVector true (1, 0) (0, 2) = .ok ⟨true, (1, 0), (0, 2), .vertex 2⟩ := by decide +kernel
  exact (C45_eq_iff exTorus2_closed.bordered (x := (false, (0, 0), (0, 2))) (y := (true, (1, 0), (0, 2))) trivial trivial h1 h2).1 rfl

end RSurf
end
end Flat
