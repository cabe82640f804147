import Verif.Props.Tangent
import Mathlib.Data.Prod.Lex

/-!
# C60: rotation of tangent vectors
-/

namespace Flat
namespace RSurf
variable {L K : Type} [Field K] [LinearOrder K] [IsStrictOrderedRing K]

/-- The direction `w` is in the sector of the polygon at the start of an edge: it points along the edge or into the polygon. -/
def PointsAt (S : RSurf L K) (d : L × ℕ) (w : Vec K) : Prop := ∃ p, S.polygon d.1 = .ok p ∧ Points p (p.vertex d.2) w

/-- All angles of the polygons are smaller than `π`. -/
def SharpAngles (S : RSurf L K) (valid : L → Prop) : Prop :=
  ∀ l p, valid l → S.polygon l = .ok p → ∀ i, 0 < ccw (p.edge i) (p.edge (i + 1))

/-- The surface is a translation surface: glued edges are opposite to each other. -/
abbrev Translation (S : RSurf L K) (valid : L → Prop) : Prop := S.GluedBy valid (fun u w => w = -u)

section
variable {S : RSurf L K} {valid : L → Prop}

theorem sharp_prev {p : Poly K} (hv : p.Valid) (hs : ∀ i, 0 < ccw (p.edge i) (p.edge (i + 1))) (i : ℕ) :
    0 < ccw (p.edge i) (-p.edge (i + (p.length - 1))) := by
  have := hs (i + (p.length - 1))
  rw [edge_prev_succ hv] at this
  have h : ccw (p.edge i) (-p.edge (i + (p.length - 1))) = ccw (p.edge (i + (p.length - 1))) (p.edge i) := by unfold ccw; simp; ring
  rw [h]; exact this

/-- The sector at a vertex with an angle smaller than `π`. -/
theorem points_sharp {p : Poly K} (hv : p.Valid) (hs : ∀ i, 0 < ccw (p.edge i) (p.edge (i + 1))) {i : ℕ} (hi : i < p.length) {w : Vec K}
    (hw : w ≠ 0) : Points p (p.vertex i) w ↔ 0 ≤ ccw (p.edge i) w ∧ 0 < ccw w (-p.edge (i + (p.length - 1))) := by
  have hc := sharp_prev hv hs i
  rw [points_vertex hv hi, isBetween_iff' (hv.edge_ne i) (neg_ne_zero.2 (hv.edge_ne _)) (turn_prev hv hi), isParallel_iff']
  set e := p.edge i
  set f := -p.edge (i + (p.length - 1))
  have n := normSq_pos' (hv.edge_ne i)
  have h1 : ccw w f * (e.1 * e.1 + e.2 * e.2) = dot e w * ccw e f - ccw e w * dot e f := by unfold ccw dot; ring
  constructor
  · rintro ⟨-, ⟨h2, h3⟩ | ⟨-, h2, h3⟩ | ⟨h2, -⟩ | ⟨h2, -⟩⟩
    · refine ⟨h2.ge, ?_⟩
      rw [h2, zero_mul, sub_zero] at h1
      exact (mul_pos_iff_of_pos_right n).1 (by rw [h1]; exact mul_pos h3 hc)
    · exact ⟨h2.le, h3⟩
    · exact absurd h2 hc.ne'
    · exact absurd h2 (not_lt.2 hc.le)
  · rintro ⟨h2, h3⟩
    refine ⟨hw, ?_⟩
    rcases lt_or_eq_of_le h2 with h2 | h2
    · exact Or.inr (Or.inl ⟨hc, h2, h3⟩)
    · left
      refine ⟨h2.symm, ?_⟩
      rw [← h2, zero_mul, sub_zero] at h1
      have := mul_pos h3 n
      rw [h1] at this
      exact (mul_pos_iff_of_pos_right hc).1 this

/-- The matrix of a gluing of a translation surface. -/
theorem edgeMatrix_one (hS : S.Bordered valid) (hT : S.Translation valid) {l l' : L} {e e' : ℕ} {p : Poly K} (hl : valid l)
    (hp : S.polygon l = .ok p) (he : e < p.length) (ho : S.opp l e = .ok (some (l', e'))) : S.edgeMatrix l e = .ok Mat2.one := by
  obtain ⟨hl', p', hp', he', hb⟩ := hS.back hl hp he ho
  obtain ⟨m, h1, h2, h3⟩ := edgeMatrix_ok ho hp hp' ((hS.valid_of_polygon hl hp).edge_ne e)
  have h4 := hT l e l' e' p p' hl hp he ho hp'
  rw [h4, neg_neg] at h3
  rw [h1]
  congr 1
  have n := (normSq_pos' ((hS.valid_of_polygon hl hp).edge_ne e)).ne'
  obtain ⟨a, b, c, d⟩ := m
  obtain ⟨h5, h6⟩ := h2
  simp only at h5 h6
  subst h5 h6
  unfold Mat2.mulVec at h3
  have e1 := congrArg Prod.fst h3
  have e2 := congrArg Prod.snd h3
  simp only at e1 e2
  generalize p.edge e = u at *
  have k1 : (d - 1) * (u.1 * u.1 + u.2 * u.2) = 0 := by linear_combination u.1 * e1 + u.2 * e2
  have k2 : c * (u.1 * u.1 + u.2 * u.2) = 0 := by linear_combination u.1 * e2 - u.2 * e1
  have k3 := (mul_eq_zero.1 k1).resolve_right n
  have k4 := (mul_eq_zero.1 k2).resolve_right n
  unfold Mat2.one
  rw [k4, show d = 1 by linarith, neg_zero]

theorem one_mul_one : Mat2.mul (Mat2.one : Mat2 K) Mat2.one = Mat2.one := by simp [Mat2.mul, Mat2.one]

theorem one_mulVec (v : Vec K) : Mat2.mulVec (Mat2.one : Mat2 K) v = v := by simp [Mat2.mulVec, Mat2.one]

/-- The edges at the start of a dart and of the dart after the rotation. -/
theorem cw_edges (hS : S.Bordered valid) (hT : S.Translation valid) {a b : L × ℕ} {p q : Poly K} (ha : S.IsDart valid a)
    (h : Step S.rotateCw a b) (hp : S.polygon a.1 = .ok p) (hq : S.polygon b.1 = .ok q) :
    -q.edge (b.2 + (q.length - 1)) = p.edge a.2 := by
  obtain ⟨hl, p0, hp0, he⟩ := ha
  rw [hp] at hp0; injection hp0 with hp0; subst hp0
  obtain ⟨c, p', ho, hp', rfl⟩ := step_cw_iff.1 h
  rw [hq] at hp'; injection hp' with hp'; subst hp'
  obtain ⟨-, q', hq', hc, -⟩ := hS.back hl hp he ho
  rw [hq] at hq'; injection hq' with hq'; subst hq'
  dsimp only
  rw [prev_edge hc, hT a.1 a.2 c.1 c.2 p q hl hp he ho hq, neg_neg]

theorem dart_seq (hS : S.Bordered valid) {d : ℕ → L × ℕ} (h0 : S.IsDart valid (d 0)) (hd : ∀ k, Step S.rotateCw (d k) (d (k + 1))) (k : ℕ) :
    S.IsDart valid (d k) := by
  induction k with
  | zero => exact h0
  | succ k ih => exact hS.cw_valid ih (hd k)

/-- One step of the loop of `clockwise_to`. -/
theorem tvCwLoop_step (hS : S.Bordered valid) (hT : S.Translation valid) {a b : L × ℕ} {q : Poly K} (ha : S.IsDart valid a)
    (h : Step S.rotateCw a b) (hq : S.polygon b.1 = .ok q) (w v1 v2 : Vec K) (n : ℕ) (codes : List ℕ)
    (hno : ¬ (0 ≤ ccw v2 w ∧ 0 < ccw w v1)) :
    S.tvCwLoop w (n + 1) a Mat2.one v1 v2 codes =
      S.tvCwLoop w n b Mat2.one (-q.edge (b.2 + (q.length - 1))) (q.edge b.2) (codes ++ [a.2]) := by
  obtain ⟨hl, p, hp, he⟩ := ha
  obtain ⟨c, p', ho, hp', rfl⟩ := step_cw_iff.1 h
  rw [hq] at hp'; injection hp' with hp'; subst hp'
  obtain ⟨hl', q', hq', hc, hb⟩ := hS.back hl hp he ho
  rw [hq] at hq'; injection hq' with hq'; subst hq'
  conv_lhs => unfold tvCwLoop
  rw [if_neg hno]
  simp only [opp!_ok ho, edgeMatrix_one hS hT hl' hq hc hb, hq, bind, Except.bind, one_mul_one, one_mulVec, prev_edge hc]

/-- The loop of `clockwise_to` stops at the first sector that contains the direction, or when the limit is reached. -/
theorem tvCwLoop_spec (hS : S.Bordered valid) (hT : S.Translation valid) (hA : S.SharpAngles valid) {d : ℕ → L × ℕ}
    (h0 : S.IsDart valid (d 0)) (hd : ∀ k, Step S.rotateCw (d k) (d (k + 1))) {w : Vec K} (hw : w ≠ 0) (n : ℕ) :
    ∀ (j r : ℕ) (p : Poly K) (codes : List ℕ), S.polygon (d j).1 = .ok p → r ≤ n → (∀ i < r, ¬ S.PointsAt (d (j + i)) w) →
      (r = n ∨ S.PointsAt (d (j + r)) w) →
      S.tvCwLoop w n (d j) Mat2.one (-p.edge ((d j).2 + (p.length - 1))) (p.edge (d j).2) codes =
        .ok (d (j + r), codes ++ (List.range r).map fun i => (d (j + i)).2) := by
  induction n with
  | zero =>
    intro j r p codes hp hr hno hit
    have : r = 0 := by omega
    subst this
    simp [tvCwLoop, pure, Except.pure]
  | succ n ih =>
    intro j r p codes hp hr hno hit
    obtain ⟨hl, p0, hp0, he⟩ := dart_seq hS h0 hd j
    rw [hp] at hp0; injection hp0 with hp0; subst hp0
    have hv := hS.valid_of_polygon hl hp
    have key : S.PointsAt (d j) w ↔ (0 ≤ ccw (p.edge (d j).2) w ∧ 0 < ccw w (-p.edge ((d j).2 + (p.length - 1)))) := by
      rw [← points_sharp hv (hA _ _ hl hp) he hw]
      constructor
      · rintro ⟨q, hq, h⟩
        rw [hp] at hq; injection hq with hq; subst hq
        exact h
      · exact fun h => ⟨p, hp, h⟩
    cases r with
    | zero =>
      have hit := hit.resolve_left (by omega)
      unfold tvCwLoop
      rw [if_pos (key.1 hit)]
      simp [pure, Except.pure]
    | succ r =>
      have h1 := hno 0 (by omega)
      rw [add_zero, key] at h1
      obtain ⟨hl', q, hq, he'⟩ := dart_seq hS h0 hd (j + 1)
      rw [tvCwLoop_step hS hT ⟨hl, p, hp, he⟩ (hd j) hq w _ _ n codes h1]
      rw [ih (j + 1) r q (codes ++ [(d j).2]) hq (by omega) (fun i hi => by rw [show j + 1 + i = j + (i + 1) by omega]; exact hno (i + 1) (by omega))
        (by rw [show j + 1 + r = j + (r + 1) by omega]; rcases hit with h | h; exacts [Or.inl (by omega), Or.inr h])]
      rw [List.range_succ_eq_map]
      simp only [List.map_cons, List.map_map, add_zero, List.append_assoc, List.singleton_append]
      rw [show j + 1 + r = j + (r + 1) by omega]
      congr 5
      funext i
      simp only [Function.comp]
      rw [show j + 1 + i = j + (i + 1) by omega]

/-- In a sector smaller than `π`, with a vector `t` in the sector. -/
theorem sharp_sector {e f t w : Vec K} (hc : 0 < ccw e f) (t1 : 0 ≤ ccw e t) (t2 : 0 < ccw t f) :
    (0 ≤ ccw e w → 0 < ccw w t → 0 < ccw w f) ∧ (0 < ccw w f → 0 < ccw t w → 0 ≤ ccw e w) := by
  have e1 : ccw e f * ccw t w = ccw t f * ccw e w - ccw e t * ccw w f := by unfold ccw; ring
  have e2 : ccw w t = -ccw t w := by unfold ccw; ring
  constructor
  · intro h1 h2
    by_contra h3
    have a1 := mul_nonneg t2.le h1
    have a2 := mul_nonneg t1 (neg_nonneg.2 (not_lt.1 h3))
    have a3 := mul_pos hc h2
    rw [e2] at a3
    linarith
  · intro h1 h2
    by_contra h3
    have a1 := mul_pos t2 (neg_pos.2 (not_le.1 h3))
    have a2 := mul_nonneg t1 h1.le
    have a3 := mul_pos hc h2
    linarith

/-- A tangent vector at the start of an edge. -/
theorem tangentVector_pointsAt (hS : S.Bordered valid) {d : L × ℕ} (hd : S.IsDart valid d) {p : Poly K} (hp : S.polygon d.1 = .ok p)
    {w : Vec K} (h : S.PointsAt d w) : S.tangentVector d.1 (p.vertex d.2) w = .ok ⟨d.1, p.vertex d.2, w, .vertex d.2⟩ := by
  obtain ⟨hl, q, hq, he⟩ := hd
  rw [hp] at hq; injection hq with hq; subst hq
  obtain ⟨q, hq, h⟩ := h
  rw [hp] at hq; injection hq with hq; subst hq
  rw [C45_fixed hS hl hp h, (Poly.C12_vertex (hS.valid_of_polygon hl hp) _ d.2).2 ⟨he, rfl⟩]

/-- **C60.** On a translation surface whose polygons have only angles smaller than `π`, `clockwise_to(w)` rotates a tangent vector at a
vertex to the first vector that is parallel to `w`.  The sectors of the polygons around the vertex, in clockwise order, are those at the
starts of the edges `d 0`, `d 1`, …; the code is the list of the edges that have been crossed.  If 100 edges have been crossed and the
direction has not been found, then there is an error. -/
theorem C60_clockwise (hS : S.Closed valid) (hT : S.Translation valid) (hA : S.SharpAngles valid) {l : L} (hl : valid l) {pt v : Vec K}
    {t : TVec L K} (ht : S.tangentVector l pt v = .ok t) {i : ℕ} (hi : t.position = .vertex i) {w : Vec K} (hw : w ≠ 0)
    {d : ℕ → L × ℕ} (h0 : d 0 = (t.label, i)) (hd : ∀ k, Step S.rotateCw (d k) (d (k + 1))) :
    (S.PointsAt (d 0) w → 0 < ccw w t.vector → S.clockwiseTo t w = .ok (⟨t.label, t.point, w, .vertex i⟩, [])) ∧
    (¬ (S.PointsAt (d 0) w ∧ 0 < ccw w t.vector) →
      (∀ k p, 0 < k → k ≤ 100 → (∀ j, 0 < j → j < k → ¬ S.PointsAt (d j) w) → S.PointsAt (d k) w → S.polygon (d k).1 = .ok p →
        S.clockwiseTo t w = .ok (⟨(d k).1, p.vertex (d k).2, w, .vertex (d k).2⟩, (List.range k).map fun j => (d j).2)) ∧
      ((∀ j, 0 < j → j ≤ 100 → ¬ S.PointsAt (d j) w) → S.clockwiseTo t w = .error .valueError)) := by
  have hB := hS.bordered
  obtain ⟨-, p, hl', hp, hpos, hpts⟩ := C45_moved hB hl ht
  have hv := hB.valid_of_polygon hl' hp
  rw [hi] at hpos
  obtain ⟨hlt, hpt⟩ := (Poly.C12_vertex hv t.point i).1 hpos.symm
  have hdart : S.IsDart valid (d 0) := by rw [h0]; exact ⟨hl', p, hp, hlt⟩
  rw [hpt, points_sharp hv (hA _ _ hl' hp) hlt hpts.1] at hpts
  have hc := sharp_prev hv (hA _ _ hl' hp) i
  have hsec := sharp_sector (w := w) hc hpts.1 hpts.2
  have hcond : (S.PointsAt (d 0) w ∧ 0 < ccw w t.vector) ↔ (0 ≤ ccw (p.edge i) w ∧ 0 < ccw w t.vector) := by
    have : S.PointsAt (d 0) w ↔ Points p (p.vertex i) w := by
      rw [h0]
      constructor
      · rintro ⟨q, hq, h⟩
        rw [hp] at hq; injection hq with hq; subst hq
        exact h
      · exact fun h => ⟨p, hp, h⟩
    rw [this, points_sharp hv (hA _ _ hl' hp) hlt hw]
    constructor
    · rintro ⟨⟨h1, h2⟩, h3⟩; exact ⟨h1, h3⟩
    · rintro ⟨h1, h3⟩; exact ⟨⟨h1, hsec.1 h1 h3⟩, h3⟩
  have hcw : S.clockwiseTo t w = (do
      let r ← S.tvCwLoop w 100 (d 0) Mat2.one t.vector (p.edge i) []
      let q ← S.polygon r.1.1
      let t' ← S.tangentVector r.1.1 (q.vertex r.1.2) w
      return (t', r.2)) := by
    unfold clockwiseTo
    rw [if_neg hw, hi]
    simp only [hp, bind, Except.bind, h0]
    rfl
  constructor
  · intro h1 h2
    have h3 := hcond.1 ⟨h1, h2⟩
    rw [hcw]
    unfold tvCwLoop
    rw [if_pos h3]
    have := tangentVector_pointsAt hB hdart (p := p) (by rw [h0]; exact hp) h1
    rw [h0] at this ⊢
    simp only [pure, Except.pure, bind, Except.bind, hp]
    simp only at this
    rw [this, hpt]
  · intro hno
    rw [hcond] at hno
    have hstep : ∀ q, S.polygon (d 1).1 = .ok q → S.tvCwLoop w 100 (d 0) Mat2.one t.vector (p.edge i) [] =
        S.tvCwLoop w 99 (d 1) Mat2.one (-q.edge ((d 1).2 + (q.length - 1))) (q.edge (d 1).2) [(d 0).2] := by
      intro q hq
      rw [tvCwLoop_step hB hT hdart (hd 0) hq w _ _ 99 [] hno]
      rfl
    obtain ⟨hl1, q1, hq1, he1⟩ := dart_seq hB hdart hd 1
    have hloop : ∀ r, r ≤ 99 → (∀ j, 0 < j → j < r + 1 → ¬ S.PointsAt (d j) w) → (r = 99 ∨ S.PointsAt (d (r + 1)) w) →
        S.tvCwLoop w 100 (d 0) Mat2.one t.vector (p.edge i) [] = .ok (d (r + 1), (List.range (r + 1)).map fun j => (d j).2) := by
      intro r hr hn hit
      rw [hstep q1 hq1, tvCwLoop_spec hB hT hA hdart hd hw 99 1 r q1 [(d 0).2] hq1 hr (fun j hj => hn (1 + j) (by omega) (by omega))
        (by rw [add_comm]; exact hit), add_comm 1 r, List.range_succ_eq_map]
      simp only [List.map_cons, List.map_map, List.singleton_append]
      congr 4
      funext j
      simp only [Function.comp]
      rw [add_comm]
    constructor
    · intro k q hk hk' hn hit hq
      obtain ⟨r, rfl⟩ : ∃ r, k = r + 1 := ⟨k - 1, by omega⟩
      rw [hcw, hloop r (by omega) hn (Or.inr hit)]
      simp only [bind, Except.bind, hq, tangentVector_pointsAt hB (dart_seq hB hdart hd (r + 1)) hq hit, pure, Except.pure]
    · intro hn
      rw [hcw, hloop 99 le_rfl (fun j h1 h2 => hn j h1 (by omega)) (Or.inl rfl)]
      obtain ⟨hlk, q, hq, he⟩ := dart_seq hB hdart hd 100
      have hvq := hB.valid_of_polygon hlk hq
      simp only [bind, Except.bind, hq]
      have hposq := (Poly.C12_vertex hvq _ (d 100).2).2 ⟨he, rfl⟩
      have := (C45_defined hS hlk hq (q.vertex (d 100).2) w).2.2.2.2 (d 100).2 hw hposq
      cases hb : isBetween (-q.edge ((d 100).2 + (q.length - 1))) (q.edge (d 100).2) w with
      | true => rw [this.2 hb]
      | false =>
        exfalso
        have hn100 := hn 100 (by omega) le_rfl
        have hanti : isAntiParallel (q.edge ((d 100).2 + (q.length - 1))) w = true := by
          by_contra h
          exact hn100 ⟨q, hq, (points_vertex hvq he).2 ⟨hw, (not_anti_of_points hvq he hw).1 ⟨hb, by simpa using h⟩⟩⟩
        obtain ⟨hl99, q99, hq99, he99⟩ := dart_seq hB hdart hd 99
        have hedge := cw_edges hB hT (dart_seq hB hdart hd 99) (hd 99) hq99 hq
        rw [← isParallel_neg_left, hedge] at hanti
        exact hn 99 (by omega) (by omega) ⟨q99, hq99, (points_vertex (hB.valid_of_polygon hl99 hq99) he99).2 ⟨hw, Or.inl hanti⟩⟩

/-! ### Every direction is found -/

/-- A number that grows with the angle from `w`. -/
def turnKey (w u : Vec K) : Lex (ℕ × K) :=
  toLex (if 0 < ccw w u then 0 else if ccw w u = 0 then 1 else 2, -dot w u / ccw w u)

/-- If `w` is not in a sector then the end of the sector has a larger angle from `w` than its start. -/
theorem turnKey_lt {w e f : Vec K} (hw : w ≠ 0) (hc : 0 < ccw e f) (hwe : isParallel e w = false) (hwf : isParallel f w = false)
    (hno : ¬ (0 ≤ ccw e w ∧ 0 < ccw w f)) : turnKey w e < turnKey w f := by
  have n := normSq_pos' hw
  have h1 : dot w e * ccw w f - dot w f * ccw w e = (w.1 * w.1 + w.2 * w.2) * ccw e f := by unfold ccw dot; ring
  have h2 := mul_pos n hc
  have e1 : ccw e w = -ccw w e := by unfold ccw; ring
  have e2 : ccw f w = -ccw w f := by unfold ccw; ring
  have e3 : dot e w = dot w e := by unfold dot; ring
  have e4 : dot f w = dot w f := by unfold dot; ring
  rw [isParallel_false, e1, e3] at hwe
  rw [isParallel_false, e2, e4] at hwf
  rw [← h1] at h2
  rw [e1] at hno
  unfold turnKey
  rw [Prod.Lex.toLex_lt_toLex]
  generalize ccw w e = a at *
  generalize ccw w f = b at *
  generalize dot w e = x at *
  generalize dot w f = y at *
  rcases lt_trichotomy a 0 with ha | ha | ha
  · rcases lt_trichotomy b 0 with hb | hb | hb
    · right
      refine ⟨by simp [not_lt.2 ha.le, ha.ne, not_lt.2 hb.le, hb.ne], ?_⟩
      dsimp only
      rw [neg_div, neg_div, ← div_neg, ← div_neg, div_lt_div_iff₀ (neg_pos.2 ha) (neg_pos.2 hb)]
      linarith
    · exfalso
      subst hb
      have hy : y ≤ 0 := by
        by_contra hy
        exact hwf ⟨by simp, not_le.1 hy⟩
      have := mul_nonneg_of_nonpos_of_nonpos hy ha.le
      simp at h2
      linarith
    · exact absurd ⟨by linarith, hb⟩ hno
  · subst ha
    have hx : x ≤ 0 := by
      by_contra hx
      exact hwe ⟨by simp, not_le.1 hx⟩
    rw [mul_zero, sub_zero] at h2
    have hb : b < 0 := by
      by_contra hb
      have := mul_nonneg (neg_nonneg.2 hx) (not_lt.1 hb)
      linarith
    left
    simp [not_lt.2 hb.le, hb.ne]
  · rcases lt_trichotomy b 0 with hb | hb | hb
    · left
      simp [not_lt.2 hb.le, hb.ne, ha]
    · left
      simp [hb, ha]
    · right
      refine ⟨by simp [ha, hb], ?_⟩
      rw [div_lt_div_iff₀ ha hb]
      linarith

/-- **C60.** If there are finitely many sectors at a vertex, then each direction is in one of them. -/
theorem C60_reached (hS : S.Bordered valid) (hT : S.Translation valid) (hA : S.SharpAngles valid) {d : ℕ → L × ℕ}
    (h0 : S.IsDart valid (d 0)) (hd : ∀ k, Step S.rotateCw (d k) (d (k + 1))) {m : ℕ} (hm : 0 < m) (hper : d m = d 0) {w : Vec K} (hw : w ≠ 0) :
    ∃ k, 0 < k ∧ k ≤ m ∧ S.PointsAt (d k) w := by
  by_contra hno
  push Not at hno
  have hper' : ¬ S.PointsAt (d 0) w := by rw [← hper]; exact hno m hm le_rfl
  have hnot : ∀ k ≤ m, ¬ S.PointsAt (d k) w := by
    intro k hk
    rcases Nat.eq_zero_or_pos k with rfl | h
    · exact hper'
    · exact hno k h hk
  have hdart := dart_seq hS h0 hd
  have hex : ∀ k, ∃ p, S.polygon (d k).1 = .ok p ∧ (d k).2 < p.length := fun k => (hdart k).2
  choose p hp hlt using hex
  have hv : ∀ k, (p k).Valid := fun k => hS.valid_of_polygon (hdart k).1 (hp k)
  have hpar : ∀ k ≤ m, isParallel ((p k).edge (d k).2) w = false := by
    intro k hk
    by_contra h
    exact hnot k hk ⟨p k, hp k, (points_vertex (hv k) (hlt k)).2 ⟨hw, Or.inl (by simpa using h)⟩⟩
  have hlt' : ∀ k < m, turnKey w ((p (k + 1)).edge (d (k + 1)).2) < turnKey w ((p k).edge (d k).2) := by
    intro k hk
    have hedge := cw_edges hS hT (hdart k) (hd k) (hp k) (hp (k + 1))
    have hs := hA _ _ (hdart (k + 1)).1 (hp (k + 1))
    have h1 : ¬ (0 ≤ ccw ((p (k + 1)).edge (d (k + 1)).2) w ∧ 0 < ccw w (-(p (k + 1)).edge ((d (k + 1)).2 + ((p (k + 1)).length - 1)))) :=
      fun h => hnot (k + 1) (by omega) ⟨_, hp (k + 1), (points_sharp (hv (k + 1)) hs (hlt (k + 1)) hw).2 h⟩
    have hc := sharp_prev (hv (k + 1)) hs (d (k + 1)).2
    rw [hedge] at h1 hc
    exact turnKey_lt hw hc (hpar (k + 1) (by omega)) (hpar k (by omega)) h1
  have hall : ∀ k ≤ m, 0 < k → turnKey w ((p k).edge (d k).2) < turnKey w ((p 0).edge (d 0).2) := by
    intro k
    induction k with
    | zero => intro _ h; omega
    | succ k ih =>
      intro hk _
      rcases Nat.eq_zero_or_pos k with rfl | h
      · exact hlt' 0 (by omega)
      · exact lt_trans (hlt' k (by omega)) (ih (by omega) h)
  have := hall m le_rfl hm
  have hpm : p m = p 0 := by
    have h1 := hp m
    rw [hper, hp 0] at h1
    injection h1 with h1
    exact h1.symm
  rw [hpm, hper] at this
  exact lt_irrefl _ this

/-- **C60.** `clockwise_to(w)` succeeds if there are at most 100 sectors at the vertex. -/
theorem C60_clockwise_defined (hS : S.Closed valid) (hT : S.Translation valid) (hA : S.SharpAngles valid) {l : L} (hl : valid l) {pt v : Vec K}
    {t : TVec L K} (ht : S.tangentVector l pt v = .ok t) {i : ℕ} (hi : t.position = .vertex i) {w : Vec K} (hw : w ≠ 0)
    {d : ℕ → L × ℕ} (h0 : d 0 = (t.label, i)) (hd : ∀ k, Step S.rotateCw (d k) (d (k + 1))) {m : ℕ} (hm : 0 < m) (hm' : m ≤ 100)
    (hper : d m = d 0) : ∃ t' codes, S.clockwiseTo t w = .ok (t', codes) ∧ t'.vector = w ∧ codes.length ≤ m := by
  have hB := hS.bordered
  obtain ⟨-, p, hl', hp, hpos, hpts⟩ := C45_moved hB hl ht
  have hv := hB.valid_of_polygon hl' hp
  rw [hi] at hpos
  obtain ⟨hlt, hpt⟩ := (Poly.C12_vertex hv t.point i).1 hpos.symm
  have hdart : S.IsDart valid (d 0) := by rw [h0]; exact ⟨hl', p, hp, hlt⟩
  obtain ⟨c1, c2⟩ := C60_clockwise hS hT hA hl ht hi hw h0 hd
  by_cases hz : S.PointsAt (d 0) w ∧ 0 < ccw w t.vector
  · exact ⟨_, _, c1 hz.1 hz.2, rfl, by simp⟩
  · have hex := C60_reached hB hT hA hdart hd hm hper hw
    classical
    set k := Nat.find hex with hk
    obtain ⟨k1, k2, k3⟩ := Nat.find_spec hex
    obtain ⟨q, hq⟩ := (dart_seq hB hdart hd k).2
    refine ⟨_, _, (c2 hz).1 k q k1 (by omega) (fun j j1 j2 j3 => Nat.find_min hex j2 ⟨j1, by omega, j3⟩) k3 hq.1, rfl, ?_⟩
    simp only [List.length_map, List.length_range]
    exact k2

/-! ### Counterclockwise -/

theorem dart_seq_ccw (hS : S.Bordered valid) {d : ℕ → L × ℕ} (h0 : S.IsDart valid (d 0)) (hd : ∀ k, Step S.rotateCcw (d k) (d (k + 1))) (k : ℕ) :
    S.IsDart valid (d k) := by
  induction k with
  | zero => exact h0
  | succ k ih => exact hS.ccw_valid ih (hd k)

/-- One step of the loop of `counterclockwise_to`. -/
theorem tvCcwLoop_step (hS : S.Bordered valid) (hT : S.Translation valid) {a b : L × ℕ} {p q : Poly K} (ha : S.IsDart valid a)
    (h : Step S.rotateCcw a b) (hp : S.polygon a.1 = .ok p) (hq : S.polygon b.1 = .ok q) (w : Vec K) (n : ℕ) (codes : List ℕ) :
    S.tvCcwLoop w (n + 1) a Mat2.one codes =
      if 0 ≤ ccw (q.edge b.2) w ∧ 0 < ccw w (-q.edge (b.2 + (q.length - 1))) then .ok (b, codes ++ [(a.2 + (p.length - 1)) % p.length])
      else S.tvCcwLoop w n b Mat2.one (codes ++ [(a.2 + (p.length - 1)) % p.length]) := by
  obtain ⟨hl, p0, hp0, he⟩ := ha
  rw [hp] at hp0; injection hp0 with hp0; subst hp0
  obtain ⟨p', hp', ho⟩ := step_ccw_iff.1 h
  rw [hp] at hp'; injection hp' with hp'; subst hp'
  obtain ⟨hl', q', hq', hc, hb⟩ := hS.back hl hp (Nat.mod_lt _ (by omega)) ho
  rw [hq] at hq'; injection hq' with hq'; subst hq'
  conv_lhs => unfold tvCcwLoop
  simp only [hp, opp!_ok ho, edgeMatrix_one hS hT hl' hq hc hb, hq, bind, Except.bind, one_mul_one, one_mulVec, Poly.edge_mod]
  rfl

/-- The edge that is crossed by a counterclockwise rotation. -/
def before (S : RSurf L K) (d : L × ℕ) : ℕ :=
  match S.polygon d.1 with
  | .ok p => (d.2 + (p.length - 1)) % p.length
  | .error _ => 0

theorem before_ok {d : L × ℕ} {p : Poly K} (hp : S.polygon d.1 = .ok p) : S.before d = (d.2 + (p.length - 1)) % p.length := by
  unfold before; rw [hp]

theorem tvCcwLoop_spec (hS : S.Bordered valid) (hT : S.Translation valid) (hA : S.SharpAngles valid) {d : ℕ → L × ℕ}
    (h0 : S.IsDart valid (d 0)) (hd : ∀ k, Step S.rotateCcw (d k) (d (k + 1))) {w : Vec K} (hw : w ≠ 0) (n : ℕ) :
    ∀ (j r : ℕ) (codes : List ℕ), r ≤ n → (∀ i, 0 < i → i < r → ¬ S.PointsAt (d (j + i)) w) →
      (r = n ∨ 0 < r ∧ S.PointsAt (d (j + r)) w) →
      S.tvCcwLoop w n (d j) Mat2.one codes = .ok (d (j + r), codes ++ (List.range r).map fun i => S.before (d (j + i))) := by
  induction n with
  | zero =>
    intro j r codes hr hno hit
    have : r = 0 := by omega
    subst this
    simp [tvCcwLoop, pure, Except.pure]
  | succ n ih =>
    intro j r codes hr hno hit
    obtain ⟨hl, p, hp, he⟩ := dart_seq_ccw hS h0 hd j
    obtain ⟨hl', q, hq, he'⟩ := dart_seq_ccw hS h0 hd (j + 1)
    have hv := hS.valid_of_polygon hl' hq
    have key : S.PointsAt (d (j + 1)) w ↔ (0 ≤ ccw (q.edge (d (j + 1)).2) w ∧ 0 < ccw w (-q.edge ((d (j + 1)).2 + (q.length - 1)))) := by
      rw [← points_sharp hv (hA _ _ hl' hq) he' hw]
      constructor
      · rintro ⟨q', hq', h⟩
        rw [hq] at hq'; injection hq' with hq'; subst hq'
        exact h
      · exact fun h => ⟨q, hq, h⟩
    obtain ⟨r, rfl⟩ : ∃ r', r = r' + 1 := ⟨r - 1, by omega⟩
    rw [tvCcwLoop_step hS hT ⟨hl, p, hp, he⟩ (hd j) hp hq w n codes, ← before_ok hp]
    have hlist : ∀ r : ℕ, codes ++ [S.before (d j)] ++ ((List.range r).map fun i => S.before (d (j + 1 + i))) =
        codes ++ ((List.range (r + 1)).map fun i => S.before (d (j + i))) := by
      intro r
      rw [List.range_succ_eq_map]
      simp only [List.map_cons, List.map_map, add_zero, List.append_assoc, List.singleton_append]
      congr 3
      funext i
      simp only [Function.comp]
      rw [show j + 1 + i = j + (i + 1) by omega]
    by_cases hpt : S.PointsAt (d (j + 1)) w
    · have hr0 : r = 0 := by
        by_contra h
        exact hno 1 (by omega) (by omega) hpt
      subst hr0
      rw [if_pos (key.1 hpt)]
      have := hlist 0
      simp only [List.range_zero, List.map_nil, List.append_nil] at this
      rw [this]
    · rw [if_neg (by rw [← key]; exact hpt)]
      have hit' : r = n ∨ 0 < r ∧ S.PointsAt (d (j + 1 + r)) w := by
        rcases hit with h | ⟨-, h⟩
        · exact Or.inl (by omega)
        · right
          refine ⟨?_, by rw [show j + 1 + r = j + (r + 1) by omega]; exact h⟩
          by_contra h2
          have : r = 0 := by omega
          subst this
          exact hpt h
      rw [ih (j + 1) r _ (by omega) (fun i i1 i2 => by rw [show j + 1 + i = j + (i + 1) by omega]; exact hno (i + 1) (by omega) (by omega)) hit', hlist,
        show j + 1 + r = j + (r + 1) by omega]

/-- **C60.** `counterclockwise_to(w)` rotates a tangent vector at a vertex of a translation surface, whose polygons have only angles
smaller than `π`, to the first vector that is parallel to `w`; `d` are the sectors around the vertex in counterclockwise order. -/
theorem C60_counterclockwise (hS : S.Closed valid) (hT : S.Translation valid) (hA : S.SharpAngles valid) {l : L} (hl : valid l) {pt v : Vec K}
    {t : TVec L K} (ht : S.tangentVector l pt v = .ok t) {i : ℕ} (hi : t.position = .vertex i) {w : Vec K} (hw : w ≠ 0)
    {d : ℕ → L × ℕ} (h0 : d 0 = (t.label, i)) (hd : ∀ k, Step S.rotateCcw (d k) (d (k + 1))) :
    (S.PointsAt (d 0) w → 0 < ccw t.vector w → S.counterclockwiseTo t w = .ok (⟨t.label, t.point, w, .vertex i⟩, [])) ∧
    (¬ (S.PointsAt (d 0) w ∧ 0 < ccw t.vector w) →
      ∀ k p, 0 < k → k ≤ 100 → (∀ j, 0 < j → j < k → ¬ S.PointsAt (d j) w) → S.PointsAt (d k) w → S.polygon (d k).1 = .ok p →
        S.counterclockwiseTo t w =
          .ok (⟨(d k).1, p.vertex (d k).2, w, .vertex (d k).2⟩, (List.range k).map fun j => S.before (d j))) := by
  have hB := hS.bordered
  obtain ⟨-, p, hl', hp, hpos, hpts⟩ := C45_moved hB hl ht
  have hv := hB.valid_of_polygon hl' hp
  rw [hi] at hpos
  obtain ⟨hlt, hpt⟩ := (Poly.C12_vertex hv t.point i).1 hpos.symm
  have hdart : S.IsDart valid (d 0) := by rw [h0]; exact ⟨hl', p, hp, hlt⟩
  rw [hpt, points_sharp hv (hA _ _ hl' hp) hlt hpts.1] at hpts
  have hc := sharp_prev hv (hA _ _ hl' hp) i
  have hsec := sharp_sector (w := w) hc hpts.1 hpts.2
  have hcond : (S.PointsAt (d 0) w ∧ 0 < ccw t.vector w) ↔ (0 < ccw t.vector w ∧ 0 < ccw w (-p.edge (i + (p.length - 1)))) := by
    have : S.PointsAt (d 0) w ↔ Points p (p.vertex i) w := by
      rw [h0]
      constructor
      · rintro ⟨q, hq, h⟩
        rw [hp] at hq; injection hq with hq; subst hq
        exact h
      · exact fun h => ⟨p, hp, h⟩
    rw [this, points_sharp hv (hA _ _ hl' hp) hlt hw]
    constructor
    · rintro ⟨⟨h1, h2⟩, h3⟩; exact ⟨h3, h2⟩
    · rintro ⟨h1, h3⟩; exact ⟨⟨hsec.2 h3 h1, h3⟩, h1⟩
  have hcw : S.counterclockwiseTo t w = (do
      let r ← if 0 < ccw t.vector w ∧ 0 < ccw w (-p.edge (i + (p.length - 1))) then pure (d 0, []) else S.tvCcwLoop w 100 (d 0) Mat2.one []
      let q ← S.polygon r.1.1
      let t' ← S.tangentVector r.1.1 (q.vertex r.1.2) w
      return (t', r.2)) := by
    unfold counterclockwiseTo
    rw [if_neg hw, hi]
    simp only [hp, bind, Except.bind, h0]
    rfl
  constructor
  · intro h1 h2
    rw [hcw, if_pos (hcond.1 ⟨h1, h2⟩)]
    have := tangentVector_pointsAt hB hdart (p := p) (by rw [h0]; exact hp) h1
    rw [h0] at this ⊢
    simp only [pure, Except.pure, bind, Except.bind, hp]
    simp only at this
    rw [this, hpt]
  · intro hno k q hk hk' hn hit hq
    rw [hcond] at hno
    rw [hcw, if_neg hno, tvCcwLoop_spec hB hT hA hdart hd hw 100 0 k [] hk' (by simpa using hn) (Or.inr ⟨hk, by simpa using hit⟩)]
    simp only [zero_add, List.nil_append, bind, Except.bind, hq,
      tangentVector_pointsAt hB (dart_seq_ccw hB hdart hd k) hq hit, pure, Except.pure]

end

/-! ### Examples and violations -/

theorem exTorus2_translation : exTorus2.Translation (fun _ => True) := by
  intro l e l' e' p p' _ hp he ho hp'
  unfold exTorus2 at ho
  injection ho with ho; injection ho with ho; injection ho with h1 h2
  subst h1 h2
  unfold exTorus2 at hp hp'
  injection hp with hp
  injection hp' with hp'
  subst hp hp'
  have he : e < 3 := by cases l <;> exact he
  cases l <;> interval_cases e <;> decide +kernel

theorem exTorus2_sharp : exTorus2.SharpAngles (fun _ => True) := by
  intro l p _ hp i
  unfold exTorus2 at hp
  injection hp with hp
  subst hp
  rw [← Poly.edge_mod _ i, ← Poly.edge_mod _ (i + 1), Nat.add_mod i 1]
  have h3 : List.length (if l = true then ([(1, 1), (0, 1), (1, 0)] : Poly ℚ) else MSurf.tri) = 3 := by cases l <;> rfl
  rw [h3]
  have hi : i % 3 < 3 := Nat.mod_lt _ (by norm_num)
  generalize i % 3 = a at *
  cases l <;> interval_cases a <;> decide +kernel

/-- The six sectors around the vertex of the torus of two triangles. -/
def exSectors (k : ℕ) : Bool × ℕ := (decide (k % 2 = 1), k % 3)

theorem exSectors_step (k : ℕ) : Step exTorus2.rotateCw (exSectors k) (exSectors (k + 1)) := by
  rw [step_cw_iff]
  refine ⟨(!decide (k % 2 = 1), k % 3), _, rfl, rfl, ?_⟩
  have : List.length (if (!decide (k % 2 = 1)) = true then ([(1, 1), (0, 1), (1, 0)] : Poly ℚ) else MSurf.tri) = 3 := by
    split <;> rfl
  rw [this]
  unfold exSectors
  rcases Nat.mod_two_eq_zero_or_one k with h | h
  · have : (k + 1) % 2 = 1 := by omega
    simp [h, this]
  · have : (k + 1) % 2 = 0 := by omega
    simp [h, this]

/-- A vector is rotated clockwise through five triangles. -/
example : ∃ t' codes, exTorus2.clockwiseTo ⟨false, (0, 0), (1, 1), .vertex 0⟩ (-1, 3) = .ok (t', codes) ∧ t'.vector = (-1, 3) ∧ codes.length ≤ 6 :=
  C60_clockwise_defined exTorus2_closed exTorus2_translation exTorus2_sharp (l := false) (pt := (0, 0)) (v := (1, 1)) trivial
    (by decide +kernel) rfl (by decide +kernel) (d := exSectors) rfl exSectors_step (m := 6) (by omega) (by omega) rfl

example : exTorus2.clockwiseTo ⟨false, (0, 0), (1, 1), .vertex 0⟩ (-1, 3) = .ok (⟨true, (1, 0), (-1, 3), .vertex 2⟩, [0, 1, 2, 0, 1]) := by
  decide +kernel

example : exTorus2.counterclockwiseTo ⟨false, (0, 0), (1, 1), .vertex 0⟩ (-1, 3) = .ok (⟨true, (1, 0), (-1, 3), .vertex 2⟩, [2]) := by
  decide +kernel

/-- A torus that is a rectangle with marked points in the middle of its horizontal sides. -/
def exMarked : RSurf Unit ℚ where
  polygon _ := .ok [(0, 0), (1, 0), (2, 0), (2, 1), (1, 1), (0, 1)]
  opp _ e := .ok (some ((), if e = 0 then 4 else if e = 1 then 3 else if e = 2 then 5 else if e = 3 then 1 else if e = 4 then 0 else 2))

/-- **C60, violation.** At angles equal to `π`, the direction of the edge is missed by the rotation: the vector `(1, 0)` at the marked
point is reached from `(0, -1)` by crossing one edge, but `clockwise_to` crosses 100 edges. -/
theorem C60_straight_violation :
    (exMarked.clockwiseTo ⟨(), (1, 1), (0, -1), .vertex 4⟩ (1, 0)).map (fun r => r.2.length) = .ok 100 ∧
    exMarked.rotateCw ((), 4) = .ok (some ((), 1)) ∧ exMarked.tangentVector () (1, 0) (1, 0) = .ok ⟨(), (1, 0), (1, 0), .vertex 1⟩ := by
  decide +kernel

/-- The surface of genus two that is a polygon in the shape of the letter L. -/
def exL : RSurf Unit ℚ where
  polygon _ := .ok [(0, 0), (1, 0), (2, 0), (2, 1), (1, 1), (1, 2), (0, 2), (0, 1)]
  opp _ e := .ok (some ((), [5, 3, 7, 1, 6, 0, 4, 2].getD e 0))

/-- **C60, violation.** At angles larger than `π`, directions inside of a sector are missed: `(2, -1)` and `(-1, 1)` point into the
polygon at its reflex angle, but the rotation leaves the polygon and finds another vector of the direction `(-1, 1)`. -/
theorem C60_reflex_violation :
    exL.tangentVector () (1, 1) (2, -1) = .ok ⟨(), (1, 1), (2, -1), .vertex 4⟩ ∧
    exL.tangentVector () (1, 1) (-1, 1) = .ok ⟨(), (1, 1), (-1, 1), .vertex 4⟩ ∧
    (∃ r, exL.clockwiseTo ⟨(), (1, 1), (2, -1), .vertex 4⟩ (-1, 1) = .ok r ∧ r.1.point = (2, 0)) :=
  ⟨by decide +kernel, by decide +kernel, (⟨(), (2, 0), (-1, 1), .vertex 2⟩, [4, 7, 3]), by decide +kernel, rfl⟩

/-- A triangle whose edges are glued to themselves. -/
def exPillow : RSurf Unit ℚ where
  polygon _ := .ok MSurf.tri
  opp _ e := .ok (some ((), e))

/-- **C60, violation.** On surfaces that are not translation surfaces, the direction is not mapped to the polygon in which it has been
found: the direction `(1, -1)` is found after one edge, where it is `(-1, 1)` in the coordinates of the polygon, but there is an error. -/
theorem C60_half_translation_violation :
    exPillow.tangentVector () (0, 0) (1, 1) = .ok ⟨(), (0, 0), (1, 1), .vertex 0⟩ ∧
    (exPillow.clockwiseTo ⟨(), (0, 0), (1, 1), .vertex 0⟩ (2, -1)) = .error .valueError ∧
    exPillow.edgeMatrix () 0 = .ok ⟨-1, 0, 0, -1⟩ ∧
    exPillow.tangentVector () (1, 0) (-2, 1) = .ok ⟨(), (1, 0), (-2, 1), .vertex 1⟩ := by decide +kernel

end RSurf
end Flat
