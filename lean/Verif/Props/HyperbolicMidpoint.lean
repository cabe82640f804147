import Verif.Model.HyperbolicMidpoint
import Verif.Lemmas.MidpointAlgebra
import Verif.Lemmas.HullEdges
import Verif.Props.HyperbolicPolygon

/-!
# C89: midpoints and perpendicular bisectors of segments
-/

namespace Flat
namespace Hyp
variable {K : Type} [Field K] [LinearOrder K] [IsStrictOrderedRing K]

/-- The intersection of the segment with a line of the construction. -/
theorem segment_line {pick : Interval K → K} (hpick : PickOk pick) {shuffle : List (Geo K) → List (Geo K)} (hsh : ∀ l, (shuffle l).Perm l) {g l : Geo K} (hg : g.Valid) (hl : l.Valid) {s e : K × K}
    (hs : s.1 * s.1 + s.2 * s.2 < 1) (he : e.1 * e.1 + e.2 * e.2 < 1) (sg : g.a + g.b * s.1 + g.c * s.2 = 0) (eg : g.a + g.b * e.1 + g.c * e.2 = 0) (hse : g.pos s < g.pos e) {ε δ : K}
    (hε : ε * ε * (g.b * g.b + g.c * g.c - g.a * g.a) = 1 - (s.1 * s.1 + s.2 * s.2)) (hδ : δ * δ * (g.b * g.b + g.c * g.c - g.a * g.a) = 1 - (e.1 * e.1 + e.2 * e.2))
    (ls : l.a + l.b * s.1 + l.c * s.2 = -ε * lorentz l g) (le : l.a + l.b * e.1 + l.c * e.2 = -δ * lorentz l g) :
    (0 < ε * δ → intersectSets pick shuffle [.segment g (some s) (some e), .geodesic l] = .ok .empty) ∧
    (ε * δ < 0 → ∃ m, intersectSets pick shuffle [.segment g (some s) (some e), .geodesic l] = .ok (.point m) ∧ m.1 * m.1 + m.2 * m.2 < 1 ∧
      (ConvexSet.segment g (some s) (some e)).Mem (RingHom.id K) m ∧ IsMidpoint s e m) := by
  have hf : StrictMono (RingHom.id K) := fun _ _ h => h
  have hne : s ≠ e := by rintro rfl; exact lt_irrefl _ hse
  have hL := line_lorentz hg hl hne sg eg ls le
  have fs : finitePoint s = true := by unfold finitePoint; exact decide_eq_true hs
  have fe : finitePoint e = true := by unfold finitePoint; exact decide_eq_true he
  have hR : (ConvexSet.segment g (some s) (some e)).Reduced := by
    refine ⟨hg, ⟨?_, ?_, ?_⟩, Or.inl (by simp)⟩
    · rintro p ⟨⟩; exact ⟨sg, fs⟩
    · rintro p ⟨⟩; exact ⟨eg, fe⟩
    · rintro p ⟨⟩ q ⟨⟩; exact hse
  obtain ⟨R, h1, h2, h3⟩ := intersectSets_spec hpick hsh (sets := [.segment g (some s) (some e), .geodesic l]) (by
    intro S hS
    rcases List.mem_cons.1 hS with rfl | hS
    · exact hR
    · rw [List.mem_singleton.1 hS]; exact hl) (by simp)
  have h3 := h3 K (RingHom.id K) hf
  have hmem : ∀ z : K × K, R.Mem (RingHom.id K) z ↔ (InDisk z ∧ g.a + g.b * z.1 + g.c * z.2 = 0 ∧ g.pos s ≤ g.pos z ∧ g.pos z ≤ g.pos e) ∧ l.a + l.b * z.1 + l.c * z.2 = 0 := by
    intro z
    rw [h3]
    simp only [List.mem_cons, List.not_mem_nil, or_false, forall_eq_or_imp, forall_eq, ConvexSet.Mem, Between, Geo.val, Geo.map, RingHom.id_apply, Option.mem_def, Option.some.injEq, forall_eq']
    tauto
  have hzero : ∀ z : K × K, g.a + g.b * z.1 + g.c * z.2 = 0 → (l.a + l.b * z.1 + l.c * z.2 = 0 ↔ ε * (g.pos e - g.pos z) + δ * (g.pos z - g.pos s) = 0) := by
    intro z hz
    have := value_along (l := l) hg sg eg hz
    rw [ls, le] at this
    have hd : g.pos e - g.pos s ≠ 0 := by intro h; linarith
    constructor
    · intro h
      rw [h, zero_mul] at this
      refine (mul_eq_zero.1 (show lorentz l g * _ = 0 from ?_)).resolve_left hL
      linear_combination this
    · intro h
      refine (mul_eq_zero.1 (show _ * (g.pos e - g.pos s) = 0 from ?_)).resolve_right hd
      linear_combination this - lorentz l g * h
  constructor
  · intro hpos
    have : R.eqSet .empty = true := by
      refine eqSet_of_same h2 (by trivial) fun z => ?_
      rw [hmem]
      constructor
      · rintro ⟨⟨-, hz, a, b⟩, hz'⟩
        rw [hzero z hz] at hz'
        have q : ε * ε * (g.pos e - g.pos z) + ε * δ * (g.pos z - g.pos s) = 0 := by linear_combination ε * hz'
        have hε0 : 0 < ε * ε := mul_self_pos.2 (by rintro rfl; simp at hpos)
        have q1 := mul_nonneg hε0.le (sub_nonneg.2 b)
        have q2 := mul_nonneg hpos.le (sub_nonneg.2 a)
        have q3 := (mul_eq_zero.1 (show ε * ε * (g.pos e - g.pos z) = 0 by linarith)).resolve_left hε0.ne'
        have q4 := (mul_eq_zero.1 (show ε * δ * (g.pos z - g.pos s) = 0 by linarith)).resolve_left hpos.ne'
        exact absurd hse (by rw [not_lt]; linarith)
      · intro h; exact h.elim
    rw [h1]
    cases R <;> simp_all [ConvexSet.eqSet]
  · intro hneg
    have hd : ε - δ ≠ 0 := by
      intro h
      have : ε = δ := by linarith
      rw [this] at hneg
      have := mul_self_nonneg δ
      linarith
    obtain ⟨t, ht⟩ : ∃ t, t = ε / (ε - δ) := ⟨_, rfl⟩
    have ht1 : t * (ε - δ) = ε := by rw [ht]; field_simp
    have ht2 : (1 - t) * (ε - δ) = -δ := by linear_combination -ht1
    have hd2 : 0 < (ε - δ) * (ε - δ) := mul_self_pos.2 hd
    have hδ2 := mul_self_nonneg δ
    have hε2 := mul_self_nonneg ε
    have t0 : 0 < t := by
      have h : t * ((ε - δ) * (ε - δ)) = ε * ε - ε * δ := by linear_combination (ε - δ) * ht1
      exact pos_of_mul_pos_left (by rw [h]; linarith) hd2.le
    have t1 : t < 1 := by
      have h : (1 - t) * ((ε - δ) * (ε - δ)) = δ * δ - ε * δ := by linear_combination (ε - δ) * ht2
      have := pos_of_mul_pos_left (show 0 < (1 - t) * ((ε - δ) * (ε - δ)) by rw [h]; linarith) hd2.le
      linarith
    obtain ⟨m, hm⟩ : ∃ m : K × K, m = (s.1 + t * (e.1 - s.1), s.2 + t * (e.2 - s.2)) := ⟨_, rfl⟩
    have m1 : m.1 = s.1 + t * (e.1 - s.1) := by rw [hm]
    have m2 : m.2 = s.2 + t * (e.2 - s.2) := by rw [hm]
    have mg : g.a + g.b * m.1 + g.c * m.2 = 0 := by rw [m1, m2]; linear_combination (1 - t) * sg + t * eg
    have mpos : g.pos m = g.pos s + t * (g.pos e - g.pos s) := by unfold Geo.pos; rw [m1, m2]; ring
    have mle : g.pos s ≤ g.pos m ∧ g.pos m ≤ g.pos e := by
      have h1 := mul_pos t0 (sub_pos.2 hse)
      have h2 := mul_pos (sub_pos.2 t1) (sub_pos.2 hse)
      rw [mpos]
      constructor
      · linarith
      · linarith
    have mfin : m.1 * m.1 + m.2 * m.2 < 1 := by
      have h : m.1 * m.1 + m.2 * m.2 = (1 - t) * (s.1 * s.1 + s.2 * s.2) + t * (e.1 * e.1 + e.2 * e.2) - t * (1 - t) * ((e.1 - s.1) * (e.1 - s.1) + (e.2 - s.2) * (e.2 - s.2)) := by
        rw [m1, m2]; ring
      have h1 := mul_lt_mul_of_pos_left hs (sub_pos.2 t1)
      have h2 := mul_lt_mul_of_pos_left he t0
      have h3 := mul_nonneg (mul_nonneg t0.le (sub_pos.2 t1).le) (add_nonneg (mul_self_nonneg (e.1 - s.1)) (mul_self_nonneg (e.2 - s.2)))
      rw [h]; linarith
    have ml : l.a + l.b * m.1 + l.c * m.2 = 0 := by
      rw [hzero m mg, mpos]
      linear_combination -(g.pos e - g.pos s) * ht1
    have mseg : (ConvexSet.segment g (some s) (some e)).Mem (RingHom.id K) m := by
      simp only [ConvexSet.Mem, Between, Geo.val, Geo.map, RingHom.id_apply, Option.mem_def, Option.some.injEq, forall_eq']
      exact ⟨mfin.le, mg, mle.1, mle.2⟩
    refine ⟨m, ?_, mfin, mseg, ⟨t, t0, t1, hm⟩, ?_⟩
    · have : R.eqSet (.point m) = true := by
        refine eqSet_of_same h2 (show InDisk m from mfin.le) fun z => ?_
        rw [hmem]
        constructor
        · rintro ⟨⟨-, hz, -, -⟩, hz'⟩
          rw [hzero z hz] at hz'
          show z = mapPt (RingHom.id K) m
          have : z = m := by
            refine eq_of_pos hg.proper hz mg ?_
            refine mul_right_cancel₀ hd ?_
            rw [mpos]
            linear_combination -hz' - (g.pos e - g.pos s) * ht1
          rw [this]; rfl
        · intro h
          have : z = m := h
          rw [this]
          exact ⟨⟨mfin.le, mg, mle.1, mle.2⟩, ml⟩
      rw [h1]
      cases R with
      | point p =>
        simp only [ConvexSet.eqSet, Bool.and_eq_true, decide_eq_true_eq] at this
        rw [show p = m from Prod.ext this.1 this.2]
      | _ => simp [ConvexSet.eqSet] at this
    · rw [midpoint_equation hs hne t hm, ← hε, ← hδ]
      refine mul_right_cancel₀ hd2.ne' ?_
      linear_combination ε * ε * (g.b * g.b + g.c * g.c - g.a * g.a) * ((1 - t) * (ε - δ) - δ) * ht2 - δ * δ * (g.b * g.b + g.c * g.c - g.a * g.a) * (t * (ε - δ) + ε) * ht1

/-- A geodesic that is perpendicular to `g` at `x`. -/
structure PerpAt (g : Geo K) (x : K × K) (P : Geo K) : Prop where
  valid : P.Valid
  orthogonal : lorentz g P = 0
  on : P.a + P.b * x.1 + P.c * x.2 = 0

theorem PerpAt.neg {g P : Geo K} {x : K × K} (h : PerpAt g x P) : PerpAt g x P.neg := by
  refine ⟨h.valid.neg, ?_, ?_⟩
  · have := h.orthogonal
    unfold lorentz Geo.neg at *
    simp only
    linear_combination -this
  · have := h.on
    unfold Geo.neg
    simp only
    linear_combination -this

/-- Two points on a geodesic. -/
structure OnGeodesic (g : Geo K) (x y : K × K) : Prop where
  valid : g.Valid
  fx : x.1 * x.1 + x.2 * x.2 < 1
  fy : y.1 * y.1 + y.2 * y.2 < 1
  ox : g.a + g.b * x.1 + g.c * x.2 = 0
  oy : g.a + g.b * y.1 + g.c * y.2 = 0
  ne : x ≠ y

theorem perps_ne {g P Q : Geo K} {x y : K × K} (h : OnGeodesic g x y) (hP : PerpAt g x P) (hQ : PerpAt g y Q) : P.eq Q.neg true = false := by
  rw [Bool.eq_false_iff]
  intro he
  obtain ⟨t, ht, -, e⟩ := (C51_geodesic_eq hP.valid hQ.valid.neg true).1 he
  have hy := hQ.neg.on
  rw [e] at hy
  unfold Geo.smul at hy
  simp only at hy
  have hPy : P.a + P.b * y.1 + P.c * y.2 = 0 := by
    refine (mul_eq_zero.1 (show t * _ = 0 from ?_)).resolve_left ht
    linear_combination hy
  refine line_lorentz (ε := 0) (δ := 0) h.valid hP.valid h.ne h.ox h.oy (by rw [hP.on]; ring) (by rw [hPy]; ring) ?_
  have := hP.orthogonal
  unfold lorentz at *
  linear_combination this

theorem through_ends {sqrt : K → Option K} (hs : IsSqrt sqrt) {P Q l : Geo K} (hP : P.Valid) (hQ : Q.Valid) (hne : P.eq Q.neg true = false)
    (h : geodesicThrough sqrt (.start P) (.start Q) true = .ok l) :
    ∃ kp kq : K × K, (Pt.start P).klein sqrt = .ok kp ∧ (Pt.start Q).klein sqrt = .ok kq ∧ l.Valid ∧ l.a + l.b * kp.1 + l.c * kp.2 = 0 ∧ l.a + l.b * kq.1 + l.c * kq.2 = 0 := by
  unfold geodesicThrough at h
  cases he : (Pt.start P).eq (Pt.start Q) with
  | error e => rw [he] at h; cases h
  | ok b =>
    cases b with
    | true => rw [he] at h; cases h
    | false =>
      simp only [he, bind, Except.bind, Bool.false_eq_true, if_false, hne] at h
      unfold geodesicThrough.through at h
      cases hp : (Pt.start P).klein sqrt with
      | error e => simp only [hp, bind, Except.bind] at h; cases h
      | ok kp =>
        cases hq : (Pt.start Q).klein sqrt with
        | error e => simp only [hp, hq, bind, Except.bind] at h; cases h
        | ok kq =>
          simp only [hp, hq, bind, Except.bind] at h
          rw [geodesic_klein_true] at h
          split at h
          · rename_i hv
            injection h with h
            rw [← h]
            refine ⟨kp, kq, rfl, rfl, hv, ?_, ?_⟩ <;> (simp only; ring)
          · cases h

theorem through_ends_exists {sqrt : K → Option K} (hs : IsSqrt sqrt) {P Q : Geo K} (hP : P.Valid) (hQ : Q.Valid) (hne : P.eq Q.neg true = false) {kp kq : K × K}
    (hp : (Pt.start P).klein sqrt = .ok kp) (hq : (Pt.start Q).klein sqrt = .ok kq) (hk : kp ≠ kq) : ∃ l, geodesicThrough sqrt (.start P) (.start Q) true = .ok l := by
  have hf : StrictMono (RingHom.id K) := fun _ _ h => h
  have he : (Pt.start P).eq (Pt.start Q) = .ok false := by
    rw [C51_point_eq hf (p := .start P) (q := .start Q) hP hQ (loc_klein hs (p := .start P) hP hp) (loc_klein hs (p := .start Q) hQ hq)]
    rw [decide_eq_false]
    rintro ⟨h1, h2⟩
    exact hk (Prod.ext h1 h2)
  refine ⟨edgeGeo kp kq, ?_⟩
  unfold geodesicThrough
  simp only [he, bind, Except.bind, Bool.false_eq_true, if_false, hne]
  unfold geodesicThrough.through
  simp only [hp, hq, bind, Except.bind]
  exact geodesic_of_valid true (edgeGeo_valid (klein_valid hs (p := .start P) hP hp) (klein_valid hs (p := .start Q) hQ hq) hk)

/-- The ideal points of the two perpendiculars are different. -/
theorem ends_ne {g P Q : Geo K} {x y : K × K} (h : OnGeodesic g x y) (hP : PerpAt g x P) (hQ : PerpAt g y Q) {k k' : K × K} (hk : k.1 * k.1 + k.2 * k.2 = 1) (hk' : k'.1 * k'.1 + k'.2 * k'.2 = 1)
    (kP : P.a + P.b * k.1 + P.c * k.2 = 0) (kQ : Q.a + Q.b * k'.1 + Q.c * k'.2 = 0) : k ≠ k' := by
  rintro rfl
  obtain ⟨μ, h1, h2, h3, h4, -⟩ := decompose h.valid hP.valid hP.orthogonal h.fx h.ox hP.on hk kP
  obtain ⟨ν, j1, j2, j3, j4, -⟩ := decompose h.valid hQ.valid hQ.orthogonal h.fy h.oy hQ.on hk kQ
  have hN : g.b * g.b + g.c * g.c - g.a * g.a ≠ 0 := by have := h.valid; unfold Geo.Valid at this; intro h; linarith
  have e : μ * offset g x k = ν * offset g y k := by
    refine mul_right_cancel₀ hN ?_
    linear_combination g.a * j2 - g.a * h2 + g.b * j3 - g.b * h3 + g.c * j4 - g.c * h4 - μ * h.ox + ν * h.oy
  have e0 : μ = ν := by linear_combination j2 - h2 + g.a * e
  have e1 : μ * x.1 = μ * y.1 := by rw [e0] at e h3 ⊢; linear_combination j3 - h3 - g.b * e
  have e2 : μ * x.2 = μ * y.2 := by rw [e0] at e h4 ⊢; linear_combination j4 - h4 - g.c * e
  exact h.ne (Prod.ext (mul_left_cancel₀ h1.ne' e1) (mul_left_cancel₀ h1.ne' e2))

/-- The two ideal points of a perpendicular are on different sides. -/
theorem ends_sides {g P : Geo K} {x : K × K} (hg : g.Valid) (fx : x.1 * x.1 + x.2 * x.2 < 1) (ox : g.a + g.b * x.1 + g.c * x.2 = 0) (hP : PerpAt g x P) {k k' : K × K}
    (hk : k.1 * k.1 + k.2 * k.2 = 1) (hk' : k'.1 * k'.1 + k'.2 * k'.2 = 1) (kP : P.a + P.b * k.1 + P.c * k.2 = 0) (kP' : P.a + P.b * k'.1 + P.c * k'.2 = 0) (hne : k ≠ k') :
    offset g x k = -offset g x k' ∧ offset g x k ≠ 0 := by
  obtain ⟨μ, h1, h2, h3, h4, h5⟩ := decompose hg hP.valid hP.orthogonal fx ox hP.on hk kP
  obtain ⟨ν, j1, j2, j3, j4, j5⟩ := decompose hg hP.valid hP.orthogonal fx ox hP.on hk' kP'
  have hN : g.b * g.b + g.c * g.c - g.a * g.a ≠ 0 := by unfold Geo.Valid at hg; intro h; linarith
  constructor
  · rcases mul_self_eq_mul_self_iff.1 (mul_right_cancel₀ hN (h5.trans j5.symm)) with e | e
    · exfalso
      have e0 : μ = ν := by
        rw [e] at h2
        have : 1 - offset g x k' * g.a ≠ 0 := by intro h; rw [h] at h2; simp at h2
        exact mul_right_cancel₀ this (h2.symm.trans j2)
      exact hne (Prod.ext (by rw [h3, j3, e0, e]) (by rw [h4, j4, e0, e]))
    · exact e
  · intro h0
    rw [h0] at h5
    linarith

/-- One step of the construction. -/
theorem midpoint_step {sqrt : K → Option K} (hs : IsSqrt sqrt) {pick : Interval K → K} (hpick : PickOk pick) {shuffle : List (Geo K) → List (Geo K)} (hsh : ∀ l, (shuffle l).Perm l) {g : Geo K} {s e x y : K × K}
    (h : OnGeodesic g s e) (hse : g.pos s < g.pos e) (hxy : (x = s ∧ y = e) ∨ (x = e ∧ y = s)) {P Q l : Geo K} (hP : PerpAt g x P) (hQ : PerpAt g y Q)
    {kp kq : K × K} (hp : (Pt.start P).klein sqrt = .ok kp) (hq : (Pt.start Q).klein sqrt = .ok kq) (hl : l.Valid) (lp : l.a + l.b * kp.1 + l.c * kp.2 = 0) (lq : l.a + l.b * kq.1 + l.c * kq.2 = 0) :
    (0 < offset g x kp * offset g y kq → intersectSets pick shuffle [.segment g (some s) (some e), .geodesic l] = .ok .empty) ∧
    (offset g x kp * offset g y kq < 0 → ∃ m, intersectSets pick shuffle [.segment g (some s) (some e), .geodesic l] = .ok (.point m) ∧ m.1 * m.1 + m.2 * m.2 < 1 ∧
      (ConvexSet.segment g (some s) (some e)).Mem (RingHom.id K) m ∧ IsMidpoint s e m) ∧ offset g x kp * offset g y kq ≠ 0 := by
  obtain ⟨np, op, -⟩ := (startCoordinates_ok hs hP.valid (x := kp.1) (y := kp.2)).1 hp
  obtain ⟨nq, oq, -⟩ := (startCoordinates_ok hs hQ.valid (x := kq.1) (y := kq.2)).1 hq
  have hnz : ∀ {ε A : K}, ε * ε * (g.b * g.b + g.c * g.c - g.a * g.a) = 1 - A → A < 1 → ε ≠ 0 := by
    rintro ε A h1 h2 rfl
    linarith
  rcases hxy with ⟨rfl, rfl⟩ | ⟨rfl, rfl⟩
  · obtain ⟨-, -, -, -, -, h5⟩ := decompose h.valid hP.valid hP.orthogonal h.fx h.ox hP.on np op
    obtain ⟨-, -, -, -, -, j5⟩ := decompose h.valid hQ.valid hQ.orthogonal h.fy h.oy hQ.on nq oq
    have := segment_line hpick hsh h.valid hl h.fx h.fy h.ox h.oy hse h5 j5 (line_value h.valid hP.valid hP.orthogonal h.fx h.ox hP.on np op lp)
      (line_value h.valid hQ.valid hQ.orthogonal h.fy h.oy hQ.on nq oq lq)
    exact ⟨this.1, this.2, mul_ne_zero (hnz h5 h.fx) (hnz j5 h.fy)⟩
  · obtain ⟨-, -, -, -, -, h5⟩ := decompose h.valid hP.valid hP.orthogonal h.fy h.oy hP.on np op
    obtain ⟨-, -, -, -, -, j5⟩ := decompose h.valid hQ.valid hQ.orthogonal h.fx h.ox hQ.on nq oq
    have := segment_line hpick hsh h.valid hl h.fx h.fy h.ox h.oy hse j5 h5 (line_value h.valid hQ.valid hQ.orthogonal h.fx h.ox hQ.on nq oq lq)
      (line_value h.valid hP.valid hP.orthogonal h.fy h.oy hP.on np op lp)
    rw [mul_comm] at this
    exact ⟨this.1, this.2, mul_ne_zero (hnz h5 h.fy) (hnz j5 h.fx)⟩

/-- A list with the same two entries. -/
theorem perm_two {α : Type} {a b : α} {l : List α} (h : l.Perm [a, b]) : l = [a, b] ∨ l = [b, a] := by
  match l, h.length_eq with
  | [x, y], _ =>
    have hx : x ∈ [a, b] := h.subset (by simp)
    rcases List.mem_cons.1 hx with rfl | hx
    · left
      have := (List.perm_cons x).1 h
      rw [List.perm_singleton.1 this]
    · right
      have hx := List.mem_singleton.1 hx
      subst hx
      have := (List.perm_cons x).1 (h.trans (List.Perm.swap x a []))
      rw [List.perm_singleton.1 this]

/-- What is known about the result. -/
def MidpointResult (g : Geo K) (s e : K × K) (R : ConvexSet K) : Prop := ∃ m, R = .point m ∧ m.1 * m.1 + m.2 * m.2 < 1 ∧ (ConvexSet.segment g (some s) (some e)).Mem (RingHom.id K) m ∧ IsMidpoint s e m

theorem midpointLoop_ok {sqrt : K → Option K} (hs : IsSqrt sqrt) {pick : Interval K → K} (hpick : PickOk pick) {shuffle : List (Geo K) → List (Geo K)} (hsh : ∀ l, (shuffle l).Perm l) {g : Geo K} {s e x y : K × K}
    (h : OnGeodesic g s e) (hse : g.pos s < g.pos e) (hxy : (x = s ∧ y = e) ∨ (x = e ∧ y = s)) {P : Geo K} (hP : PerpAt g x P) : ∀ {qs : List (Pt K)} {R : ConvexSet K}, (∀ q ∈ qs, ∃ Q, q = .start Q ∧ PerpAt g y Q) →
    midpointLoop sqrt pick shuffle (.segment g (some s) (some e)) (.start P) qs = .ok R → MidpointResult g s e R
  | [], R, _, hR => by cases hR
  | q :: qs, R, hq, hR => by
    obtain ⟨Q, rfl, hQ⟩ := hq q (by simp)
    have hxy' : OnGeodesic g x y := by
      rcases hxy with ⟨rfl, rfl⟩ | ⟨rfl, rfl⟩
      · exact h
      · exact ⟨h.valid, h.fy, h.fx, h.oy, h.ox, h.ne.symm⟩
    unfold midpointLoop at hR
    cases hl : geodesicThrough sqrt (.start P) (.start Q) true with
    | error e => simp only [hl, bind, Except.bind] at hR; cases hR
    | ok l =>
      obtain ⟨kp, kq, h1, h2, h3, h4, h5⟩ := through_ends hs hP.valid hQ.valid (perps_ne hxy' hP hQ) hl
      obtain ⟨s1, s2, s3⟩ := midpoint_step hs hpick hsh h hse hxy hP hQ h1 h2 h3 h4 h5
      rcases lt_or_gt_of_ne s3 with hn | hn
      · obtain ⟨m, m1, m2⟩ := s2 hn
        simp only [hl, m1, bind, Except.bind, pure, Except.pure, reduceCtorEq, if_false] at hR
        injection hR with hR
        exact ⟨m, hR.symm, m2⟩
      · simp only [hl, s1 hn, bind, Except.bind, if_true] at hR
        exact midpointLoop_ok hs hpick hsh h hse hxy hP (fun q' hq' => hq q' (by simp [hq'])) hR

theorem perpAt_of_ok {sqrt : K → Option K} (hs : IsSqrt sqrt) {g P : Geo K} (hg : g.Valid) {x : K × K} (hx : x.1 * x.1 + x.2 * x.2 < 1) (h : g.perpendicularPoint sqrt (.coords x.1 x.2) = .ok P) : PerpAt g x P := by
  obtain ⟨h1, h2, h3, -⟩ := C88_perpendicular hs hg (p := .coords x.1 x.2) hx.le h
  refine ⟨h1, (rightAngle_iff hg h1).1 h3, ?_⟩
  simpa [Geo.contains, Geo.containsCoords] using h2

theorem onGeodesic_of_reduced {g : Geo K} {s e : K × K} (h : (ConvexSet.segment g (some s) (some e)).Reduced) : OnGeodesic g s e ∧ g.pos s < g.pos e := by
  obtain ⟨hg, hN, -⟩ := h
  obtain ⟨s1, s2⟩ := hN.start s rfl
  obtain ⟨e1, e2⟩ := hN.stop e rfl
  have hse := hN.order s rfl e rfl
  unfold finitePoint at s2 e2
  exact ⟨⟨hg, of_decide_eq_true s2, of_decide_eq_true e2, s1, e1, by rintro rfl; exact lt_irrefl _ hse⟩, hse⟩

theorem coords_eq_false {x y : K × K} (h : x ≠ y) : (Pt.coords x.1 x.2).eq (Pt.coords y.1 y.2) = .ok false := by
  have : ¬ (x.1 = y.1 ∧ x.2 = y.2) := fun h' => h (Prod.ext h'.1 h'.2)
  unfold Pt.eq
  simpa using this

theorem segmentMidpoint_unfold {sqrt : K → Option K} {pick : Interval K → K} {shuffle : List (Geo K) → List (Geo K)} {arrange : List (Pt K) → List (Pt K)} (harr : ∀ l, (arrange l).Perm l) {g : Geo K} {s e : K × K} (hne : s ≠ e) :
    ∃ x y : K × K, ((x = s ∧ y = e) ∨ (x = e ∧ y = s)) ∧ segmentMidpoint sqrt pick shuffle arrange g (some s) (some e) = (do
      let P ← g.perpendicularPoint sqrt (.coords x.1 x.2)
      match arrange [.start P, .start P.neg] with
      | [] => .error .assertionError
      | p :: _ =>
        let Q ← g.perpendicularPoint sqrt (.coords y.1 y.2)
        midpointLoop sqrt pick shuffle (.segment g (some s) (some e)) p (arrange [.start Q, .start Q.neg])) := by
  rcases perm_two (harr [.coords s.1 s.2, .coords e.1 e.2]) with h | h
  · refine ⟨s, e, Or.inl ⟨rfl, rfl⟩, ?_⟩
    simp only [segmentMidpoint, h, coords_eq_false hne, bind, Except.bind, Bool.false_eq_true, if_false]
    rfl
  · refine ⟨e, s, Or.inr ⟨rfl, rfl⟩, ?_⟩
    simp only [segmentMidpoint, h, coords_eq_false hne.symm, bind, Except.bind, Bool.false_eq_true, if_false]
    rfl

/-- **C89.** The midpoint of a bounded segment is a point of the segment that is at the same distance from its two end points, and it is the only one. -/
theorem C89_midpoint {sqrt : K → Option K} (hs : IsSqrt sqrt) {pick : Interval K → K} (hpick : PickOk pick) {shuffle : List (Geo K) → List (Geo K)} (hsh : ∀ l, (shuffle l).Perm l)
    {arrange : List (Pt K) → List (Pt K)} (harr : ∀ l, (arrange l).Perm l) {g : Geo K} {s e : K × K} (hR : (ConvexSet.segment g (some s) (some e)).Reduced) {R : ConvexSet K}
    (h : segmentMidpoint sqrt pick shuffle arrange g (some s) (some e) = .ok R) :
    ∃ m, R = .point m ∧ (ConvexSet.segment g (some s) (some e)).Mem (RingHom.id K) m ∧ IsMidpoint s e m ∧ ∀ m', IsMidpoint s e m' → m' = m := by
  obtain ⟨hO, hse⟩ := onGeodesic_of_reduced hR
  obtain ⟨x, y, hxy, hu⟩ := segmentMidpoint_unfold (sqrt := sqrt) (pick := pick) (shuffle := shuffle) harr (g := g) hO.ne
  rw [hu] at h
  have fx : x.1 * x.1 + x.2 * x.2 < 1 := by rcases hxy with ⟨rfl, rfl⟩ | ⟨rfl, rfl⟩ <;> [exact hO.fx; exact hO.fy]
  have fy : y.1 * y.1 + y.2 * y.2 < 1 := by rcases hxy with ⟨rfl, rfl⟩ | ⟨rfl, rfl⟩ <;> [exact hO.fy; exact hO.fx]
  have fin : MidpointResult g s e R := by
    cases hP : g.perpendicularPoint sqrt (.coords x.1 x.2) with
    | error e => simp only [hP, bind, Except.bind] at h; cases h
    | ok P =>
      have pP := perpAt_of_ok hs hO.valid fx hP
      cases hQ : g.perpendicularPoint sqrt (.coords y.1 y.2) with
      | error e =>
        simp only [hP, hQ, bind, Except.bind] at h
        split at h <;> cases h
      | ok Q =>
        have pQ := perpAt_of_ok hs hO.valid fy hQ
        have hqs : ∀ q ∈ arrange [.start Q, .start Q.neg], ∃ Q', q = .start Q' ∧ PerpAt g y Q' := by
          intro q hq
          have := (harr _).subset hq
          simp only [List.mem_cons, List.not_mem_nil, or_false] at this
          rcases this with rfl | rfl
          · exact ⟨Q, rfl, pQ⟩
          · exact ⟨Q.neg, rfl, pQ.neg⟩
        rcases perm_two (harr [.start P, .start P.neg]) with ha | ha
        · simp only [hP, hQ, ha, bind, Except.bind] at h
          exact midpointLoop_ok hs hpick hsh hO hse hxy pP hqs h
        · simp only [hP, hQ, ha, bind, Except.bind] at h
          exact midpointLoop_ok hs hpick hsh hO hse hxy pP.neg hqs h
  obtain ⟨m, h1, -, h3, h4⟩ := fin
  exact ⟨m, h1, h3, h4, fun m' h' => h'.unique hO.fx hO.fy hO.ne h4⟩

theorem midpointLoop_exists {sqrt : K → Option K} (hs : IsSqrt sqrt) {pick : Interval K → K} (hpick : PickOk pick) {shuffle : List (Geo K) → List (Geo K)} (hsh : ∀ l, (shuffle l).Perm l) {g : Geo K} {s e x y : K × K}
    (h : OnGeodesic g s e) (hse : g.pos s < g.pos e) (hxy : (x = s ∧ y = e) ∨ (x = e ∧ y = s)) {P Q : Geo K} (hP : PerpAt g x P) (hQ : PerpAt g y Q) {kp kq kr : K × K} (hp : (Pt.start P).klein sqrt = .ok kp)
    (hq : (Pt.start Q).klein sqrt = .ok kq) (hr : (Pt.start Q.neg).klein sqrt = .ok kr) :
    ∃ R, midpointLoop sqrt pick shuffle (.segment g (some s) (some e)) (.start P) [.start Q, .start Q.neg] = .ok R := by
  have hxy' : OnGeodesic g x y := by
    rcases hxy with ⟨rfl, rfl⟩ | ⟨rfl, rfl⟩
    · exact h
    · exact ⟨h.valid, h.fy, h.fx, h.oy, h.ox, h.ne.symm⟩
  obtain ⟨np, op, -⟩ := (startCoordinates_ok hs hP.valid (x := kp.1) (y := kp.2)).1 hp
  obtain ⟨nq, oq, dq⟩ := (startCoordinates_ok hs hQ.valid (x := kq.1) (y := kq.2)).1 hq
  obtain ⟨nr, or, dr⟩ := (startCoordinates_ok hs hQ.neg.valid (x := kr.1) (y := kr.2)).1 hr
  have or' : Q.a + Q.b * kr.1 + Q.c * kr.2 = 0 := by
    unfold Geo.neg at or
    simp only at or
    linear_combination -or
  have hqr : kq ≠ kr := by
    rintro rfl
    unfold Geo.neg at dr
    simp only at dr
    linarith
  obtain ⟨l, hl⟩ := through_ends_exists hs hP.valid hQ.valid (perps_ne hxy' hP hQ) hp hq (ends_ne hxy' hP hQ np nq op oq)
  obtain ⟨l', hl'⟩ := through_ends_exists hs hP.valid hQ.neg.valid (perps_ne hxy' hP hQ.neg) hp hr (ends_ne hxy' hP hQ.neg np nr op or)
  obtain ⟨_, _, a1, a2, a3, a4, a5⟩ := through_ends hs hP.valid hQ.valid (perps_ne hxy' hP hQ) hl
  obtain ⟨_, _, b1, b2, b3, b4, b5⟩ := through_ends hs hP.valid hQ.neg.valid (perps_ne hxy' hP hQ.neg) hl'
  obtain ⟨s1, s2, s3⟩ := midpoint_step hs hpick hsh h hse hxy hP hQ a1 a2 a3 a4 a5
  obtain ⟨t1, t2, t3⟩ := midpoint_step hs hpick hsh h hse hxy hP hQ.neg b1 b2 b3 b4 b5
  rw [hp] at a1 b1
  rw [hq] at a2
  rw [hr] at b2
  injection a1 with a1
  injection a2 with a2
  injection b1 with b1
  injection b2 with b2
  subst a1 a2 b1 b2
  unfold midpointLoop
  rcases lt_or_gt_of_ne s3 with hn | hn
  · obtain ⟨m, m1, -⟩ := s2 hn
    exact ⟨.point m, by simp only [hl, m1, bind, Except.bind, pure, Except.pure, reduceCtorEq, if_false]⟩
  · have hsides := (ends_sides h.valid hxy'.fy hxy'.oy hQ nq nr oq or' hqr).1
    have hn' : offset g x kp * offset g y kr < 0 := by
      have e : offset g x kp * offset g y kq = -(offset g x kp * offset g y kr) := by rw [hsides]; ring
      linarith
    obtain ⟨m, m1, -⟩ := t2 hn'
    refine ⟨.point m, ?_⟩
    simp only [hl, s1 hn, bind, Except.bind, if_true]
    unfold midpointLoop
    simp only [hl', m1, bind, Except.bind, pure, Except.pure, reduceCtorEq, if_false]

theorem neg_neg_geo (g : Geo K) : g.neg.neg = g := by
  unfold Geo.neg
  simp

/-- **C89.** The midpoint of a bounded segment is found, i.e., the assertion never fails, if the perpendiculars at the end points of the segment and their ideal points can be computed in the base ring. -/
theorem C89_midpoint_exists {sqrt : K → Option K} (hs : IsSqrt sqrt) {pick : Interval K → K} (hpick : PickOk pick) {shuffle : List (Geo K) → List (Geo K)} (hsh : ∀ l, (shuffle l).Perm l)
    {arrange : List (Pt K) → List (Pt K)} (harr : ∀ l, (arrange l).Perm l) {g : Geo K} {s e : K × K} (hR : (ConvexSet.segment g (some s) (some e)).Reduced) {S E : Geo K}
    (hS : g.perpendicularPoint sqrt (.coords s.1 s.2) = .ok S) (hE : g.perpendicularPoint sqrt (.coords e.1 e.2) = .ok E) (hSE : S.HasEnds sqrt) (hEE : E.HasEnds sqrt) :
    ∃ R, segmentMidpoint sqrt pick shuffle arrange g (some s) (some e) = .ok R := by
  obtain ⟨hO, hse⟩ := onGeodesic_of_reduced hR
  have pS := perpAt_of_ok hs hO.valid hO.fx hS
  have pE := perpAt_of_ok hs hO.valid hO.fy hE
  obtain ⟨x, y, hxy, hu⟩ := segmentMidpoint_unfold (sqrt := sqrt) (pick := pick) (shuffle := shuffle) harr (g := g) hO.ne
  rw [hu]
  obtain ⟨P, Q, hP, hQ, pP, pQ, eP, eQ⟩ : ∃ P Q, g.perpendicularPoint sqrt (.coords x.1 x.2) = .ok P ∧ g.perpendicularPoint sqrt (.coords y.1 y.2) = .ok Q ∧ PerpAt g x P ∧ PerpAt g y Q ∧ P.HasEnds sqrt ∧ Q.HasEnds sqrt := by
    rcases hxy with ⟨rfl, rfl⟩ | ⟨rfl, rfl⟩
    · exact ⟨S, E, hS, hE, pS, pE, hSE, hEE⟩
    · exact ⟨E, S, hE, hS, pE, pS, hEE, hSE⟩
  obtain ⟨A, B, hA, hB⟩ := eP
  obtain ⟨C, D, hC, hD⟩ := eQ
  rcases perm_two (harr [.start P, .start P.neg]) with ha | ha <;> rcases perm_two (harr [.start Q, .start Q.neg]) with hb | hb <;> simp only [hP, hQ, ha, hb, bind, Except.bind]
  · exact midpointLoop_exists hs hpick hsh hO hse hxy pP pQ hA hC hD
  · have := midpointLoop_exists hs hpick hsh hO hse hxy pP pQ.neg hA hD (by rw [neg_neg_geo]; exact hC)
    rwa [neg_neg_geo] at this
  · exact midpointLoop_exists hs hpick hsh hO hse hxy pP.neg pQ hB hC hD
  · have := midpointLoop_exists hs hpick hsh hO hse hxy pP.neg pQ.neg hB hD (by rw [neg_neg_geo]; exact hC)
    rwa [neg_neg_geo] at this

omit [IsStrictOrderedRing K] in
/-- **C89.** The midpoint of a segment with one ideal end point is refused with a `NotImplementedError`. -/
theorem C89_midpoint_unbounded {sqrt : K → Option K} {pick : Interval K → K} {shuffle : List (Geo K) → List (Geo K)} {arrange : List (Pt K) → List (Pt K)} (g : Geo K) (s : K × K) :
    segmentMidpoint sqrt pick shuffle arrange g (some s) none = .error .notImplemented ∧ segmentMidpoint sqrt pick shuffle arrange g none (some s) = .error .notImplemented :=
  ⟨rfl, rfl⟩

/-- **C89.** `perpendicular(point)` of a segment is the perpendicular of its geodesic for the points of the segment, and a `ValueError` for all other points. -/
theorem C89_perpendicular_point {sqrt : K → Option K} (hs : IsSqrt sqrt) {g : Geo K} {start stop : Option (K × K)} (hR : (ConvexSet.segment g start stop).Reduced) {m : K × K} (hm : m.1 * m.1 + m.2 * m.2 ≤ 1) :
    ((ConvexSet.segment g start stop).Mem (RingHom.id K) m → ∀ h, segmentPerpendicularPoint sqrt g start stop m = .ok h →
      h.Valid ∧ h.contains (.coords m.1 m.2) = .ok true ∧ RightAngle g h) ∧
    (¬ (ConvexSet.segment g start stop).Mem (RingHom.id K) m → segmentPerpendicularPoint sqrt g start stop m = .error .valueError) := by
  have hg : g.Valid := hR.1
  unfold segmentPerpendicularPoint
  rw [← Props.C80_contains _ hR m hm]
  constructor
  · intro h1 h h2
    rw [if_pos h1] at h2
    obtain ⟨a, b, c, -⟩ := C88_perpendicular hs hg (p := .coords m.1 m.2) hm h2
    exact ⟨a, b, c⟩
  · intro h1
    rw [if_neg h1]

/-- The points that are as far from `s` as from `e`. -/
theorem bisector_algebra {g h : Geo K} {s e m : K × K} (hO : OnGeodesic g s e) (hm : IsMidpoint s e m) (hp : PerpAt g m h) {z : K × K} (hz : z.1 * z.1 + z.2 * z.2 ≤ 1) :
    h.a + h.b * z.1 + h.c * z.2 = 0 ↔
      (1 - (z.1 * s.1 + z.2 * s.2)) ^ 2 * (1 - (e.1 * e.1 + e.2 * e.2)) = (1 - (z.1 * e.1 + z.2 * e.2)) ^ 2 * (1 - (s.1 * s.1 + s.2 * s.2)) := by
  obtain ⟨⟨t, t0, t1, hm⟩, hq⟩ := hm
  rw [midpoint_equation hO.fx hO.ne t hm] at hq
  have m1 : m.1 = s.1 + t * (e.1 - s.1) := by rw [hm]
  have m2 : m.2 = s.2 + t * (e.2 - s.2) := by rw [hm]
  have zs := one_sub_dot hO.fx hz
  have ze := one_sub_dot hO.fy hz
  have hA : 0 < 1 - (s.1 * s.1 + s.2 * s.2) := by linarith [hO.fx]
  have hB : 0 < 1 - (e.1 * e.1 + e.2 * e.2) := by linarith [hO.fy]
  have step : (1 - (z.1 * s.1 + z.2 * s.2)) ^ 2 * (1 - (e.1 * e.1 + e.2 * e.2)) = (1 - (z.1 * e.1 + z.2 * e.2)) ^ 2 * (1 - (s.1 * s.1 + s.2 * s.2)) ↔
      (1 - t) * (1 - (z.1 * s.1 + z.2 * s.2)) = t * (1 - (z.1 * e.1 + z.2 * e.2)) := by
    have pos1 : 0 < (1 - t) * (1 - (z.1 * s.1 + z.2 * s.2)) := mul_pos (by linarith) zs
    have pos2 : 0 < t * (1 - (z.1 * e.1 + z.2 * e.2)) := mul_pos t0 ze
    constructor
    · intro h
      have : ((1 - t) * (1 - (z.1 * s.1 + z.2 * s.2))) ^ 2 = (t * (1 - (z.1 * e.1 + z.2 * e.2))) ^ 2 := by
        refine mul_right_cancel₀ hA.ne' ?_
        linear_combination (1 - (z.1 * s.1 + z.2 * s.2)) ^ 2 * hq + t ^ 2 * h
      rcases sq_eq_sq_iff_eq_or_eq_neg.1 this with h | h
      · exact h
      · linarith
    · intro h
      have ht : t ^ 2 ≠ 0 := pow_ne_zero 2 t0.ne'
      refine mul_left_cancel₀ ht ?_
      linear_combination -(1 - (z.1 * s.1 + z.2 * s.2)) ^ 2 * hq + ((1 - t) * (1 - (z.1 * s.1 + z.2 * s.2)) + t * (1 - (z.1 * e.1 + z.2 * e.2))) * (1 - (s.1 * s.1 + s.2 * s.2)) * h
  rw [step]
  obtain ⟨w0, ew0⟩ : ∃ w, w = (1 - t) - t := ⟨_, rfl⟩
  obtain ⟨w1, ew1⟩ : ∃ w, w = -((1 - t) * s.1 - t * e.1) := ⟨_, rfl⟩
  obtain ⟨w2, ew2⟩ : ∃ w, w = -((1 - t) * s.2 - t * e.2) := ⟨_, rfl⟩
  have hw : (1 - t) * (1 - (z.1 * s.1 + z.2 * s.2)) = t * (1 - (z.1 * e.1 + z.2 * e.2)) ↔ w0 + w1 * z.1 + w2 * z.2 = 0 := by
    rw [ew0, ew1, ew2]
    constructor <;> intro h <;> linear_combination h
  rw [hw]
  have hg := hO.valid
  have horth := hp.orthogonal
  have hon := hp.on
  unfold lorentz at horth
  unfold Geo.Valid at hg
  have sg := hO.ox
  have eg := hO.oy
  have mfin : m.1 * m.1 + m.2 * m.2 < 1 := by
    have h : m.1 * m.1 + m.2 * m.2 = (1 - t) * (s.1 * s.1 + s.2 * s.2) + t * (e.1 * e.1 + e.2 * e.2) - t * (1 - t) * ((e.1 - s.1) * (e.1 - s.1) + (e.2 - s.2) * (e.2 - s.2)) := by
      rw [m1, m2]; ring
    have h1 := mul_lt_mul_of_pos_left hO.fx (sub_pos.2 t1)
    have h2 := mul_lt_mul_of_pos_left hO.fy t0
    have h3 := mul_nonneg (mul_nonneg t0.le (sub_pos.2 t1).le) (add_nonneg (mul_self_nonneg (e.1 - s.1)) (mul_self_nonneg (e.2 - s.2)))
    rw [h]; linarith
  obtain ⟨c1, c2, c3⟩ := orthogonal_parallel (u1 := 1) (u2 := m.1) (u3 := m.2) (v1 := -g.a) (v2 := g.b) (v3 := g.c) (w1 := h.a) (w2 := h.b) (w3 := h.c)
    (z1 := w0) (z2 := w1) (z3 := w2) (by
      by_contra hcon
      push Not at hcon
      obtain ⟨c1, c2, c3⟩ := hcon
      have e1 : g.b = -g.a * m.1 := by linear_combination c3
      have e2 : g.c = -g.a * m.2 := by linear_combination -c2
      rw [e1, e2] at hg
      have := mul_nonneg (mul_self_nonneg g.a) (sub_pos.2 mfin).le
      nlinarith) (by linear_combination hon) (by linear_combination horth)
    (by rw [ew0, ew1, ew2, m1, m2]; linear_combination hq) (by rw [ew0, ew1, ew2]; linear_combination -(1 - t) * sg + t * eg)
  constructor
  · intro hz0
    have a : h.b * (w0 + w1 * z.1 + w2 * z.2) = 0 := by linear_combination w1 * hz0 - c1 + z.2 * c3
    have b : h.c * (w0 + w1 * z.1 + w2 * z.2) = 0 := by linear_combination w2 * hz0 - c2 - z.1 * c3
    by_contra hne
    have hb := (mul_eq_zero.1 a).resolve_right hne
    have hc := (mul_eq_zero.1 b).resolve_right hne
    have hv := hp.valid
    unfold Geo.Valid at hv
    rw [hb, hc] at hv
    have := mul_self_nonneg h.a
    linarith
  · intro hz0
    have a : w1 * (h.a + h.b * z.1 + h.c * z.2) = 0 := by linear_combination h.b * hz0 + c1 - z.2 * c3
    have b : w2 * (h.a + h.b * z.1 + h.c * z.2) = 0 := by linear_combination h.c * hz0 + c2 + z.1 * c3
    have c : w0 * (h.a + h.b * z.1 + h.c * z.2) = 0 := by linear_combination h.a * hz0 - z.1 * c1 - z.2 * c2
    by_contra hne
    have z0 := (mul_eq_zero.1 c).resolve_right hne
    have z1 := (mul_eq_zero.1 a).resolve_right hne
    have z2 := (mul_eq_zero.1 b).resolve_right hne
    have ht : 1 - t = t := by linarith
    rw [ht] at ew1 ew2
    refine hO.ne (Prod.ext (mul_left_cancel₀ t0.ne' ?_) (mul_left_cancel₀ t0.ne' ?_))
    · linear_combination ew1 - z1
    · linear_combination ew2 - z2

/-- **C89.** `perpendicular()` of a bounded segment is its perpendicular bisector: it meets the geodesic of the segment at a right angle and consists of the points that are at the same distance from both
end points. -/
theorem C89_bisector {sqrt : K → Option K} (hs : IsSqrt sqrt) {pick : Interval K → K} (hpick : PickOk pick) {shuffle : List (Geo K) → List (Geo K)} (hsh : ∀ l, (shuffle l).Perm l)
    {arrange : List (Pt K) → List (Pt K)} (harr : ∀ l, (arrange l).Perm l) {g : Geo K} {s e : K × K} (hR : (ConvexSet.segment g (some s) (some e)).Reduced) {h : Geo K}
    (hh : segmentPerpendicular sqrt pick shuffle arrange g (some s) (some e) = .ok h) :
    h.Valid ∧ RightAngle g h ∧ ∀ z : K × K, z.1 * z.1 + z.2 * z.2 ≤ 1 → (h.contains (.coords z.1 z.2) = .ok true ↔
      (1 - (z.1 * s.1 + z.2 * s.2)) ^ 2 * (1 - (e.1 * e.1 + e.2 * e.2)) = (1 - (z.1 * e.1 + z.2 * e.2)) ^ 2 * (1 - (s.1 * s.1 + s.2 * s.2))) := by
  obtain ⟨hO, hse⟩ := onGeodesic_of_reduced hR
  unfold segmentPerpendicular at hh
  cases hm : segmentMidpoint sqrt pick shuffle arrange g (some s) (some e) with
  | error e => simp only [hm, bind, Except.bind] at hh; cases hh
  | ok R =>
    obtain ⟨m, rfl, h1, h2, -⟩ := C89_midpoint hs hpick hsh harr hR hm
    simp only [hm, bind, Except.bind] at hh
    have hmd : m.1 * m.1 + m.2 * m.2 ≤ 1 := h1.1
    obtain ⟨a, b, c⟩ := (C89_perpendicular_point hs hR hmd).1 h1 h hh
    refine ⟨a, c, fun z hz => ?_⟩
    rw [← bisector_algebra hO h2 ⟨a, (rightAngle_iff hO.valid a).1 c, by simpa [Geo.contains, Geo.containsCoords] using b⟩ hz]
    simp [Geo.contains, Geo.containsCoords]

/-- The segment from `I` to `4 I`. -/
theorem someSegment_reduced : (ConvexSet.segment ⟨0, -1, 0⟩ (some (0, 0)) (some (0, 15 / 17)) : ConvexSet ℚ).Reduced := by
  refine ⟨by unfold Geo.Valid; norm_num, ⟨?_, ?_, ?_⟩, Or.inl (by simp)⟩
  · rintro p ⟨⟩; exact ⟨by simp [Geo.val], by decide +kernel⟩
  · rintro p ⟨⟩; exact ⟨by simp [Geo.val], by decide +kernel⟩
  · rintro p ⟨⟩ q ⟨⟩; simp only [Geo.pos]; norm_num

/-- Its midpoint is `2 I`, for any order of the points. -/
example : segmentMidpoint ratSqrt Props.pickMiddle List.reverse id (⟨0, -1, 0⟩ : Geo ℚ) (some (0, 0)) (some (0, 15 / 17)) = .ok (.point (0, 3 / 5)) ∧
    segmentMidpoint ratSqrt Props.pickMiddle List.reverse List.reverse (⟨0, -1, 0⟩ : Geo ℚ) (some (0, 0)) (some (0, 15 / 17)) = .ok (.point (0, 3 / 5)) ∧
    toKlein (0 : ℚ) 2 = (0, 3 / 5) ∧ IsMidpoint ((0, 0) : ℚ × ℚ) (0, 15 / 17) (0, 3 / 5) := by
  refine ⟨by decide +kernel, by decide +kernel, by decide +kernel, ⟨17 / 25, by norm_num, by norm_num, by norm_num⟩, by norm_num⟩

/-- The perpendiculars at its end points can be computed. -/
example : ∃ S E, (⟨0, -1, 0⟩ : Geo ℚ).perpendicularPoint ratSqrt (.coords 0 0) = .ok S ∧ (⟨0, -1, 0⟩ : Geo ℚ).perpendicularPoint ratSqrt (.coords 0 (15 / 17)) = .ok E ∧
    S.HasEnds ratSqrt ∧ E.HasEnds ratSqrt := by
  refine ⟨⟨0, 0, -1⟩, ⟨15 / 17, 0, -1⟩, by decide +kernel, by decide +kernel, ⟨(1, 0), (-1, 0), ?_, ?_⟩, ⟨(8 / 17, 15 / 17), (-8 / 17, 15 / 17), ?_, ?_⟩⟩ <;> decide +kernel

/-- The perpendicular bisector is the half circle with center 0 and radius 2. -/
example : (segmentPerpendicular ratSqrt Props.pickMiddle List.reverse id (⟨0, -1, 0⟩ : Geo ℚ) (some (0, 0)) (some (0, 15 / 17))).toOption.map (fun k => k.eq ⟨-3, 0, 5⟩ false) = some true ∧
    segmentPerpendicularPoint ratSqrt (⟨0, -1, 0⟩ : Geo ℚ) (some (0, 0)) (some (0, 15 / 17)) (1 / 2, 0) = .error .valueError ∧
    halfCircle (0 : ℚ) 4 = .ok ⟨-3, 0, 5⟩ := by
  refine ⟨by decide +kernel, by decide +kernel, by decide +kernel⟩

/-- **C89, violation.** The midpoint is constructed from the ideal points of the perpendiculars at the end points, which need not have coordinates in the base ring, though the midpoint itself has: `midpoint` raises a `ValueError`
for a segment that is symmetric to the point `I`. -/
theorem C89_midpoint_violation : ∃ (sqrt : ℚ → Option ℚ) (pick : Interval ℚ → ℚ) (g : Geo ℚ) (s e m : ℚ × ℚ), IsSqrt sqrt ∧ PickOk pick ∧ (ConvexSet.segment g (some s) (some e)).Reduced ∧
    IsMidpoint s e m ∧ segmentMidpoint sqrt pick id id g (some s) (some e) = .error .valueError := by
  refine ⟨ratSqrt, Props.pickMiddle, ⟨0, -1, 0⟩, (0, -1 / 2), (0, 1 / 2), (0, 0), ratSqrt_isSqrt, Props.pickMiddle_ok, ?_, ?_, by decide +kernel⟩
  · refine ⟨by unfold Geo.Valid; norm_num, ⟨?_, ?_, ?_⟩, Or.inl (by simp)⟩
    · rintro p ⟨⟩; exact ⟨by simp [Geo.val], by decide +kernel⟩
    · rintro p ⟨⟩; exact ⟨by simp [Geo.val], by decide +kernel⟩
    · rintro p ⟨⟩ q ⟨⟩; simp only [Geo.pos]; norm_num
  · exact ⟨⟨1 / 2, by norm_num, by norm_num, by norm_num⟩, by norm_num⟩

end Hyp
end Flat
