import Verif.Lemmas.TrajectoryCrossings
import Verif.Props.Saddle

/-!
# C85: intersections of trajectories
-/

namespace Flat
variable {L K : Type} [Field K] [LinearOrder K] [IsStrictOrderedRing K]

/-- The polygon is convex, and no angle is equal to π. -/
def Poly.StrictlyConvex (p : Poly K) : Prop := p.Convex ∧ ∀ i, ccw (p.edge i) (p.edge (i + 1)) ≠ 0

namespace RSurf
open Poly
variable {S : RSurf L K} {valid : L → Prop}

/-- The points of a segment: those from its start to the point at which the flow leaves the polygon. -/
def OnSegment (S : RSurf L K) (s : Seg L K) (x : L × Vec K) : Prop :=
  x.1 = s.start.label ∧ ∃ p y o r, S.polygon x.1 = .ok p ∧ p.flowToExit s.start.point s.start.vector = .ok (y, o) ∧ 0 ≤ r ∧ r ≤ (1 : K) ∧
    x.2 = s.start.point + r • (y - s.start.point)

/-- The point is a vertex of its polygon. -/
def AtVertex (S : RSurf L K) (x : L × Vec K) : Prop := ∃ p i, S.polygon x.1 = .ok p ∧ x.2 = p.vertex i

theorem atVertex_iff {x : L × Vec K} {p : Poly K} (hp : S.polygon x.1 = .ok p) (hv : p.Valid) :
    S.AtVertex x ↔ (p.pointPosition x.2).isVertex = true := by
  have hn : 0 < p.length := by have := hv.len3; omega
  constructor
  · rintro ⟨q, i, hq, hi⟩
    rw [hp] at hq; injection hq with hq; subst hq
    rw [(C12_vertex hv x.2 (i % p.length)).2 ⟨Nat.mod_lt _ hn, by rw [vertex_mod]; exact hi⟩]
    rfl
  · intro h
    cases hpos : p.pointPosition x.2 with
    | vertex i => exact ⟨p, i, hp, ((C12_vertex hv _ i).1 hpos).2⟩
    | _ => rw [hpos] at h; cases h

theorem left_line (p : Poly K) (q v : Vec K) (r : K) (i : ℕ) : p.left (q + r • v) i = p.left q i + r * ccw (p.edge i) v := by
  simp only [left, ccw, Prod.fst_sub, Prod.snd_sub, Prod.fst_add, Prod.snd_add, Prod.smul_fst, Prod.smul_snd, smul_eq_mul]
  ring

theorem left_side {p : Poly K} {q : Vec K} {i : ℕ} (h : q ∈ p.side i) : p.left q i = 0 := by
  obtain ⟨t, -, -, rfl⟩ := h
  simp only [left, edge, ccw, Prod.fst_sub, Prod.snd_sub, Prod.fst_add, Prod.snd_add, Prod.smul_fst, Prod.smul_snd, smul_eq_mul]
  ring

/-- In a strictly convex polygon, a segment consists of all points of its line that are in the polygon. -/
theorem onSegment_iff (hS : S.Bordered valid) {s : Seg L K} (h : S.IsSeg valid s) {p : Poly K} (hp : S.polygon s.start.label = .ok p)
    (hc : p.StrictlyConvex) (x : L × Vec K) :
    S.OnSegment s x ↔ x.1 = s.start.label ∧ (∃ r : K, x.2 = s.start.point + r • s.start.vector) ∧ p.pointPosition x.2 ≠ .outside := by
  obtain ⟨l, x⟩ := x
  have hv : p.Valid := by
    rcases h with ⟨q, τ, h⟩ | ⟨q, q', e, e', g, h⟩ <;> exact hS.valid_of_polygon h.valid hp
  -- it is enough to find the points of the line
  suffices hmain : ∃ τ : K, 0 < τ ∧ (∃ o, p.flowToExit s.start.point s.start.vector = .ok (s.start.point + τ • s.start.vector, o)) ∧
      ∀ r : K, p.pointPosition (s.start.point + r • s.start.vector) ≠ .outside ↔ 0 ≤ r ∧ r ≤ τ by
    obtain ⟨τ, τ0, ⟨o, ho⟩, hτ⟩ := hmain
    unfold OnSegment
    refine and_congr_right fun hl => ?_
    dsimp only at hl ⊢
    constructor
    · rintro ⟨q, y, o', r, hq, hy, r0, r1, hx⟩
      rw [hl, hp] at hq; injection hq with hq; subst hq
      rw [ho] at hy
      injection hy with hy
      injection hy with hy _
      subst hy
      rw [add_sub_cancel_left, smul_smul] at hx
      refine ⟨⟨_, hx⟩, ?_⟩
      rw [hx, hτ]
      exact ⟨mul_nonneg r0 τ0.le, mul_le_of_le_one_left τ0.le r1⟩
    · rintro ⟨⟨r, hx⟩, hout⟩
      rw [hx, hτ] at hout
      refine ⟨p, _, o, r / τ, by rw [hl]; exact hp, ho, div_nonneg hout.1 τ0.le, (div_le_one τ0).2 hout.2, ?_⟩
      rw [add_sub_cancel_left, smul_smul, div_mul_cancel₀ _ τ0.ne', hx]
  have hout : ∀ q : Vec K, p.pointPosition q ≠ .outside ↔ ∀ i, 0 ≤ p.left q i := by
    intro q
    rw [Ne, (C12_interior hv hc.1 q).2]
    push Not
    rfl
  rcases h with ⟨q, τ, h⟩ | ⟨q, q', e, e', g, h⟩
  · have hq := h.polygon
    rw [hp] at hq; injection hq with hq; subst hq
    refine ⟨τ, h.pos, ⟨_, exit_chord hv h.ne h.pos h.interior (h.stop ▸ h.side')⟩, fun r => ?_⟩
    have hmid : ∀ i, 0 < p.left (s.start.point + (τ / 2) • s.start.vector) i :=
      ((C12_interior hv hc.1 _).1).1 (h.interior (τ / 2) (half_pos h.pos) (half_lt_self h.pos))
    obtain ⟨i, hi⟩ := h.side
    obtain ⟨j, hj⟩ := h.side'
    have hi0 := left_side hi
    have hj0 := left_side hj
    rw [h.stop, left_line] at hj0
    have hmi := hmid i
    have hmj := hmid j
    rw [left_line] at hmi hmj
    have τ0 := h.pos
    rw [hout]
    constructor
    · intro hr
      have h1 := hr i
      have h2 := hr j
      rw [left_line] at h1 h2
      constructor
      · by_contra hneg
        push Not at hneg
        nlinarith
      · by_contra hneg
        push Not at hneg
        nlinarith
    · rintro ⟨r0, r1⟩ k
      have h1 := hc.1.side_left hi k
      have h2 := hc.1.side_left hj k
      rw [h.stop, left_line] at h2
      rw [left_line]
      have : 0 ≤ τ * (p.left s.start.point k + r * ccw (p.edge k) s.start.vector) := by nlinarith [mul_nonneg r0 h2, mul_nonneg (sub_nonneg.2 r1) h1]
      exact nonneg_of_mul_nonneg_right this τ0
  · have hq := h.polygon
    rw [hp] at hq; injection hq with hq; subst hq
    have hne : s.start.vector ≠ 0 := by
      obtain ⟨c, c0, hcv⟩ := (C05_isParallel_iff _ _ (hv.edge_ne e)).1 h.parallel
      rw [hcv]
      exact smul_ne c0 (hv.edge_ne e)
    obtain ⟨τ, τ0, hend, hopen⟩ := along_end hv h.parallel (.inr h.point)
    refine ⟨τ, τ0, ⟨_, by rw [hend]; exact exit_edge hv h.lt hne τ0 hend hopen⟩, fun r => ?_⟩
    obtain ⟨c, c0, hcv⟩ := (C05_isParallel_iff _ _ (hv.edge_ne e)).1 h.parallel
    have hτc : τ * c = 1 := by
      have h2 : p.edge e = (τ * c) • p.edge e := by
        rw [h.point, hcv, smul_smul] at hend
        conv_lhs => rw [show p.edge e = p.vertex (e + 1) - p.vertex e from rfl, ← hend, add_sub_cancel_left]
      have h1 : (τ * c - 1) • p.edge e = 0 := by rw [sub_smul, one_smul, ← h2, sub_self]
      linarith [smul_zero_of_ne (hv.edge_ne e) h1]
    have hturn : ∀ i, 0 < ccw (p.edge i) (p.edge (i + 1)) := by
      intro i
      refine lt_of_le_of_ne ?_ (hc.2 i).symm
      have h1 := hc.1 i (i + 1 + 1)
      have h2 : ccw (p.edge i) (p.vertex (i + 1 + 1) - p.vertex i) = ccw (p.edge i) (p.edge (i + 1)) := by
        simp only [edge, ccw, Prod.fst_sub, Prod.snd_sub]
        ring
      rwa [h2] at h1
    have hn : 0 < p.length := by have := hv.len3; omega
    rw [hout, h.point, hcv]
    constructor
    · intro hr
      constructor
      · have h1 := hr (e + (p.length - 1))
        have h2 := hturn (e + (p.length - 1))
        have e1 : p.vertex (e + (p.length - 1) + 1) = p.vertex e := by
          rw [← vertex_mod, show e + (p.length - 1) + 1 = e + p.length by omega, Nat.add_mod_right, vertex_mod]
        have e2 : p.edge (e + (p.length - 1) + 1) = p.edge e := by
          rw [← edge_mod, show e + (p.length - 1) + 1 = e + p.length by omega, Nat.add_mod_right, edge_mod]
        have h3 : p.left (p.vertex e) (e + (p.length - 1)) = 0 := by
          unfold left
          rw [← e1, show p.vertex (e + (p.length - 1) + 1) - p.vertex (e + (p.length - 1)) = p.edge (e + (p.length - 1)) from rfl]
          unfold ccw; ring
        rw [e2] at h2
        rw [smul_smul, left_line, h3, zero_add] at h1
        have := nonneg_of_mul_nonneg_left h1 h2
        exact nonneg_of_mul_nonneg_left this c0
      · have h1 := hr (e + 1)
        have h2 := hturn e
        have h3 : p.left (p.vertex e) (e + 1) = ccw (p.edge e) (p.edge (e + 1)) := by
          simp only [left, edge, ccw, Prod.fst_sub, Prod.snd_sub]
          ring
        have h4 : ccw (p.edge (e + 1)) (p.edge e) = -ccw (p.edge e) (p.edge (e + 1)) := by unfold ccw; ring
        rw [smul_smul, left_line, h3, h4] at h1
        by_contra hneg
        push Not at hneg
        have : 1 < r * c := by rw [← hτc]; exact mul_lt_mul_of_pos_right hneg c0
        nlinarith
    · rintro ⟨r0, r1⟩ k
      refine hc.1.side_left (i := e) ⟨r * c, mul_nonneg r0 c0.le, ?_, by rw [smul_smul]; rfl⟩ k
      rw [← hτc]
      exact mul_le_mul_of_nonneg_right r1 c0.le

variable [DecidableEq L]

/-- The point in which two segments of the same polygon cross. -/
theorem crossing_iff (hS : S.Bordered valid) {s t : Seg L K} (hs : S.IsSeg valid s) (ht : S.IsSeg valid t) (hl : s.start.label = t.start.label)
    {p : Poly K} (hp : S.polygon s.start.label = .ok p) (hc : p.StrictlyConvex) {fuel : ℕ} {count : Bool} (P : Finset (L × Vec K)) :
    S.crossing fuel count s t = .ok (some P) ↔ ∃ x, S.OnSegment s x ∧ S.OnSegment t x ∧ ccw s.start.vector t.start.vector ≠ 0 ∧
      (count = true ∨ ¬ S.AtVertex x) ∧ S.surfacePoint fuel x = .ok P := by
  have hv : p.Valid := hS.valid_of_polygon (isSeg_tangent hS hs).1 hp
  have hp' : S.polygon t.start.label = .ok p := hl ▸ hp
  obtain ⟨c1, c2⟩ := C08_lineIntersection s.start.point (s.start.point + s.start.vector) t.start.point (t.start.point + t.start.vector)
  simp only [add_sub_cancel_left] at c1 c2
  unfold crossing
  cases hx : lineIntersection s.start.point (s.start.point + s.start.vector) t.start.point (t.start.point + t.start.vector) with
  | none =>
    have := c1.1 hx
    simp [this, pure, Except.pure]
  | some x =>
    have hne : ccw s.start.vector t.start.vector ≠ 0 := fun h => by rw [c1.2 h] at hx; cases hx
    obtain ⟨k1, k2, k3⟩ := c2 x hx
    simp only [hp, bind, Except.bind, pure, Except.pure]
    have hat : S.AtVertex (s.start.label, x) ↔ (p.pointPosition x).isVertex = true := atVertex_iff (x := (s.start.label, x)) hp hv
    have hon : S.OnSegment s (s.start.label, x) ↔ p.pointPosition x ≠ .outside := by
      rw [onSegment_iff hS hs hp hc]; simp [k1]
    have hon' : S.OnSegment t (s.start.label, x) ↔ p.pointPosition x ≠ .outside := by
      rw [onSegment_iff hS ht hp' hc]; simp [k2, hl]
    have hin : (p.pointPosition x).isInside = true ↔ p.pointPosition x ≠ .outside := by
      cases p.pointPosition x <;> simp [Position.isInside]
    have honly : ∀ y, S.OnSegment s y → S.OnSegment t y → y = (s.start.label, x) := by
      intro y h1 h2
      obtain ⟨a1, a2, -⟩ := (onSegment_iff hS hs hp hc y).1 h1
      obtain ⟨-, b2, -⟩ := (onSegment_iff hS ht hp' hc y).1 h2
      exact Prod.ext a1 (k3 y.2 a2 b2)
    by_cases hcond : ((p.pointPosition x).isInside && (count || !(p.pointPosition x).isVertex)) = true
    · rw [if_pos hcond]
      rw [Bool.and_eq_true, Bool.or_eq_true, hin] at hcond
      obtain ⟨h1, h2⟩ := hcond
      have h2' : count = true ∨ ¬ S.AtVertex (s.start.label, x) := by
        rw [hat]; simpa using h2
      constructor
      · intro h
        refine ⟨(s.start.label, x), hon.2 h1, hon'.2 h1, hne, h2', ?_⟩
        cases hsp : S.surfacePoint fuel (s.start.label, x) with
        | error e => rw [hsp] at h; cases h
        | ok r => rw [hsp] at h; simp only at h; injection h with h; injection h with h; rw [h]
      · rintro ⟨y, h3, h4, -, -, h5⟩
        rw [honly y h3 h4] at h5
        rw [h5]
    · rw [if_neg hcond]
      constructor
      · intro h; cases h
      · rintro ⟨y, h3, h4, -, h5, -⟩
        have := honly y h3 h4
        subst this
        refine absurd ?_ hcond
        rw [Bool.and_eq_true, Bool.or_eq_true, hin]
        refine ⟨hon.1 h3, ?_⟩
        rw [hat] at h5
        simpa using h5

/-- The body of the loop ends normally on surfaces with finitely many edges. -/
theorem crossing_ok (hS : S.Bordered valid) {s t : Seg L K} (hs : S.IsSeg valid s) {ds : List (L × ℕ)} (hds : ∀ d, S.IsDart valid d → d ∈ ds)
    {fuel : ℕ} (hf : ds.length + 1 < fuel) (count : Bool) : ∃ o, S.crossing fuel count s t = .ok o := by
  obtain ⟨p, hp, hv, -⟩ := isTangent_data hS (isSeg_tangent hS hs)
  unfold crossing
  cases lineIntersection s.start.point (s.start.point + s.start.vector) t.start.point (t.start.point + t.start.vector) with
  | none => exact ⟨none, rfl⟩
  | some x =>
    simp only [hp, bind, Except.bind, pure, Except.pure]
    by_cases hcond : ((p.pointPosition x).isInside && (count || !(p.pointPosition x).isVertex)) = true
    · rw [if_pos hcond]
      rw [Bool.and_eq_true] at hcond
      obtain ⟨r, hr⟩ := (C33_defined hS hds (x := (s.start.label, x)) (isSeg_tangent hS hs).1 hp hf).2 (by
        intro h; dsimp only at h; rw [h] at hcond; cases hcond.1)
      rw [hr]
      exact ⟨_, rfl⟩
    · rw [if_neg hcond]; exact ⟨_, rfl⟩

/-- **C85.** On a surface made of strictly convex polygons, `intersections` yields each point once, and it yields exactly the points in which a
segment of one trajectory and a segment of the other, in the same polygon and not parallel to each other, meet; vertices only if singularities are
to be counted. -/
theorem C85_intersections (hS : S.Bordered valid) (hc : ∀ l p, valid l → S.polygon l = .ok p → p.StrictlyConvex) {a b : List (Seg L K)}
    (ha : ∀ s ∈ a, S.IsSeg valid s) (hb : ∀ s ∈ b, S.IsSeg valid s) {fuel : ℕ} {count : Bool} {R : List (Finset (L × Vec K))}
    (h : S.intersections fuel count a b = .ok R) :
    R.Nodup ∧ ∀ P, P ∈ R ↔ ∃ s ∈ a, ∃ t ∈ b, ∃ x, S.OnSegment s x ∧ S.OnSegment t x ∧ ccw s.start.vector t.start.vector ≠ 0 ∧
      (count = true ∨ ¬ S.AtVertex x) ∧ S.surfacePoint fuel x = .ok P := by
  obtain ⟨h1, h2⟩ := crossingLoop_spec _ _ h
  refine ⟨h1 List.nodup_nil, fun P => ?_⟩
  rw [h2]
  simp only [List.not_mem_nil, false_or]
  constructor
  · rintro ⟨s, t, hst, h3⟩
    obtain ⟨hs, ht, hl⟩ := (mem_segmentPairs a b s t).1 hst
    obtain ⟨p, hp, hv, -⟩ := isTangent_data hS (isSeg_tangent hS (ha s hs))
    exact ⟨s, hs, t, ht, (crossing_iff hS (ha s hs) (hb t ht) hl hp (hc _ _ (isSeg_tangent hS (ha s hs)).1 hp) P).1 h3⟩
  · rintro ⟨s, hs, t, ht, x, h3⟩
    have hl : s.start.label = t.start.label := h3.1.1.symm.trans h3.2.1.1
    obtain ⟨p, hp, hv, -⟩ := isTangent_data hS (isSeg_tangent hS (ha s hs))
    exact ⟨s, t, (mem_segmentPairs a b s t).2 ⟨hs, ht, hl⟩,
      (crossing_iff hS (ha s hs) (hb t ht) hl hp (hc _ _ (isSeg_tangent hS (ha s hs)).1 hp) P).2 ⟨x, h3⟩⟩

/-- **C85.** On surfaces with finitely many edges `intersections` ends normally, `intersects` tells whether it yields something, and with
`include_segments` each point comes with the segments that cross in it. -/
theorem C85_defined (hS : S.Bordered valid) {a b : List (Seg L K)}
    (ha : ∀ s ∈ a, S.IsSeg valid s) {ds : List (L × ℕ)} (hds : ∀ d, S.IsDart valid d → d ∈ ds)
    {fuel : ℕ} (hf : ds.length + 1 < fuel) (count : Bool) :
    ∃ R, S.intersections fuel count a b = .ok R ∧ S.intersects fuel count a b = .ok (!R.isEmpty) := by
  have hall : ∀ s t, (s, t) ∈ segmentPairs a b → ∃ o, S.crossing fuel count s t = .ok o := fun s t hst =>
    crossing_ok hS (ha s ((mem_segmentPairs a b s t).1 hst).1) hds hf count
  obtain ⟨R, hR⟩ := crossingLoop_ok (segmentPairs a b) [] hall
  obtain ⟨c, hc, hc'⟩ := intersectsLoop_spec (segmentPairs a b) hall
  obtain ⟨-, h2⟩ := crossingLoop_spec _ _ hR
  refine ⟨R, hR, hc.trans ?_⟩
  congr 1
  rw [Bool.eq_iff_iff, hc', Bool.not_eq_true', List.isEmpty_eq_false_iff_exists_mem]
  constructor
  · rintro ⟨s, t, P, h⟩; exact ⟨P, (h2 P).2 (.inr ⟨s, t, h⟩)⟩
  · rintro ⟨P, hP⟩
    rcases (h2 P).1 hP with h | ⟨s, t, h⟩
    · cases h
    · exact ⟨s, t, P, h⟩

/-- **C85.** With `include_segments` the same points are yielded in the same order, each with the set of the segments of the first trajectory
that meet a segment of the second in it, and the other way round. -/
theorem C85_segments (hS : S.Bordered valid) (hc : ∀ l p, valid l → S.polygon l = .ok p → p.StrictlyConvex) {a b : List (Seg L K)}
    (ha : ∀ s ∈ a, S.IsSeg valid s) (hb : ∀ s ∈ b, S.IsSeg valid s) {fuel : ℕ} {count : Bool} {R : List (Finset (L × Vec K))}
    (h : S.intersections fuel count a b = .ok R) :
    ∃ Q, S.intersectionsWithSegments fuel count a b = .ok Q ∧ Q.map Prod.fst = R ∧ ∀ P A B, (P, A, B) ∈ Q →
      (∀ s, s ∈ A ↔ s ∈ a ∧ ∃ t ∈ b, ∃ x, S.OnSegment s x ∧ S.OnSegment t x ∧ ccw s.start.vector t.start.vector ≠ 0 ∧ S.surfacePoint fuel x = .ok P ∧
        (count = true ∨ ¬ S.AtVertex x)) ∧
      ∀ t, t ∈ B ↔ t ∈ b ∧ ∃ s ∈ a, ∃ x, S.OnSegment s x ∧ S.OnSegment t x ∧ ccw s.start.vector t.start.vector ≠ 0 ∧ S.surfacePoint fuel x = .ok P ∧
        (count = true ∨ ¬ S.AtVertex x) := by
  obtain ⟨Q, h1, h2, h3⟩ := crossingSegmentsLoop_spec (segmentPairs a b) [] [] List.nodup_nil (by simp) (by simp) h
  refine ⟨Q, h1, h2, fun P A B hP => ?_⟩
  have key : ∀ s t, ((s, t) ∈ [] ++ segmentPairs a b ∧ S.crossing fuel count s t = .ok (some P)) ↔
      (s ∈ a ∧ t ∈ b ∧ ∃ x, S.OnSegment s x ∧ S.OnSegment t x ∧ ccw s.start.vector t.start.vector ≠ 0 ∧ S.surfacePoint fuel x = .ok P ∧
        (count = true ∨ ¬ S.AtVertex x)) := by
    intro s t
    rw [List.nil_append, mem_segmentPairs]
    constructor
    · rintro ⟨⟨hs, ht, hl⟩, h4⟩
      obtain ⟨p, hp, hv, -⟩ := isTangent_data hS (isSeg_tangent hS (ha s hs))
      obtain ⟨x, x1, x2, x3, x4, x5⟩ := (crossing_iff hS (ha s hs) (hb t ht) hl hp (hc _ _ (isSeg_tangent hS (ha s hs)).1 hp) P).1 h4
      exact ⟨hs, ht, x, x1, x2, x3, x5, x4⟩
    · rintro ⟨hs, ht, x, x1, x2, x3, x5, x4⟩
      have hl : s.start.label = t.start.label := x1.1.symm.trans x2.1
      obtain ⟨p, hp, hv, -⟩ := isTangent_data hS (isSeg_tangent hS (ha s hs))
      exact ⟨⟨hs, ht, hl⟩, (crossing_iff hS (ha s hs) (hb t ht) hl hp (hc _ _ (isSeg_tangent hS (ha s hs)).1 hp) P).2 ⟨x, x1, x2, x3, x4, x5⟩⟩
  obtain ⟨h4, h5⟩ := h3 P A B hP
  constructor
  · intro s
    rw [h4]
    simp only [key]
    constructor
    · rintro ⟨t, hs, ht, h⟩; exact ⟨hs, t, ht, h⟩
    · rintro ⟨hs, t, ht, h⟩; exact ⟨t, hs, ht, h⟩
  · intro t
    rw [h5]
    simp only [key]
    constructor
    · rintro ⟨s, hs, ht, h⟩; exact ⟨ht, s, hs, h⟩
    · rintro ⟨ht, s, hs, h⟩; exact ⟨s, hs, ht, h⟩

/-! ### Closed trajectories and saddle connections -/

/-- The segment that follows a segment of a closed trajectory or a saddle connection, up to scaling. -/
theorem complete_next (hS : S.Closed valid) {x : Traj L K} (hx : S.IsTraj valid x) (hcomp : x.isClosed = true ∨ x.isSaddleConnection = true)
    {s : Seg L K} (hs : s ∈ x.segments) (hn : s.stop.singular = false) :
    ∃ t ∈ x.segments, ∃ f, ∃ c : K, 0 < c ∧ S.tvInvert s.stop = .ok f ∧ t.start = f.scale c := by
  have hB := hS.bordered
  obtain ⟨i, hi, rfl⟩ := List.getElem_of_mem hs
  by_cases hlast : i + 1 < x.segments.length
  · have hfol := List.isChain_iff_getElem.1 hx.chain i hlast
    exact ⟨_, List.getElem_mem hlast, _, 1, one_pos, hfol.2, by simp [TVec.scale]⟩
  · have hgl : x.segments.getLast? = some x.segments[i] := by
      rw [List.getLast?_eq_getElem?, show x.segments.length - 1 = i by omega, List.getElem?_eq_getElem hi]
    obtain ⟨first, hfirst, -⟩ := hx.backward
    have hfm := List.mem_of_head? hfirst
    rcases hcomp with h | h
    · obtain ⟨c, c0, hc⟩ := (C67_closed hS hx hfirst hgl).1 h
      obtain ⟨s', h1, -, h3, -⟩ := (C67_next hS (hx.seg _ hs)).2 hn
      rw [hc] at h1
      injection h1 with h1
      refine ⟨first, hfm, s'.start, c⁻¹, inv_pos.2 c0, h3, ?_⟩
      have := scale_symm c0 h1.symm
      rw [this]; rfl
    · obtain ⟨-, j, hj⟩ := (C67_saddle_connection hS hx hfirst hgl).1 h
      rw [singular_iff.2 ⟨j, hj⟩] at hn
      cases hn

/-- The segment before a segment of a closed trajectory or a saddle connection, up to scaling. -/
theorem complete_prev (hS : S.Closed valid) {x : Traj L K} (hx : S.IsTraj valid x) (hcomp : x.isClosed = true ∨ x.isSaddleConnection = true)
    {s : Seg L K} (hs : s ∈ x.segments) (hn : s.start.singular = false) :
    ∃ t ∈ x.segments, ∃ f, ∃ c : K, 0 < c ∧ S.tvInvert s.start = .ok f ∧ t.stop = f.scale c := by
  have hB := hS.bordered
  obtain ⟨i, hi, rfl⟩ := List.getElem_of_mem hs
  by_cases hfst : i = 0
  · subst hfst
    have hhead : x.segments.head? = some x.segments[0] := by
      rw [List.head?_eq_getElem?, List.getElem?_eq_getElem hi]
    obtain ⟨last, hlast, -⟩ := hx.forward
    have hlm := List.mem_of_getLast? hlast
    rcases hcomp with h | h
    · obtain ⟨c, c0, hc⟩ := (C67_closed hS hx hhead hlast).1 h
      have hns : last.stop.singular = false := by
        rw [← Bool.not_eq_true]
        intro h2
        rw [(C67_next hS (hx.seg _ hlm)).1 h2] at hc
        cases hc
      obtain ⟨s', h1, h2, h3, h4⟩ := (C67_next hS (hx.seg _ hlm)).2 hns
      rw [hc] at h1
      injection h1 with h1
      have hfol : S.Follows last s' := ⟨hns, h3⟩
      have hback := follows_back hS (hx.seg _ hlm) h2 hfol
      obtain ⟨u, u1, u2, u3, u4, u5⟩ := isSeg_next hS (isSeg_invert hB (hx.seg _ hs)) hn
      have hinv : x.segments[0].invert = s'.invert.scale c⁻¹ := by
        have := scale_symm c0 h1.symm
        rw [this]; rfl
      have hu := follows_scale hS (isSeg_invert hB h2) (isSeg_invert hB (hx.seg _ hlm)) u3 hback ⟨hn, u1⟩ (inv_pos.2 c0) hinv
      refine ⟨last, hlm, u.start, c, c0, u1, ?_⟩
      rw [hu]
      show last.stop = (last.stop.scale c⁻¹).scale c
      simp [TVec.scale, smul_smul, mul_inv_cancel₀ c0.ne']
    · obtain ⟨⟨j, hj⟩, -⟩ := (C67_saddle_connection hS hx hhead hlast).1 h
      rw [singular_iff.2 ⟨j, hj⟩] at hn
      cases hn
  · obtain ⟨k, rfl⟩ := Nat.exists_eq_succ_of_ne_zero hfst
    have hfol := List.isChain_iff_getElem.1 hx.chain k hi
    have hk : k < x.segments.length := by omega
    obtain ⟨s', h1, h2, h3, h4⟩ := (C67_next hS (hx.seg _ (List.getElem_mem hk))).2 hfol.1
    rw [hfol.2] at h3
    injection h3 with h3
    rw [← h3] at h4
    exact ⟨_, List.getElem_mem hk, _, 1, one_pos, h4, by simp [TVec.scale]⟩

/-- Two segments cross at a point of the surface: they run through the point in the same polygon in directions that are not parallel, or in two
polygons that are glued along the edge with the point, such that the similarity of the gluing does not make their directions parallel. -/
def CrossAt (S : RSurf L K) (s t : Seg L K) (P : Finset (L × Vec K)) : Prop :=
  ∃ x y, x ∈ P ∧ y ∈ P ∧ S.OnSegment s x ∧ S.OnSegment t y ∧ ((x = y ∧ ccw s.start.vector t.start.vector ≠ 0) ∨
    ∃ p e e' g, S.polygon x.1 = .ok p ∧ x.2 ∈ p.openSide e ∧ S.GluesTo x.1 e y.1 e' g ∧ y.2 = g.call x.2 ∧
      ccw (g.derivative.mulVec s.start.vector) t.start.vector ≠ 0)

omit [DecidableEq L] in
theorem onSegment_start (hS : S.Bordered valid) {s : Seg L K} (h : S.IsSeg valid s) (hn : s.start.singular = false) :
    S.OnSegment s (s.start.label, s.start.point) := by
  rcases h with ⟨p, τ, h⟩ | ⟨p, p', e, e', g, h⟩
  · exact ⟨rfl, p, _, _, 0, h.polygon, exit_chord (hS.valid_of_polygon h.valid h.polygon) h.ne h.pos h.interior (h.stop ▸ h.side'), le_rfl, zero_le_one, by simp⟩
  · rw [singular_iff.2 ⟨e, h.position⟩] at hn; cases hn

omit [DecidableEq L] in
theorem onSegment_stop (hS : S.Bordered valid) {s : Seg L K} (h : S.IsSeg valid s) (hn : s.stop.singular = false) :
    S.OnSegment s (s.stop.label, s.stop.point) ∧ s.stop.vector = -s.start.vector := by
  rcases h with ⟨p, τ, h⟩ | ⟨p, p', e, e', g, h⟩
  · refine ⟨⟨h.label, p, _, _, 1, ?_, exit_chord (hS.valid_of_polygon h.valid h.polygon) h.ne h.pos h.interior (h.stop ▸ h.side'), zero_le_one, le_rfl, ?_⟩, h.vector⟩
    · dsimp only; rw [h.label]; exact h.polygon
    · dsimp only; rw [one_smul, add_sub_cancel, h.stop]
  · rw [singular_iff.2 ⟨e', h.position'⟩] at hn; cases hn

omit [DecidableEq L] in
/-- The similarity of a gluing of arrows at a point inside of an edge. -/
theorem tvGlue_gluesTo (hS : S.Bordered valid) {x y : Arrow L K} (h : S.TVGlue valid x y) {p : Poly K} (hp : S.polygon x.1 = .ok p) {e : ℕ}
    (he : e < p.length) (hx : x.2.1 ∈ p.openSide e) {l' : L} {e' : ℕ} {g : Similarity K} (hg : S.GluesTo x.1 e l' e' g) :
    y.1 = l' ∧ y.2.1 = g.call x.2.1 ∧ y.2.2 = g.derivative.mulVec x.2.2 := by
  obtain ⟨q, q', k, k', g', hl, hq, hk, ho, hq', hg', hs, g1, g2, hne, hy1, hy2, hpos⟩ := h
  rw [hp] at hq; injection hq with hq; subst hq
  have hv := hS.valid_of_polygon hl hp
  have hn : 0 < p.length := by omega
  have hek : e = k := by
    have hside : x.2.1 ∈ p.side k := by
      rcases hpos with h | h | h
      · obtain ⟨t, t0, t1, ht⟩ := h
        exact ⟨t, t0.le, t1.le, ht⟩
      · exact ⟨0, le_rfl, zero_le_one, by simpa using h.1⟩
      · exact ⟨1, zero_le_one, le_rfl, by simpa using h.1⟩
    have := hv.openSide_unique hx hside
    rwa [Nat.mod_eq_of_lt he, Nat.mod_eq_of_lt hk] at this
  subst hek
  obtain ⟨e1, -, rfl⟩ := glueTo_ext hS hl hg (⟨ho, hg', hs, p, q', hp, hq', hk, g1, g2⟩ : S.GluesTo x.1 e y.1 k' g')
  exact ⟨e1, hy1, by rw [hy2, Similarity.call_add hs]⟩

/-- A chord of a closed trajectory or saddle connection goes on over the edge at which it starts or ends. -/
theorem complete_over (hS : S.Closed valid) {x : Traj L K} (hx : S.IsTraj valid x) (hcomp : x.isClosed = true ∨ x.isSaddleConnection = true)
    {s : Seg L K} (hs : s ∈ x.segments) {p : Poly K} {τ : K} (hch : S.IsChord valid s p τ) {z : L × Vec K} (hz : S.OnSegment s z)
    {e : ℕ} (he : e < p.length) (hopen : z.2 ∈ p.openSide e) {l' : L} {e' : ℕ} {g : Similarity K} (hg : S.GluesTo z.1 e l' e' g) :
    ∃ t ∈ x.segments, S.OnSegment t (l', g.call z.2) ∧ ∃ c : K, 0 < c ∧ t.start.vector = c • g.derivative.mulVec s.start.vector := by
  have hB := hS.bordered
  have hv := hB.valid_of_polygon hch.valid hch.polygon
  have hseg := hx.seg s hs
  obtain ⟨hl, q, y, o, r, hq, hy, r0, r1, hz2⟩ := hz
  obtain ⟨l, z⟩ := z
  dsimp only at hl hq hz2 hopen hg ⊢
  subst hl
  rw [hch.polygon] at hq; injection hq with hq; subst hq
  rw [exit_chord hv hch.ne hch.pos hch.interior (hch.stop ▸ hch.side')] at hy
  injection hy with hy
  injection hy with hy _
  subst hy
  rw [add_sub_cancel_left, smul_smul] at hz2
  have hpos : p.pointPosition z = .edgeInterior e := (C12_edge hv _ e).2 ⟨he, hopen⟩
  have τ0 := hch.pos
  have hends : z = s.start.point ∨ z = s.stop.point := by
    rcases eq_or_lt_of_le r0 with h0 | h0
    · left; rw [hz2, ← h0]; simp
    · rcases eq_or_lt_of_le r1 with h1 | h1
      · right; rw [hz2, h1, one_mul, hch.stop]
      · have := hch.interior (r * τ) (mul_pos h0 τ0) (by nlinarith)
        rw [← hz2, hpos] at this
        cases this
  -- the vector at the end points into the polygon
  rcases hends with hend | hend
  · have hposs : s.start.position = .edgeInterior e := by rw [hch.position, ← hend, hpos]
    have hns : s.start.singular = false := by rw [← Bool.not_eq_true, singular_iff, hposs]; simp
    obtain ⟨k, q, hq, -, hk, hccw, -⟩ := isSeg_start hB hseg hns
    rw [hch.polygon] at hq; injection hq with hq; subst hq
    rw [hposs] at hk; injection hk with hk; subst hk
    obtain ⟨f, p', e2, h1, -, -, -, hfpos, -, -, hglue⟩ := cross hS (C67_ends hB hseg).1 hch.polygon hposs hccw
    obtain ⟨t, ht, f', c, c0, h2, h3⟩ := complete_prev hS hx hcomp hs hns
    rw [h1] at h2; injection h2 with h2; subst h2
    obtain ⟨k1, k2, k3⟩ := tvGlue_gluesTo hB hglue hch.polygon he (by rw [← hend]; exact hopen) hg
    dsimp only at k1 k2 k3
    have htn : t.stop.singular = false := by
      rw [h3, ← Bool.not_eq_true, singular_iff]
      show ¬ ∃ i, f.position = _
      rw [hfpos]; simp
    obtain ⟨m1, m2⟩ := onSegment_stop hB (hx.seg t ht) htn
    refine ⟨t, ht, ?_, c, c0, ?_⟩
    · rw [h3] at m1
      rw [hend, ← k2, ← k1]
      exact m1
    · rw [h3] at m2
      have : c • f.vector = -t.start.vector := m2
      rw [k3, Similarity.derivative_neg, smul_neg] at this
      exact (neg_injective this).symm
  · have hposs : s.stop.position = .edgeInterior e := by rw [hch.position', ← hend, hpos]
    have hns : s.stop.singular = false := by rw [← Bool.not_eq_true, singular_iff, hposs]; simp
    obtain ⟨k, q, hq, -, hk, hccw, -⟩ := isSeg_start hB (isSeg_invert hB hseg) hns
    have hq' : S.polygon s.start.label = .ok q := by rw [← hch.label]; exact hq
    rw [hch.polygon] at hq'; injection hq' with hq'; subst hq'
    have hk : s.stop.position = .edgeInterior k := hk
    rw [hposs] at hk; injection hk with hk; subst hk
    obtain ⟨f, p', e2, h1, -, -, -, hfpos, -, -, hglue⟩ := cross hS (C67_ends hB hseg).2 hq hposs hccw
    obtain ⟨t, ht, f', c, c0, h2, h3⟩ := complete_next hS hx hcomp hs hns
    rw [h1] at h2; injection h2 with h2; subst h2
    obtain ⟨k1, k2, k3⟩ := tvGlue_gluesTo hB hglue hq he (by rw [← hend]; exact hopen) (show S.GluesTo s.stop.label e l' e' g by rw [hch.label]; exact hg)
    dsimp only at k1 k2 k3
    have htn : t.start.singular = false := by
      rw [h3, ← Bool.not_eq_true, singular_iff]
      show ¬ ∃ i, f.position = _
      rw [hfpos]; simp
    have m1 := onSegment_start hB (hx.seg t ht) htn
    refine ⟨t, ht, ?_, c, c0, ?_⟩
    · rw [h3] at m1
      rw [hend, ← k2, ← k1]
      exact m1
    · rw [h3]
      show c • f.vector = _
      rw [k3, hch.vector, neg_neg]

/-- A point that is not a vertex and not outside of its polygon is a point of the surface. -/
theorem surfacePoint_ok (hS : S.Bordered valid) {x : L × Vec K} (hl : valid x.1) {p : Poly K} (hp : S.polygon x.1 = .ok p)
    (hout : p.pointPosition x.2 ≠ .outside) (hn : ¬ S.AtVertex x) (fuel : ℕ) : ∃ r, S.surfacePoint fuel x = .ok r := by
  have hv := hS.valid_of_polygon hl hp
  rw [atVertex_iff hp hv] at hn
  unfold surfacePoint
  simp only [hp, bind, Except.bind, pure, Except.pure]
  cases hpos : p.pointPosition x.2 with
  | outside => exact absurd hpos hout
  | interior => exact ⟨_, rfl⟩
  | vertex i => rw [hpos] at hn; exact absurd rfl hn
  | edgeInterior e =>
    have he := ((C12_edge hv _ e).1 hpos).1
    rcases hS.glue x.1 p e hl hp he with h | ⟨l', e', p', h, hl', hp', he', -⟩
    · simp only [h]; exact ⟨_, rfl⟩
    · obtain ⟨g, hg, -⟩ := edgeTransformation_ok h hp hp' (hv.edge_ne e) ((hS.valid_of_polygon hl' hp').edge_ne e')
      simp only [h, hg]
      exact ⟨_, rfl⟩

theorem surfacePoint_of_mem (hS : S.Bordered valid) {z x : L × Vec K} (hz : valid z.1) {fuel : ℕ} {P : Finset (L × Vec K)} (h : S.surfacePoint fuel z = .ok P)
    (hx : x ∈ P) (hl : valid x.1) {p : Poly K} (hp : S.polygon x.1 = .ok p) (hout : p.pointPosition x.2 ≠ .outside) (hn : ¬ S.AtVertex x) :
    S.surfacePoint fuel x = .ok P := by
  obtain ⟨r, hr⟩ := surfacePoint_ok hS hl hp hout hn fuel
  rw [hr, (C33_eq_iff hS hz hl h hr).2 ((C33_representatives hS hz h x).1 hx)]

omit [DecidableEq L] in
/-- The edge along which a segment runs. -/
theorem along_edge (hS : S.Bordered valid) {s : Seg L K} {p p' : Poly K} {k k' : ℕ} {g : Similarity K} (hal : S.IsAlong valid s p p' k k' g)
    {x : L × Vec K} (hx : S.OnSegment s x) {e : ℕ} (he : e < p.length) (hopen : x.2 ∈ p.openSide e) : k = e := by
  have hv := hS.valid_of_polygon hal.valid hal.polygon
  obtain ⟨hl, q, y0, o, r, hq, hy0, r0, r1, hz2⟩ := hx
  rw [hl, hal.polygon] at hq; injection hq with hq; subst hq
  have hne : s.start.vector ≠ 0 := by
    obtain ⟨c, c0, hcv⟩ := (C05_isParallel_iff _ _ (hv.edge_ne k)).1 hal.parallel
    rw [hcv]
    exact smul_ne c0 (hv.edge_ne k)
  obtain ⟨τ, τ0, hend, hop⟩ := along_end hv hal.parallel (.inr hal.point)
  rw [exit_edge hv hal.lt hne τ0 hend hop] at hy0
  injection hy0 with hy0
  injection hy0 with hy0 _
  have hside : x.2 ∈ p.side k := ⟨r, r0, r1, by rw [hz2, ← hy0, hal.point]⟩
  have := hv.openSide_unique hopen hside
  rw [Nat.mod_eq_of_lt he, Nat.mod_eq_of_lt hal.lt] at this
  exact this.symm

/-- **C85.** Away from the vertices, and for closed trajectories and saddle connections on a surface made of strictly convex polygons,
`intersections` yields exactly the points of the surface at which the two trajectories cross. -/
theorem C85_complete_partial (hS : S.Closed valid) (hc : ∀ l p, valid l → S.polygon l = .ok p → p.StrictlyConvex) {a b : Traj L K}
    (ha : S.IsTraj valid a) (hb : S.IsTraj valid b) (hca : a.isClosed = true ∨ a.isSaddleConnection = true)
    (hcb : b.isClosed = true ∨ b.isSaddleConnection = true) {fuel : ℕ} {count : Bool} {R : List (Finset (L × Vec K))}
    (h : S.intersections fuel count a.segments b.segments = .ok R) {P : Finset (L × Vec K)} {z : L × Vec K} (hz : valid z.1)
    (hP : S.surfacePoint fuel z = .ok P) (hnv : ∀ x ∈ P, ¬ S.AtVertex x) :
    P ∈ R ↔ ∃ s ∈ a.segments, ∃ t ∈ b.segments, S.CrossAt s t P := by
  have hB := hS.bordered
  obtain ⟨-, hR⟩ := C85_intersections hB hc ha.seg hb.seg h
  rw [hR]
  have hsame : ∀ s ∈ a.segments, ∀ t ∈ b.segments, ∀ x ∈ P, S.OnSegment s x → S.OnSegment t x → ccw s.start.vector t.start.vector ≠ 0 →
      ∃ s ∈ a.segments, ∃ t ∈ b.segments, ∃ x, S.OnSegment s x ∧ S.OnSegment t x ∧ ccw s.start.vector t.start.vector ≠ 0 ∧
        (count = true ∨ ¬ S.AtVertex x) ∧ S.surfacePoint fuel x = .ok P := by
    intro s hs t ht x hx h1 h2 h3
    obtain ⟨hl, p, hp⟩ : valid x.1 ∧ ∃ p, S.polygon x.1 = .ok p := by
      obtain ⟨p, hp, -⟩ := isTangent_data hB (isSeg_tangent hB (ha.seg s hs))
      rw [h1.1]
      exact ⟨(isSeg_tangent hB (ha.seg s hs)).1, p, hp⟩
    have hout := ((onSegment_iff hB (ha.seg s hs) (by rw [← h1.1]; exact hp) (hc _ _ hl hp) x).1 h1).2.2
    exact ⟨s, hs, t, ht, x, h1, h2, h3, .inr (hnv x hx), surfacePoint_of_mem hB hz hP hx hl hp hout (hnv x hx)⟩
  constructor
  · rintro ⟨s, hs, t, ht, x, h1, h2, h3, -, h5⟩
    have hl : valid x.1 := by rw [h1.1]; exact (isSeg_tangent hB (ha.seg s hs)).1
    have hx : x ∈ P := (C33_representatives hB hl h5 x).2 (.refl _)
    exact ⟨s, hs, t, ht, x, x, hx, hx, h1, h2, .inl ⟨rfl, h3⟩⟩
  · rintro ⟨s, hs, t, ht, x, y, hx, hy, h1, h2, ⟨rfl, h3⟩ | ⟨p, e, e', g, hp, hopen, hg, hyx, h3⟩⟩
    · exact hsame s hs t ht x hx h1 h2 h3
    · obtain ⟨ho, hwf, hsg, q, q', hq, hq', he, g1, g2⟩ := id hg
      rw [hp] at hq; injection hq with hq; subst hq
      have hl : valid x.1 := by rw [h1.1]; exact (isSeg_tangent hB (ha.seg s hs)).1
      have hv := hB.valid_of_polygon hl hp
      rcases ha.seg s hs with ⟨r, τ, hch⟩ | ⟨r, r', k, k', g', hal⟩
      · have hr := hch.polygon
        rw [← h1.1, hp] at hr; injection hr with hr; subst hr
        obtain ⟨s2, hs2, k1, c, c0, k2⟩ := complete_over hS ha hca hs hch h1 he hopen hg
        rw [← hyx] at k1
        refine hsame s2 hs2 t ht y hy k1 h2 ?_
        rw [k2]
        intro h0
        apply h3
        rw [show ccw (c • g.derivative.mulVec s.start.vector) t.start.vector = c * ccw (g.derivative.mulVec s.start.vector) t.start.vector by
          simp only [ccw, Prod.smul_fst, Prod.smul_snd, smul_eq_mul]; ring] at h0
        exact (mul_eq_zero.1 h0).resolve_left c0.ne'
      · -- the first segment runs along the edge
        have hr := hal.polygon
        rw [← h1.1, hp] at hr; injection hr with hr; subst hr
        have hek : k = e := along_edge hB hal h1 he hopen
        subst hek
        obtain ⟨c1, -, hcv⟩ := (C05_isParallel_iff _ _ (hv.edge_ne k)).1 hal.parallel
        obtain ⟨hback, hl'⟩ := gluesTo_symm hB hl hg
        obtain ⟨-, -, -, u, u', hu, hu', he', -⟩ := id hback
        rw [hq'] at hu; injection hu with hu; subst hu
        have hv' := hB.valid_of_polygon hl' hq'
        have hopen' : y.2 ∈ q'.openSide e' := by rw [hyx]; exact call_openSide hsg g1 g2 hopen
        have hde := derivative_edge hsg g1 g2
        have hinv : ∀ w, g.inv.call (g.call w) = w := fun w => inv_call hwf hsg rfl
        rcases hb.seg t ht with ⟨r, τ, hch⟩ | ⟨r, r', m, m', g', hal'⟩
        · have hr := hch.polygon
          rw [← h2.1, hq'] at hr; injection hr with hr; subst hr
          obtain ⟨t2, ht2, k1, c, c0, k2⟩ := complete_over hS hb hcb ht hch h2 he' hopen' hback
          rw [hyx, hinv] at k1
          refine hsame s hs t2 ht2 x hx h1 k1 ?_
          rw [k2]
          intro h0
          apply h3
          have hd : g.derivative.mulVec (g.inv.derivative.mulVec t.start.vector) = t.start.vector := by
            have hsi : g.inv.sign = 1 := by simp [Similarity.inv, hsg]
            have hci : ∀ w, g.call (g.inv.call w) = w := by
              intro w
              rw [← call_mul' _ _ hsg hsi, Similarity.C01_mul_inv g hwf]
              simp [Similarity.one, Similarity.call]
            rw [← Similarity.call_add hsi 0, ← Similarity.call_add hsg (g.inv.call 0), add_sub_cancel, hci, hci, zero_add, sub_zero]
          rw [← hd, Similarity.ccw_derivative hsg]
          rw [show ccw s.start.vector (c • g.inv.derivative.mulVec t.start.vector) = c * ccw s.start.vector (g.inv.derivative.mulVec t.start.vector) by
            simp only [ccw, Prod.smul_fst, Prod.smul_snd, smul_eq_mul]; ring] at h0
          rw [(mul_eq_zero.1 h0).resolve_left c0.ne', mul_zero]
        · exfalso
          apply h3
          have hr := hal'.polygon
          rw [← h2.1, hq'] at hr; injection hr with hr; subst hr
          have hem := along_edge hB hal' h2 he' hopen'
          subst hem
          obtain ⟨c2, -, hcw⟩ := (C05_isParallel_iff _ _ (hv'.edge_ne m)).1 hal'.parallel
          have hlin : g.derivative.mulVec (c1 • p.edge k) = c1 • g.derivative.mulVec (p.edge k) := by
            unfold Mat2.mulVec
            ext <;> simp <;> ring
          rw [hcv, hcw, hlin, hde]
          simp only [ccw, Prod.smul_fst, Prod.smul_snd, smul_eq_mul, Prod.fst_neg, Prod.snd_neg]
          ring

end RSurf
end Flat
