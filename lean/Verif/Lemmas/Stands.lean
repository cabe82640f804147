import Verif.Lemmas.FlowExit
import Verif.Lemmas.CylinderHolonomy
import Verif.Model.TranslationTrajectory

/-!
# Triples that stand for segments of trajectories
-/

namespace Flat
namespace RSurf
open Poly
variable {L K : Type} [Field K] [LinearOrder K] [IsStrictOrderedRing K] {S : RSurf L K} {valid : L → Prop}

/-- The triple `(l, e, x)` stands for the segment in direction `v` through the inside of the polygon with label `l` that starts on edge `e`,
`x` to the right of the start of this edge, measured across `v`. -/
structure Stands (S : RSurf L K) (valid : L → Prop) (v : Vec K) (t : L × ℕ × K) (s : Seg L K) : Prop where
  label : s.start.label = t.1
  vector : s.start.vector = v
  chord : ∃ p τ, S.IsChord valid s p τ ∧ t.2.1 < p.length ∧ 0 < p.width v t.2.1 ∧ 0 ≤ t.2.2 ∧ t.2.2 < p.width v t.2.1 ∧
    s.start.point = p.botPoint v t.2.1 t.2.2

/-- No other vertex through which lines leave the polygon is between the end of the segment and the start of the edge on which the segment
starts. -/
def Clear (S : RSurf L K) (s : Seg L K) : Prop :=
  ∀ p e k, S.polygon s.start.label = .ok p → s.start.position = .edgeInterior e ∨ s.start.position = .vertex e → k < p.length →
    p.width s.start.vector k < 0 →
    ¬ (across s.start.vector (p.vertex e) < across s.start.vector (p.vertex (k + 1)) ∧
      across s.start.vector (p.vertex (k + 1)) < across s.start.vector s.start.point)

/-- No other vertex through which lines enter the polygon is between the start of the segment and the left end of the edge on which the
segment ends. -/
def ClearBack (S : RSurf L K) (s : Seg L K) : Prop :=
  ∀ p j k, S.polygon s.start.label = .ok p → s.stop.position = .edgeInterior j → k < p.length → 0 < p.width s.start.vector k →
    ¬ (across s.start.vector (p.vertex (j + 1)) < across s.start.vector (p.vertex k) ∧
      across s.start.vector (p.vertex k) < across s.start.vector s.start.point)

theorem botPoint_openSide {p : Poly K} {v : Vec K} {e : ℕ} {x : K} (hw : 0 < p.width v e) (x0 : 0 < x) (x1 : x < p.width v e) :
    p.botPoint v e x ∈ p.openSide e := ⟨_, div_pos x0 hw, (div_lt_one hw).2 x1, rfl⟩

theorem topPoint_openSide {p : Poly K} {v : Vec K} {e : ℕ} {x : K} (hw : p.width v e < 0) (x0 : 0 < x) (x1 : x < -p.width v e) :
    p.topPoint v e x ∈ p.openSide e := ⟨_, div_pos (by linarith) (by linarith), (div_lt_one (by linarith)).2 (by linarith), rfl⟩

omit [LinearOrder K] [IsStrictOrderedRing K] in
theorem botPoint_zero (p : Poly K) (v : Vec K) (e : ℕ) : p.botPoint v e 0 = p.vertex e := by
  unfold botPoint; simp

omit [LinearOrder K] [IsStrictOrderedRing K] in
theorem botPoint_width {p : Poly K} {v : Vec K} {e : ℕ} (h : p.width v e ≠ 0) : p.botPoint v e (p.width v e) = p.vertex (e + 1) := by
  unfold botPoint; rw [div_self h]; unfold edge; simp

omit [LinearOrder K] [IsStrictOrderedRing K] in
theorem topPoint_zero {p : Poly K} {v : Vec K} {e : ℕ} (h : p.width v e ≠ 0) : p.topPoint v e 0 = p.vertex (e + 1) := by
  unfold topPoint; rw [sub_zero, div_self (neg_ne_zero.2 h)]; unfold edge; simp

omit [LinearOrder K] [IsStrictOrderedRing K] in
theorem topPoint_width (p : Poly K) (v : Vec K) (e : ℕ) : p.topPoint v e (-p.width v e) = p.vertex e := by
  unfold topPoint; simp

theorem botPoint_side {p : Poly K} {v : Vec K} {e : ℕ} {x : K} (hw : 0 < p.width v e) (x0 : 0 ≤ x) (x1 : x ≤ p.width v e) :
    p.botPoint v e x ∈ p.side e := ⟨_, div_nonneg x0 hw.le, (div_le_one hw).2 x1, rfl⟩

/-- Positions on the boundary are found from the coordinate. -/
theorem botPoint_position {p : Poly K} (hv : p.Valid) {v : Vec K} {e : ℕ} {x : K} (he : e < p.length) (hw : 0 < p.width v e) (x0 : 0 ≤ x)
    (x1 : x ≤ p.width v e) :
    (x = 0 ∧ p.pointPosition (p.botPoint v e x) = .vertex e) ∨ (0 < x ∧ x < p.width v e ∧ p.pointPosition (p.botPoint v e x) = .edgeInterior e) ∨
      (x = p.width v e ∧ ∃ i, p.pointPosition (p.botPoint v e x) = .vertex i) := by
  rcases lt_or_eq_of_le x0 with h0 | h0
  · rcases lt_or_eq_of_le x1 with h1 | h1
    · exact .inr (.inl ⟨h0, h1, (C12_edge hv _ e).2 ⟨he, botPoint_openSide hw h0 h1⟩⟩)
    · refine .inr (.inr ⟨h1, (e + 1) % p.length, ?_⟩)
      rw [h1, botPoint_width hw.ne']
      exact (C12_vertex hv _ _).2 ⟨Nat.mod_lt _ (by omega), by rw [vertex_mod]⟩
  · refine .inl ⟨h0.symm, ?_⟩
    rw [← h0, botPoint_zero]
    exact (C12_vertex hv _ _).2 ⟨he, rfl⟩

theorem topPoint_position {p : Poly K} (hv : p.Valid) {v : Vec K} {e : ℕ} {x : K} (he : e < p.length) (hw : p.width v e < 0) (x0 : 0 ≤ x)
    (x1 : x ≤ -p.width v e) :
    (0 < x ∧ x < -p.width v e ∧ p.pointPosition (p.topPoint v e x) = .edgeInterior e) ∨
      ((x = 0 ∨ x = -p.width v e) ∧ ∃ i, p.pointPosition (p.topPoint v e x) = .vertex i) := by
  rcases lt_or_eq_of_le x0 with h0 | h0
  · rcases lt_or_eq_of_le x1 with h1 | h1
    · exact .inl ⟨h0, h1, (C12_edge hv _ e).2 ⟨he, topPoint_openSide hw h0 h1⟩⟩
    · refine .inr ⟨.inr h1, e, ?_⟩
      rw [h1, topPoint_width]
      exact (C12_vertex hv _ _).2 ⟨he, rfl⟩
  · refine .inr ⟨.inl h0.symm, (e + 1) % p.length, ?_⟩
    rw [← h0, topPoint_zero hw.ne]
    exact (C12_vertex hv _ _).2 ⟨Nat.mod_lt _ (by omega), by rw [vertex_mod]⟩

/-- Across a gluing of a translation surface, the coordinate stays the same. -/
theorem glue_topPoint {p p' : Poly K} {v : Vec K} {e e' : ℕ} {g : Similarity K} (hs : g.sign = 1) (hd : ∀ w, g.derivative.mulVec w = w)
    (g1 : g.call (p.vertex e) = p'.vertex (e' + 1)) (g2 : g.call (p.vertex (e + 1)) = p'.vertex e') :
    p'.edge e' = -p.edge e ∧ p'.width v e' = -p.width v e ∧ ∀ x, p.width v e ≠ 0 → g.call (p.topPoint v e x) = p'.botPoint v e' x := by
  have h1 : p'.edge e' = -p.edge e := by
    have := derivative_edge hs g1 g2
    rw [hd] at this
    rw [this, neg_neg]
  have h2 : p'.width v e' = -p.width v e := by unfold width; rw [h1]; unfold ccw; simp; ring
  refine ⟨h1, h2, fun x hx => ?_⟩
  unfold topPoint botPoint
  have hc : ∀ w, g.call (p.vertex e + w) = g.call (p.vertex e) + w := by
    intro w
    have := Similarity.call_add hs (p.vertex e) w
    rw [hd] at this
    exact sub_eq_iff_eq_add'.1 this
  rw [hc, g1, h1, h2, show p'.vertex (e' + 1) = p'.vertex e' + p'.edge e' by unfold edge; simp, h1]
  have : (-p.width v e - x) / -p.width v e = 1 - x / -p.width v e := by
    rw [sub_div, div_self (neg_ne_zero.2 hx)]
  rw [this, sub_smul, one_smul, smul_neg]
  abel

/-- The vertices through which a line goes through convex polygons. -/
theorem stands_stop (hS : S.Closed valid) (hc : S.AllConvex valid) {v : Vec K} {t : L × ℕ × K} {s : Seg L K} (h : S.Stands valid v t s) :
    ∃ p T left j y, S.polygon t.1 = .ok p ∧ p.Valid ∧ S.ttIet v t.1 = .ok T ∧ p.IsFlowMap v T left ∧ T.forwardImage t.2.1 t.2.2 = .ok (j, y) ∧ j < p.length ∧
      p.width v j < 0 ∧ 0 ≤ y ∧ y ≤ -p.width v j ∧ s.stop.point = p.topPoint v j y ∧
      ((0 < y ∧ y < -p.width v j ∧ s.stop.position = .edgeInterior j) ∨
        ((y = 0 ∨ y = -p.width v j) ∧ s.stop.singular = true ∧ (y = 0 ↔ S.Clear s))) := by
  obtain ⟨hl, hvec, p, τ, hch, he, hw, x0, x1, hpt⟩ := h
  have hv := hS.bordered.valid_of_polygon hch.valid hch.polygon
  have hcv := hc _ _ hch.valid hch.polygon
  have hne : v ≠ 0 := by rw [← hvec]; exact hch.ne
  obtain ⟨T, left, hT⟩ := flowMap_isFlowMap hv hcv hne
  have hp := hch.polygon
  rw [hl] at hp
  have hint := hch.interior
  have hside := hch.side'
  rw [hch.stop] at hside
  rw [hvec, hpt] at hint hside
  obtain ⟨j, y, k1, k2, k3, k4, k5, k6⟩ := forward_exit hv hcv hne hT he hw x0 x1.le hch.pos hint hside
  have hstop : s.stop.point = p.topPoint v j y := by rw [hch.stop, hvec, hpt, k6]
  refine ⟨p, T, left, j, y, hp, hv, ?_, hT, k1, k2, k3, k4, k5, hstop, ?_⟩
  · unfold ttIet
    rw [hp]
    exact hT.ok
  have hpos := hch.position'
  rw [hstop] at hpos
  rcases topPoint_position hv k2 k3 k4 k5 with ⟨m1, m2, m3⟩ | ⟨m1, i, m2⟩
  · exact .inl ⟨m1, m2, hpos.trans m3⟩
  · refine .inr ⟨m1, singular_iff.2 ⟨i, hpos.trans m2⟩, ?_⟩
    have hac : across v (p.vertex (j + 1)) + y = across v (p.vertex t.2.1) + t.2.2 := by
      rw [← across_topPoint k3.ne, ← k6, across_line, across_botPoint hw.ne']
    rw [forward_zero hT he hw x0 x1.le k1 k2 k3 k4 k5 hac m1]
    have hst := hch.position
    rw [hpt] at hst
    have hsv : across v s.start.point = across v (p.vertex t.2.1) + t.2.2 := by rw [hpt, across_botPoint hw.ne']
    have hon : ∀ e, (s.start.position = .edgeInterior e ∨ s.start.position = .vertex e) ↔ e = t.2.1 := by
      intro e
      rcases botPoint_position hv he hw x0 x1.le with ⟨-, q⟩ | ⟨-, -, q⟩ | ⟨q, -⟩
      · rw [hst, q]; simp [eq_comm]
      · rw [hst, q]; simp [eq_comm]
      · exact absurd q x1.ne
    unfold Clear
    rw [hvec, hsv]
    constructor
    · intro hall q e k hq hee hk
      rw [hl, hp] at hq; injection hq with hq; subst hq
      rw [hon] at hee; subst hee
      exact hall k hk
    · intro hall k hk
      exact hall p t.2.1 k hch.polygon ((hon _).2 rfl) hk

theorem ttNext_eq {v : Vec K} {t : L × ℕ × K} {T : FlowMap ℕ K} {j : ℕ} {y : K} {c : L × ℕ} (h1 : S.ttIet v t.1 = .ok T)
    (h2 : T.forwardImage t.2.1 t.2.2 = .ok (j, y)) (h3 : S.opp t.1 j = .ok (some c)) : S.ttNext v t = .ok (c.1, c.2, y) := by
  unfold ttNext
  simp only [h1, h2, opp!_ok h3, bind, Except.bind, pure, Except.pure]

theorem ttPrevious_eq {v : Vec K} {t : L × ℕ × K} {T : FlowMap ℕ K} {e : ℕ} {x : K} {c : L × ℕ} (h3 : S.opp t.1 t.2.1 = .ok (some c))
    (h1 : S.ttIet v c.1 = .ok T) (h2 : T.backwardImage c.2 t.2.2 = .ok (e, x)) : S.ttPrevious v t = .ok (c.1, e, x) := by
  unfold ttPrevious
  simp only [h1, h2, opp!_ok h3, bind, Except.bind, pure, Except.pure]

/-- Segments through the inside that follow each other on a translation surface. -/
theorem follows_translation (hS : S.Closed valid) (ht : S.Translation valid) {s s' : Seg L K} (hs : S.IsSeg valid s) (hf : S.Follows s s') {p : Poly K}
    (hp : S.polygon s.stop.label = .ok p) {j : ℕ} (hpos : s.stop.position = .edgeInterior j) (hcc : 0 < ccw (p.edge j) s.stop.vector) :
    ∃ (p' : Poly K) (e' : ℕ) (g : Similarity K), S.opp s.stop.label j = .ok (some (s'.start.label, e')) ∧ S.polygon s'.start.label = .ok p' ∧ s'.start.position = .edgeInterior e' ∧
      g.sign = 1 ∧ (∀ w, g.derivative.mulVec w = w) ∧ g.call (p.vertex j) = p'.vertex (e' + 1) ∧ g.call (p.vertex (j + 1)) = p'.vertex e' ∧
      s'.start.point = g.call s.stop.point ∧ s'.start.vector = -s.stop.vector := by
  have hB := hS.bordered
  have hst := (C67_ends hB hs).2
  obtain ⟨f, p', e', h1, -, h2, h3, h4, -, -, h5⟩ := cross hS hst hp hpos hcc
  rw [hf.2] at h1; injection h1 with h1; subst h1
  obtain ⟨q, q', k, k', g, hl, hq, hk, ho, hq', hg, hsg, g1, g2, hv0, hy1, hy2, hpos'⟩ := h5
  dsimp only at *
  rw [hp] at hq; injection hq with hq; subst hq
  rw [h3] at hq'; injection hq' with hq'; subst hq'
  have hv := hB.valid_of_polygon hl hp
  obtain ⟨q, hq, -, hpos2, -⟩ := isTangent_data hB hst
  rw [hp] at hq; injection hq with hq; subst hq
  have hjk : j = k := by
    rcases hpos' with h | h | h
    · have := (C12_edge hv _ k).2 ⟨hk, h⟩
      rw [← hpos2, hpos] at this
      injection this
    · have := (C12_vertex hv s.stop.point k).2 ⟨hk, h.1⟩
      rw [← hpos2, hpos] at this
      cases this
    · have := (C12_vertex hv s.stop.point ((k + 1) % p.length)).2 ⟨Nat.mod_lt _ (by omega), by rw [vertex_mod]; exact h.1⟩
      rw [← hpos2, hpos] at this
      cases this
  subst hjk
  rw [h2] at ho
  injection ho with ho; injection ho with ho
  obtain rfl := (Prod.mk.inj ho).2
  have hd := gluesTo_translation hS ht hl ⟨h2, hg, hsg, p, p', hp, h3, hk, g1, g2⟩
  refine ⟨p', e', g, h2, h3, h4, hsg, hd, g1, g2, hy1, ?_⟩
  rw [hy2, Similarity.call_add hsg, hd]

theorem follows_chord (hS : S.Closed valid) {s s' : Seg L K} (hs' : S.IsSeg valid s') (hf : S.Follows s s') (hs : S.IsSeg valid s) :
    ∃ p τ, S.IsChord valid s' p τ := by
  rcases hs' with h | ⟨p, p', e, e', g, h⟩
  · exact h
  · obtain ⟨s'', h1, h2, h3, h4, -⟩ := isSeg_next hS hs hf.1
    rw [hf.2] at h1; injection h1 with h1
    rw [← h1, singular_iff.2 ⟨e, h.position⟩] at h4
    cases h4

/-- **The triple after a triple.** -/
theorem stands_next (hS : S.Closed valid) (ht : S.Translation valid) (hc : S.AllConvex valid) {v : Vec K} {t : L × ℕ × K} {s : Seg L K}
    (h : S.Stands valid v t s) :
    ∃ t', S.ttNext v t = .ok t' ∧
      (∀ s', S.IsSeg valid s' → S.Follows s s' → S.Stands valid v t' s' ∧ t'.2.2 ≠ 0) ∧
      (s.stop.singular = true → (t'.2.2 = 0 ↔ S.Clear s)) := by
  obtain ⟨p, T, left, j, y, hp, hv, hT, hF, k1, k2, k3, k4, k5, k6, k7⟩ := stands_stop hS hc h
  obtain ⟨hl, hvec, q, τ, hch, -⟩ := h
  have hvl : valid t.1 := hl ▸ hch.valid
  obtain ⟨l', e', p', ho, hl', hp', he', -⟩ := hS.glue t.1 p j hvl hp k2
  refine ⟨_, ttNext_eq hT k1 ho, ?_, ?_⟩
  · intro s' hs' hf
    have hs : S.IsSeg valid s := .inl ⟨q, τ, hch⟩
    obtain ⟨p1, τ1, hch'⟩ := follows_chord hS hs' hf hs
    rcases k7 with ⟨y0, y1, hpos⟩ | ⟨-, hsing, -⟩
    swap
    · rw [hf.1] at hsing; cases hsing
    have hlab : s.stop.label = t.1 := hch.label.trans hl
    have hvs : s.stop.vector = -v := by rw [hch.vector, hvec]
    obtain ⟨p2, e2, g, m1, m2, m3, m4, m5, m6, m7, m8, m9⟩ := follows_translation hS ht hs hf (p := p) (by rw [hlab, hp]) hpos (by
      rw [hvs]
      have : p.width (-v) j = -p.width v j := by rw [width_neg]
      unfold width at this k3
      rw [this]; linarith)
    rw [hlab, ho] at m1
    injection m1 with m1; injection m1 with m1
    obtain ⟨a1, a2⟩ := Prod.mk.inj m1
    rw [hch'.polygon] at m2; injection m2 with m2; subst m2
    obtain ⟨-, b2, b3⟩ := glue_topPoint (v := v) m4 m5 m6 m7
    subst a1 a2
    rw [hch'.polygon] at hp'; injection hp' with hp'; subst hp'
    refine ⟨⟨rfl, by rw [m9, hvs, neg_neg], p1, τ1, hch', he', by rw [b2]; linarith, k4, by rw [b2]; exact y1, ?_⟩, y0.ne'⟩
    rw [m8, k6, b3 y k3.ne]
  · intro hsing
    rcases k7 with ⟨y0, y1, hpos⟩ | ⟨-, -, hiff⟩
    · rw [singular_iff, hpos] at hsing
      obtain ⟨i, hi⟩ := hsing
      cases hi
    · exact hiff

/-- **The triple before a triple.** -/
theorem stands_previous (hS : S.Closed valid) (ht : S.Translation valid) (hc : S.AllConvex valid) {v : Vec K} {t : L × ℕ × K} {s s' : Seg L K}
    (h : S.Stands valid v t s) (hs' : S.IsSeg valid s') (hf : S.Follows s' s) :
    ∃ t', S.ttPrevious v t = .ok t' ∧ (s'.start.singular = false ∨ S.ClearBack s' → S.Stands valid v t' s') ∧
      (s'.start.singular = true → ¬ S.ClearBack s' → t'.2.2 ≠ 0) := by
  have hB := hS.bordered
  obtain ⟨hl, hvec, p, τ, hch, he, hw, x0, x1, hpt⟩ := h
  have hs : S.IsSeg valid s := .inl ⟨p, τ, hch⟩
  -- the segment before
  obtain ⟨j, p', hp', hj, hpos, hcc, hlab, hv'⟩ := isSeg_start hB (isSeg_invert hB hs') hf.1
  have hp' : S.polygon s'.stop.label = .ok p' := hp'
  have hpos : s'.stop.position = .edgeInterior j := hpos
  have hcc : 0 < ccw (p'.edge j) s'.stop.vector := hcc
  have hlab : s'.start.label = s'.stop.label := hlab
  have hv' : s'.start.vector = -s'.stop.vector := hv'
  obtain ⟨p2, e2, g, m1, m2, m3, m4, m5, m6, m7, m8, m9⟩ := follows_translation hS ht hs' hf hp' hpos hcc
  rw [hch.polygon] at m2; injection m2 with m2; subst m2
  have hv1 := hB.valid_of_polygon hch.valid hch.polygon
  have hst := hch.position
  rw [m3] at hst
  have he2 : e2 = t.2.1 ∧ 0 < t.2.2 := by
    rcases botPoint_position hv1 he hw x0 x1.le with ⟨-, q⟩ | ⟨q0, -, q⟩ | ⟨q, -⟩
    · rw [hpt, q] at hst; cases hst
    · rw [hpt, q] at hst; injection hst with hst; exact ⟨hst, q0⟩
    · exact absurd q x1.ne
  obtain ⟨rfl, x0'⟩ := he2
  obtain ⟨b1, b2, b3⟩ := glue_topPoint (v := v) m4 m5 m6 m7
  have hsv : s'.stop.vector = -v := by rw [← hvec, m9, neg_neg]
  have hsv' : s'.start.vector = v := by rw [hv', hsv, neg_neg]
  have hjw : p'.width v j < 0 := by rw [b2] at hw; linarith
  have hch' : ∃ τ', S.IsChord valid s' p' τ' := by
    rcases hs' with ⟨q, τ', h⟩ | ⟨q, q', e, e', g, h⟩
    · have := h.polygon
      rw [hlab, hp'] at this; injection this with this; subst this
      exact ⟨τ', h⟩
    · rw [h.position'] at hpos; cases hpos
  obtain ⟨τ', hch'⟩ := hch'
  have hvl : valid s'.stop.label := by rw [← hlab]; exact hch'.valid
  have hpv := hB.valid_of_polygon hvl hp'
  have hpc := hc _ _ hvl hp'
  have hstop : s'.stop.point = p'.topPoint v j t.2.2 := by
    obtain ⟨-, u, u0, u1, hu⟩ := (C12_edge hpv _ j).1 ((hch'.position').symm.trans hpos)
    have e1 : s'.stop.point = p'.topPoint v j ((1 - u) * -p'.width v j) := by
      rw [hu]; unfold topPoint
      have : (-p'.width v j - (1 - u) * -p'.width v j) / -p'.width v j = u := by
        rw [show -p'.width v j - (1 - u) * -p'.width v j = u * -p'.width v j by ring]
        exact mul_div_cancel_right₀ _ (by linarith)
      rw [this]
    have e2 : p.botPoint v t.2.1 t.2.2 = p.botPoint v t.2.1 ((1 - u) * -p'.width v j) := by
      rw [← hpt, m8, e1, b3 _ hjw.ne]
    have e3 : t.2.2 = (1 - u) * -p'.width v j := by
      have := congrArg (across v) e2
      rw [across_botPoint hw.ne', across_botPoint hw.ne'] at this
      linarith
    rw [e1, ← e3]
  have hne : v ≠ 0 := by rw [← hvec]; exact hch.ne
  obtain ⟨T, left, hT⟩ := flowMap_isFlowMap hpv hpc hne
  have hi := isChord_invert hch'
  have hint : ∀ r : K, 0 < r → r < τ' → p'.pointPosition (s'.stop.point + r • s'.stop.vector) = .interior := hi.interior
  have hend : s'.start.point = s'.stop.point + τ' • s'.stop.vector := hi.stop
  have hside : ∃ i, s'.start.point ∈ p'.side i := hi.side'
  rw [hend] at hside
  rw [hsv, hstop] at hint hside hend
  have y1 : t.2.2 ≤ -p'.width v j := by rw [← b2]; exact x1.le
  obtain ⟨e, x, k1, k2, k3, k4, k5, k6⟩ := backward_exit hpv hpc hne hT hj hjw x0 y1 hch'.pos hint hside
  rw [k6] at hend
  -- the opposite edge
  obtain ⟨-, q, -, he', ho⟩ := hB.back hvl hp' hj m1
  have hiet : S.ttIet v s'.stop.label = .ok T := by
    unfold ttIet
    rw [hp']
    exact hT.ok
  rw [hl] at ho
  have hprev := ttPrevious_eq (t := t) ho hiet k1
  have hac : across v (p'.vertex (j + 1)) + t.2.2 = across v (p'.vertex e) + x := by
    rw [← across_topPoint hjw.ne, ← across_botPoint k3.ne', ← k6, smul_neg, ← neg_smul, across_line]
  have hsac : across v s'.start.point = across v (p'.vertex (j + 1)) + t.2.2 := by
    rw [hend, across_botPoint k3.ne', hac]
  have hclear : S.ClearBack s' ↔ ∀ k, k < p'.length → 0 < p'.width v k →
      ¬ (across v (p'.vertex (j + 1)) < across v (p'.vertex k) ∧ across v (p'.vertex k) < across v (p'.vertex (j + 1)) + t.2.2) := by
    unfold ClearBack
    rw [hsv', hsac, hlab]
    constructor
    · intro hall k hk
      exact hall p' j k hp' hpos hk
    · intro hall q j' k hq hj' hk
      rw [hp'] at hq; injection hq with hq; subst hq
      rw [hpos] at hj'; injection hj' with hj'; subst hj'
      exact hall k hk
  have hpos0 := hch'.position
  rw [hend] at hpos0
  refine ⟨_, hprev, ?_, ?_⟩
  · intro hor
    refine ⟨hlab, hsv', p', τ', hch', k2, k3, k4, lt_of_le_of_ne k5 ?_, hend⟩
    rintro hxe
    dsimp only at hxe
    rcases hor with hn | hcl
    · rcases botPoint_position hpv k2 k3 k4 k5 with ⟨q, -⟩ | ⟨-, q, -⟩ | ⟨-, i, q⟩
      · linarith
      · linarith
      · rw [singular_iff.2 ⟨i, hpos0.trans q⟩] at hn; cases hn
    · have := (backward_zero hT hj hjw x0 y1 k1 k2 k3 k4 k5 hac (.inr hxe)).2 (hclear.1 hcl)
      linarith
  · intro hsing hncl hx0
    dsimp only at hx0
    exact hncl (hclear.2 ((backward_zero hT hj hjw x0 y1 k1 k2 k3 k4 k5 hac (.inl hx0)).1 hx0))

end RSurf
end Flat
