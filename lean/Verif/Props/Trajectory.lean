import Verif.Lemmas.FlowSegment

/-!
# C67: straight line trajectories
-/

namespace Flat
variable {L K : Type} [Field K] [LinearOrder K] [IsStrictOrderedRing K]

namespace RSurf
open Poly
variable {S : RSurf L K} {valid : L → Prop}

/-- The tangent vectors of the surface. -/
def IsTangent (S : RSurf L K) (valid : L → Prop) (t : TVec L K) : Prop :=
  valid t.label ∧ S.tangentVector t.label t.point t.vector = .ok t

theorem isTangent_data (hS : S.Bordered valid) {t : TVec L K} (h : S.IsTangent valid t) :
    ∃ p, S.polygon t.label = .ok p ∧ p.Valid ∧ t.position = p.pointPosition t.point ∧ Points p t.point t.vector := by
  obtain ⟨-, p, hl, hp, h1, h2⟩ := C45_moved hS h.1 h.2
  exact ⟨p, hp, hS.valid_of_polygon hl hp, h1, h2⟩

theorem isTangent_of (hS : S.Bordered valid) {t : TVec L K} (hl : valid t.label) {p : Poly K} (hp : S.polygon t.label = .ok p)
    (hpos : t.position = p.pointPosition t.point) (h : Points p t.point t.vector) : S.IsTangent valid t := by
  refine ⟨hl, ?_⟩
  rw [C45_fixed hS hl hp h, ← hpos]

/-- Everything that the constructor of tangent vectors returns is such a tangent vector. -/
theorem isTangent_of_ok (hS : S.Bordered valid) {l : L} (hl : valid l) {pt v : Vec K} {t : TVec L K} (h : S.tangentVector l pt v = .ok t) :
    S.IsTangent valid t := by
  obtain ⟨-, p, hl', hp, h1, h2⟩ := C45_moved hS hl h
  exact isTangent_of hS hl' hp h1 h2

/-- A segment through the interior of a polygon: it starts and ends on the boundary, its other points are inside of the polygon, the
two tangent vectors at its ends point at each other and have opposite vectors. -/
structure IsChord (S : RSurf L K) (valid : L → Prop) (s : Seg L K) (p : Poly K) (τ : K) : Prop where
  valid : valid s.start.label
  polygon : S.polygon s.start.label = .ok p
  label : s.stop.label = s.start.label
  vector : s.stop.vector = -s.start.vector
  ne : s.start.vector ≠ 0
  pos : 0 < τ
  stop : s.stop.point = s.start.point + τ • s.start.vector
  side : ∃ i, s.start.point ∈ p.side i
  side' : ∃ i, s.stop.point ∈ p.side i
  interior : ∀ r : K, 0 < r → r < τ → p.pointPosition (s.start.point + r • s.start.vector) = .interior
  position : s.start.position = p.pointPosition s.start.point
  position' : s.stop.position = p.pointPosition s.stop.point

/-- A segment along an edge: it starts at the start of the edge and points along the edge; it ends at the start of the opposite edge and
points along the opposite edge.  The vectors correspond to each other under the similarity `g` that maps the edge to the opposite one. -/
structure IsAlong (S : RSurf L K) (valid : L → Prop) (s : Seg L K) (p p' : Poly K) (e e' : ℕ) (g : Similarity K) : Prop where
  valid : valid s.start.label
  polygon : S.polygon s.start.label = .ok p
  lt : e < p.length
  opp : S.opp s.start.label e = .ok (some (s.stop.label, e'))
  polygon' : S.polygon s.stop.label = .ok p'
  wf : g.WF
  sign : g.sign = 1
  g1 : g.call (p.vertex e) = p'.vertex (e' + 1)
  g2 : g.call (p.vertex (e + 1)) = p'.vertex e'
  point : s.start.point = p.vertex e
  position : s.start.position = .vertex e
  parallel : isParallel (p.edge e) s.start.vector = true
  point' : s.stop.point = p'.vertex e'
  position' : s.stop.position = .vertex e'
  vector : s.stop.vector = -g.derivative.mulVec s.start.vector

/-- The segments of the surface. -/
def IsSeg (S : RSurf L K) (valid : L → Prop) (s : Seg L K) : Prop :=
  (∃ p τ, S.IsChord valid s p τ) ∨ ∃ p p' e e' g, S.IsAlong valid s p p' e e' g

theorem forward_chord' (hS : S.Bordered valid) {s : Seg L K} {p : Poly K} {τ : K} (h : S.IsChord valid s p τ) :
    S.tvForward s.start = .ok s.stop := by
  have := forward_chord hS h.valid h.polygon (o := s.start.position) h.ne h.pos h.interior (by rw [← h.stop]; exact h.side')
  rw [← h.vector, ← h.stop, ← h.position'] at this
  exact this.trans (by rw [← h.label])

theorem isChord_invert {s : Seg L K} {p : Poly K} {τ : K} (h : S.IsChord valid s p τ) :
    S.IsChord valid s.invert p τ where
  valid := by show valid s.stop.label; rw [h.label]; exact h.valid
  polygon := by show S.polygon s.stop.label = _; rw [h.label]; exact h.polygon
  label := h.label.symm
  vector := by show s.start.vector = -s.stop.vector; rw [h.vector, neg_neg]
  ne := by show s.stop.vector ≠ 0; rw [h.vector]; exact neg_ne_zero.2 h.ne
  pos := h.pos
  stop := by
    show s.start.point = s.stop.point + τ • s.stop.vector
    rw [h.stop, h.vector, smul_neg, add_neg_cancel_right]
  side := h.side'
  side' := h.side
  interior := by
    intro r r0 r1
    show p.pointPosition (s.stop.point + r • s.stop.vector) = _
    rw [h.stop, h.vector]
    exact chord_back h.interior r r0 r1
  position := h.position'
  position' := h.position

theorem forward_along' (hS : S.Bordered valid) {s : Seg L K} {p p' : Poly K} {e e' : ℕ} {g : Similarity K} (h : S.IsAlong valid s p p' e e' g) :
    S.tvForward s.start = .ok s.stop := by
  have := forward_edge hS h.valid h.polygon h.lt h.opp h.polygon' h.wf h.sign h.g1 h.g2 (o := s.start.position) h.parallel (.inr h.point)
  rw [← h.point', ← h.position', ← h.vector] at this
  exact this

theorem isAlong_invert (hS : S.Bordered valid) {s : Seg L K} {p p' : Poly K} {e e' : ℕ} {g : Similarity K} (h : S.IsAlong valid s p p' e e' g) :
    S.IsAlong valid s.invert p' p e' e g.inv := by
  obtain ⟨hl', q, hq, he', hb⟩ := hS.back h.valid h.polygon h.lt h.opp
  rw [h.polygon'] at hq; injection hq with hq; subst hq
  have hi : ∀ z, g.inv.call (g.call z) = z := fun z => inv_call h.wf h.sign rfl
  have hsi : g.inv.sign = 1 := by simp [Similarity.inv, h.sign]
  have hd : ∀ v, g.inv.derivative.mulVec (g.derivative.mulVec v) = v := by
    intro v
    rw [← Similarity.call_add h.sign 0 v, ← Similarity.call_add hsi (g.call 0)]
    rw [add_sub_cancel, hi, hi, zero_add, sub_zero]
  exact {
    valid := hl'
    polygon := h.polygon'
    lt := he'
    opp := hb
    polygon' := h.polygon
    wf := Similarity.C01_inv_wf g h.wf
    sign := hsi
    g1 := by rw [← h.g2, hi]
    g2 := by rw [← h.g1, hi]
    point := h.point'
    position := h.position'
    parallel := by
      show isParallel (p'.edge e') s.stop.vector = true
      rw [h.vector, ← isParallel_neg_neg, neg_neg, ← derivative_edge h.sign h.g1 h.g2, Similarity.isParallel_derivative h.wf h.sign]
      exact h.parallel
    point' := h.point
    position' := h.position
    vector := by
      show s.start.vector = -g.inv.derivative.mulVec s.stop.vector
      rw [h.vector, Similarity.derivative_neg, neg_neg, hd] }

theorem isSeg_invert (hS : S.Bordered valid) {s : Seg L K} (h : S.IsSeg valid s) : S.IsSeg valid s.invert := by
  rcases h with ⟨p, τ, h⟩ | ⟨p, p', e, e', g, h⟩
  · exact .inl ⟨p, τ, isChord_invert h⟩
  · exact .inr ⟨p', p, e', e, g.inv, isAlong_invert hS h⟩

theorem isSeg_forward (hS : S.Bordered valid) {s : Seg L K} (h : S.IsSeg valid s) : S.tvForward s.start = .ok s.stop := by
  rcases h with ⟨p, τ, h⟩ | ⟨p, p', e, e', g, h⟩
  · exact forward_chord' hS h
  · exact forward_along' hS h

/-- **C67.** A segment is found again from its start, and from its end in the opposite direction. -/
theorem C67_reverse (hS : S.Bordered valid) {s : Seg L K} (h : S.IsSeg valid s) :
    S.segment s.start = .ok s ∧ S.segment s.stop = .ok s.invert := by
  have h1 := isSeg_forward hS h
  have h2 : S.tvForward s.stop = .ok s.start := isSeg_forward hS (isSeg_invert hS h)
  unfold segment
  constructor
  · simp only [h1, h2, bind, Except.bind, pure, Except.pure]
  · simp only [h1, h2, bind, Except.bind, pure, Except.pure]; rfl

theorem isSeg_tangent (hS : S.Bordered valid) {s : Seg L K} (h : S.IsSeg valid s) : S.IsTangent valid s.start := by
  rcases h with ⟨p, τ, h⟩ | ⟨p, p', e, e', g, h⟩
  · have hv := hS.valid_of_polygon h.valid h.polygon
    exact isTangent_of hS h.valid h.polygon h.position (points_of_interior hv h.ne h.pos h.interior)
  · have hv := hS.valid_of_polygon h.valid h.polygon
    refine isTangent_of hS h.valid h.polygon (by rw [h.position, h.point, (C12_vertex hv _ e).2 ⟨h.lt, rfl⟩]) ?_
    rw [h.point, points_vertex hv h.lt]
    refine ⟨?_, .inl h.parallel⟩
    intro h0
    have := ((isParallel_iff' _ _).1 h.parallel).2
    rw [h0] at this
    simp [dot] at this

/-- **C67.** The two ends of a segment are tangent vectors of the surface. -/
theorem C67_ends (hS : S.Bordered valid) {s : Seg L K} (h : S.IsSeg valid s) : S.IsTangent valid s.start ∧ S.IsTangent valid s.stop :=
  ⟨isSeg_tangent hS h, isSeg_tangent hS (isSeg_invert hS h)⟩

/-- **C67.** Every tangent vector lies on a segment: the segment starts in the polygon of the tangent vector, with the same vector, at the
point or behind it.  If the tangent vector is at a vertex, or on an edge to whose left it points, the segment starts with the tangent vector. -/
theorem C67_segment (hS : S.Closed valid) {t : TVec L K} (ht : S.IsTangent valid t) :
    ∃ s, S.segment t = .ok s ∧ S.IsSeg valid s ∧ s.start.label = t.label ∧ s.start.vector = t.vector ∧
      (∃ σ : K, 0 ≤ σ ∧ t.point = s.start.point + σ • t.vector) ∧
      ((∃ i, t.position = .vertex i) → s.start = t) ∧
      (∀ e p, t.position = .edgeInterior e → S.polygon t.label = .ok p → 0 < ccw (p.edge e) t.vector → s.start = t) := by
  have hB := hS.bordered
  obtain ⟨p, hp, hv, hpos, hpts⟩ := isTangent_data hB ht
  have hne := hpts.1
  have hn : 0 < p.length := by have := hv.len3; omega
  obtain ⟨l, pt, v, o⟩ := t
  dsimp only at *
  rcases points_dir hv hpts with hint | ⟨e, he, hpar, hpt⟩
  · obtain ⟨τ, τ0, h1, hi⟩ := chord_of_interior hv hne hint
    have hback := chord_back h1
    obtain ⟨τ', τ0', h1', hi'⟩ := chord_of_interior hv (pt := pt + τ • v) (v := -v) (neg_ne_zero.2 hne)
      ⟨τ / 2, half_pos τ0, fun s s0 s1 => hback s s0 (by linarith)⟩
    have f1 := forward_chord hB ht.1 hp (o := o) hne τ0 h1 hi
    have f2 := forward_chord hB ht.1 hp (o := p.pointPosition (pt + τ • v)) (neg_ne_zero.2 hne) τ0' h1' hi'
    have e1 : pt + τ • v + τ' • -v = pt + (τ - τ') • v := by rw [sub_smul, smul_neg]; abel
    have hle : τ ≤ τ' := by
      by_contra hlt
      push Not at hlt
      obtain ⟨i, hi'⟩ := hi'
      exact RSurf.not_side hv (.inl (hback τ' τ0' hlt)) i hi'
    have hbd : (∃ i, pt ∈ p.side i) → τ' = τ := by
      rintro ⟨i, hi⟩
      rcases lt_or_eq_of_le hle with hlt | h
      · exfalso
        have := h1' τ τ0 hlt
        rw [smul_neg, add_neg_cancel_right] at this
        exact RSurf.not_side hv (.inl this) i hi
      · exact h.symm
    have hst : ∀ (_ : ∃ i, pt ∈ p.side i), (⟨l, pt + τ • v + τ' • -v, - -v, p.pointPosition (pt + τ • v + τ' • -v)⟩ : TVec L K) = ⟨l, pt, v, o⟩ := by
      intro hb
      rw [hbd hb, smul_neg, add_neg_cancel_right, neg_neg, ← hpos]
    refine ⟨⟨⟨l, pt + τ • v + τ' • -v, - -v, p.pointPosition (pt + τ • v + τ' • -v)⟩, ⟨l, pt + τ • v, -v, p.pointPosition (pt + τ • v)⟩⟩, ?_, .inl ⟨p, τ', ?_⟩,
      rfl, neg_neg _, ⟨τ' - τ, by linarith, ?_⟩, ?_, ?_⟩
    · unfold segment
      simp only [f1, f2, bind, Except.bind, pure, Except.pure]
    · exact {
        valid := ht.1
        polygon := hp
        label := rfl
        vector := by dsimp only; rw [neg_neg]
        ne := by dsimp only; rw [neg_neg]; exact hne
        pos := τ0'
        stop := by dsimp only; rw [neg_neg, smul_neg, neg_add_cancel_right]
        side := hi'
        side' := hi
        interior := by
          intro r r0 r1
          exact chord_back h1' r r0 r1
        position := rfl
        position' := rfl }
    · dsimp only
      rw [e1, add_assoc, ← add_smul]
      simp
    · rintro ⟨i, hi⟩
      refine hst ((pointPosition_boundary hv).2 (.inl ⟨i, ?_⟩))
      rw [← hpos, hi]
    · intro e q he hq _
      refine hst ((pointPosition_boundary hv).2 (.inr ⟨e, ?_⟩))
      rw [← hpos, he]
  · obtain ⟨l', e', p', ho, hl', hp', he', hb⟩ := hS.glue l p e ht.1 hp he
    have hv' := hB.valid_of_polygon hl' hp'
    obtain ⟨g, -, hg, hs, g1, g2⟩ := edgeTransformation_ok ho hp hp' (hv.edge_ne e) (hv'.edge_ne e')
    have hal : S.IsAlong valid ⟨⟨l, p.vertex e, v, .vertex e⟩, ⟨l', p'.vertex e', -g.derivative.mulVec v, .vertex e'⟩⟩ p p' e e' g :=
      ⟨ht.1, hp, he, ho, hp', hg, hs, g1, g2, rfl, rfl, hpar, rfl, rfl, rfl⟩
    have f1 := forward_edge hB ht.1 hp he ho hp' hg hs g1 g2 (o := o) hpar hpt
    have f2 := forward_along' hB (isAlong_invert hB hal)
    refine ⟨_, ?_, .inr ⟨_, _, _, _, _, hal⟩, rfl, rfl, ?_, ?_, ?_⟩
    · unfold segment
      simp only [f1, bind, Except.bind, pure, Except.pure]
      have f3 : S.tvForward ⟨l', p'.vertex e', -g.derivative.mulVec v, .vertex e'⟩ = .ok ⟨l, p.vertex e, v, .vertex e⟩ := f2
      rw [f3]
    · obtain ⟨c, c0, hc⟩ := (C05_isParallel_iff _ v (hv.edge_ne e)).1 hpar
      rcases hpt with ⟨r, r0, r1, hr⟩ | h
      · refine ⟨r / c, (div_pos r0 c0).le, ?_⟩
        rw [hr, hc, smul_smul, div_mul_cancel₀ _ c0.ne']
      · exact ⟨0, le_rfl, by simp [h]⟩
    · rintro ⟨i, hi⟩
      rw [hpos] at hi
      rcases hpt with h | h
      · rw [(C12_edge hv pt e).2 ⟨he, h⟩] at hi; cases hi
      · rw [hpos, h, (C12_vertex hv _ e).2 ⟨he, rfl⟩]
    · intro k q hk hq hc
      rw [hp] at hq; injection hq with hq; subst hq
      exfalso
      rw [hpos] at hk
      rcases hpt with h | h
      · rw [(C12_edge hv pt e).2 ⟨he, h⟩] at hk
        injection hk with hk
        subst hk
        exact hc.ne' ((isParallel_iff' _ _).1 hpar).1
      · rw [h, (C12_vertex hv _ e).2 ⟨he, rfl⟩] at hk; cases hk

/-- Over an edge: the inverse of a tangent vector that points to the left of an edge is on the opposite edge and points to its left. -/
theorem cross (hS : S.Closed valid) {t : TVec L K} (ht : S.IsTangent valid t) {p : Poly K} (hp : S.polygon t.label = .ok p) {e : ℕ}
    (hpos : t.position = .edgeInterior e) (hc : 0 < ccw (p.edge e) t.vector) :
    ∃ f p' e', S.tvInvert t = .ok f ∧ S.IsTangent valid f ∧ S.opp t.label e = .ok (some (f.label, e')) ∧ S.polygon f.label = .ok p' ∧
      f.position = .edgeInterior e' ∧ 0 < ccw (p'.edge e') f.vector ∧ S.tvInvert f = .ok t ∧
      S.TVGlue valid (t.label, t.point, -t.vector) (f.label, f.point, f.vector) := by
  have hB := hS.bordered
  obtain ⟨q, hq, hv, hpos', hpts⟩ := isTangent_data hB ht
  rw [hp] at hq; injection hq with hq; subst hq
  obtain ⟨he, hopen⟩ := (C12_edge hv t.point e).1 (by rw [← hpos', hpos])
  obtain ⟨l', e', p', ho, hl', hp', he', hb⟩ := hS.glue t.label p e ht.1 hp he
  have hv' := hB.valid_of_polygon hl' hp'
  obtain ⟨g, -, hg, hs, g1, g2⟩ := edgeTransformation_ok ho hp hp' (hv.edge_ne e) (hv'.edge_ne e')
  have hgl : S.TVGlue valid (t.label, t.point, -t.vector) (l', g.call t.point, g.call (t.point + -t.vector) - g.call t.point) :=
    ⟨p, p', e, e', g, ht.1, hp, he, ho, hp', hg, hs, g1, g2, neg_ne_zero.2 hpts.1, rfl, rfl, .inl hopen⟩
  have hne : g.call (t.point + -t.vector) - g.call t.point ≠ 0 := by
    rw [Similarity.call_add hs]; exact Similarity.derivative_ne hg hs (neg_ne_zero.2 hpts.1)
  have hcc : 0 < ccw (p'.edge e') (g.call (t.point + -t.vector) - g.call t.point) := by
    rw [Similarity.call_add hs, show p'.edge e' = g.derivative.mulVec (-p.edge e) by rw [Similarity.derivative_neg, derivative_edge hs g1 g2, neg_neg],
      Similarity.ccw_derivative hs]
    refine mul_pos hg.normSq_pos ?_
    rw [show ccw (-p.edge e) (-t.vector) = ccw (p.edge e) t.vector by unfold ccw; simp]
    exact hc
  have hopen' := call_openSide hs g1 g2 hopen
  have hpts' : Points p' (g.call t.point) (g.call (t.point + -t.vector) - g.call t.point) := (points_edge hv' he' hopen').2 ⟨hne, .inl hcc⟩
  have hpp := (C12_edge hv' _ e').2 ⟨he', hopen'⟩
  have h1 : S.tangentVector t.label t.point (-t.vector) = .ok ⟨l', g.call t.point, g.call (t.point + -t.vector) - g.call t.point, .edgeInterior e'⟩ := by
    rw [← hpp]
    exact tangentVector_of_glue hB (tvGlue_symm hB hgl) hp' hpts'
  have h2 : S.tvInvert t = .ok ⟨l', g.call t.point, g.call (t.point + -t.vector) - g.call t.point, .edgeInterior e'⟩ := by
    unfold tvInvert; rw [hpos]; exact h1
  obtain ⟨f', hf', hf, -⟩ := (C45_invert hS ht.1 ht.2).1 (by rw [hpos]; simp)
  rw [h2] at hf'
  injection hf' with hf'
  rw [← hf'] at hf
  exact ⟨_, p', e', h2, isTangent_of_ok hB ht.1 h1, ho, hp', rfl, hcc, hf, hgl⟩

theorem singular_iff {t : TVec L K} : t.singular = true ↔ ∃ i, t.position = .vertex i := by
  unfold TVec.singular
  cases t.position <;> simp

/-- A segment starts at a vertex, or inside of an edge to whose left it points. -/
theorem isSeg_start (hS : S.Bordered valid) {s : Seg L K} (h : S.IsSeg valid s) (hn : s.start.singular = false) :
    ∃ e p, S.polygon s.start.label = .ok p ∧ e < p.length ∧ s.start.position = .edgeInterior e ∧ 0 < ccw (p.edge e) s.start.vector ∧
      s.stop.label = s.start.label ∧ s.stop.vector = -s.start.vector := by
  have ht := isSeg_tangent hS h
  rcases h with ⟨p, τ, h⟩ | ⟨p, p', e, e', g, h⟩
  · have hv := hS.valid_of_polygon h.valid h.polygon
    rcases (pointPosition_boundary hv).1 h.side with ⟨i, hi⟩ | ⟨e, he⟩
    · rw [← h.position] at hi
      rw [singular_iff.2 ⟨i, hi⟩] at hn
      cases hn
    · obtain ⟨hlt, hopen⟩ := (C12_edge hv _ e).1 he
      refine ⟨e, p, h.polygon, hlt, h.position.trans he, ?_, h.label, h.vector⟩
      rcases ((points_edge hv hlt hopen).1 (points_of_interior hv h.ne h.pos h.interior)).2 with hc | hc
      · exact hc
      · exfalso
        obtain ⟨τ', τ0', -, ho⟩ := along_end hv hc (.inl hopen)
        have hm : 0 < min τ τ' := lt_min h.pos τ0'
        have e1 := ho (min τ τ' / 2) (half_pos hm) (lt_of_lt_of_le (half_lt_self hm) (min_le_right _ _))
        have e2 := h.interior (min τ τ' / 2) (half_pos hm) (lt_of_lt_of_le (half_lt_self hm) (min_le_left _ _))
        rw [(C12_edge hv _ e).2 ⟨hlt, e1⟩] at e2
        cases e2
  · rw [singular_iff.2 ⟨e, h.position⟩] at hn
    cases hn

/-- What follows a segment that does not end at a vertex. -/
theorem isSeg_next (hS : S.Closed valid) {s : Seg L K} (h : S.IsSeg valid s) (hn : s.stop.singular = false) :
    ∃ s', S.tvInvert s.stop = .ok s'.start ∧ S.segment s'.start = .ok s' ∧ S.IsSeg valid s' ∧ s'.start.singular = false ∧
      S.tvInvert s'.start = .ok s.stop := by
  have hB := hS.bordered
  obtain ⟨e, p, hp, -, hpos, hc, -⟩ := isSeg_start hB (isSeg_invert hB h) hn
  obtain ⟨f, p', e', h1, hf, -, hp', hpos', hc', hb, -⟩ := cross hS (C67_ends hB h).2 hp hpos hc
  obtain ⟨s', h2, h3, -, -, -, -, h4⟩ := C67_segment hS hf
  have h5 := h4 e' p' hpos' hp' hc'
  subst h5
  refine ⟨s', h1, h2, h3, ?_, hb⟩
  rw [← Bool.not_eq_true, singular_iff, hpos']
  simp

/-- **C67.** `next()` fails at a vertex and otherwise gives the segment that goes on from the end. -/
theorem C67_next (hS : S.Closed valid) {s : Seg L K} (h : S.IsSeg valid s) :
    (s.stop.singular = true → S.segNext s = .error .valueError) ∧
    (s.stop.singular = false → ∃ s', S.segNext s = .ok s' ∧ S.IsSeg valid s' ∧ S.tvInvert s.stop = .ok s'.start ∧ S.tvInvert s'.start = .ok s.stop) := by
  constructor
  · intro hn
    unfold segNext
    simp only [hn, if_true, bind, Except.bind]
    rfl
  · intro hn
    obtain ⟨s', h1, h2, h3, -, h5⟩ := isSeg_next hS h hn
    refine ⟨s', ?_, h3, h1, h5⟩
    unfold segNext
    simp only [hn, h1, h2, bind, Except.bind]
    rfl

/-- **C67.** `previous()` undoes `next()` if the next segment does not end at a vertex. -/
theorem C67_previous_partial (hS : S.Closed valid) {s s' : Seg L K} (h : S.IsSeg valid s) (hs : S.segNext s = .ok s') :
    S.segPrevious s' = if s'.stop.singular then .error .valueError else .ok s := by
  have hn : s.stop.singular = false := by
    rw [← Bool.not_eq_true]
    intro hn
    rw [(C67_next hS h).1 hn] at hs
    cases hs
  obtain ⟨s2, h1, h2, -, h4⟩ := (C67_next hS h).2 hn
  rw [hs] at h1
  injection h1 with h1
  subst h1
  have h5 := (C67_reverse hS.bordered h).2
  unfold segPrevious
  cases hv : s'.stop.singular with
  | true => rfl
  | false =>
    simp only [h4, h5, bind, Except.bind, pure, Except.pure]
    rfl

/-- The next segment is determined by its start. -/
theorem isSeg_ext (hS : S.Bordered valid) {s s' : Seg L K} (h : S.IsSeg valid s) (h' : S.IsSeg valid s') (he : s.start = s'.start) : s = s' := by
  have h1 := (C67_reverse hS h).1
  rw [he, (C67_reverse hS h').1] at h1
  injection h1 with h1
  exact h1.symm

theorem setup_none {t : TVec L K} (h : t.singular = true) : S.setup t = .ok none := by
  unfold setup
  simp only [h, if_true]
  rfl

theorem setup_some {t f : TVec L K} (h : t.singular = false) (hf : S.tvInvert t = .ok f) : S.setup t = .ok (some f) := by
  unfold setup
  simp only [h, hf, bind, Except.bind, pure, Except.pure]
  rfl

/-- Two segments follow each other: the first does not end at a vertex, and the second starts with the inverse of its end. -/
def Follows (S : RSurf L K) (a b : Seg L K) : Prop := a.stop.singular = false ∧ S.tvInvert a.stop = .ok b.start

/-- A trajectory of the surface: its segments follow each other, and the two tangent vectors from which it goes on are the inverses of
its ends. -/
structure IsTraj (S : RSurf L K) (valid : L → Prop) (x : Traj L K) : Prop where
  seg : ∀ s ∈ x.segments, S.IsSeg valid s
  chain : x.segments.IsChain S.Follows
  forward : ∃ s, x.segments.getLast? = some s ∧ S.setup s.stop = .ok x.forward
  backward : ∃ s, x.segments.head? = some s ∧ S.setup s.start = .ok x.backward

theorem isSeg_setup (hS : S.Closed valid) {s : Seg L K} (h : S.IsSeg valid s) :
    (s.stop.singular = true ∧ S.setup s.stop = .ok none) ∨
    ∃ s', s.stop.singular = false ∧ S.setup s.stop = .ok (some s'.start) ∧ S.Follows s s' ∧ S.segment s'.start = .ok s' ∧ S.IsSeg valid s' ∧
      s'.start.singular = false ∧ S.tvInvert s'.start = .ok s.stop := by
  cases hn : s.stop.singular with
  | true => exact .inl ⟨rfl, setup_none hn⟩
  | false =>
    obtain ⟨s', h1, h2, h3, h4, h5⟩ := isSeg_next hS h hn
    exact .inr ⟨s', rfl, setup_some hn h1, ⟨hn, h1⟩, h2, h3, h4, h5⟩

/-- **C67.** From every tangent vector there is a trajectory; it consists of the segment of the tangent vector. -/
theorem C67_trajectory (hS : S.Closed valid) {t : TVec L K} (ht : S.IsTangent valid t) :
    ∃ x s, S.trajectory t = .ok x ∧ S.segment t = .ok s ∧ x.segments = [s] ∧ S.IsTraj valid x := by
  obtain ⟨s, h1, h2, -⟩ := C67_segment hS ht
  have hf : ∃ f, S.setup s.stop = .ok f := by
    rcases isSeg_setup hS h2 with ⟨-, h⟩ | ⟨s', -, h, -⟩ <;> exact ⟨_, h⟩
  have hb : ∃ b, S.setup s.start = .ok b := by
    rcases isSeg_setup hS (isSeg_invert hS.bordered h2) with ⟨-, h⟩ | ⟨s', -, h, -⟩ <;> exact ⟨_, h⟩
  obtain ⟨f, hf⟩ := hf
  obtain ⟨b, hb⟩ := hb
  refine ⟨⟨[s], f, b⟩, s, ?_, h1, rfl, ?_⟩
  · unfold trajectory
    simp only [h1, hf, hb, bind, Except.bind, pure, Except.pure]
  · exact ⟨by simpa using h2, .singleton _, ⟨s, rfl, hf⟩, ⟨s, rfl, hb⟩⟩

variable [DecidableEq L]

theorem flowForward_step (hS : S.Closed valid) {x : Traj L K} (hx : S.IsTraj valid x) {f : TVec L K} (hf : x.forward = some f) :
    ∃ s f', S.segment f = .ok s ∧ s.start = f ∧ S.setup s.stop = .ok f' ∧ S.IsSeg valid s ∧ f.singular = false ∧
      (∃ a, x.segments.getLast? = some a ∧ S.Follows a s ∧ S.tvInvert f = .ok a.stop) ∧
      S.IsTraj valid ⟨x.segments ++ [s], f', x.backward⟩ := by
  obtain ⟨a, ha, hfa⟩ := hx.forward
  have hmem : a ∈ x.segments := List.mem_of_getLast? ha
  rcases isSeg_setup hS (hx.seg a hmem) with ⟨-, h⟩ | ⟨s, -, h, hfol, hseg, hs, hns, hinv⟩
  · rw [hfa, hf] at h; injection h with h; cases h
  · rw [hfa, hf] at h
    injection h with h
    injection h with h
    subst h
    obtain ⟨f', hf'⟩ : ∃ f', S.setup s.stop = .ok f' := by
      rcases isSeg_setup hS hs with ⟨-, h⟩ | ⟨s', -, h, -⟩ <;> exact ⟨_, h⟩
    refine ⟨s, f', hseg, rfl, hf', hs, hns, ⟨a, ha, hfol, hinv⟩, ?_⟩
    refine ⟨?_, ?_, ⟨s, by simp, hf'⟩, ?_⟩
    · intro u hu
      rcases List.mem_append.1 hu with hu | hu
      · exact hx.seg u hu
      · rw [List.mem_singleton.1 hu]; exact hs
    · refine List.IsChain.append hx.chain (.singleton _) ?_
      intro u hu w hw
      rw [ha] at hu
      simp at hu hw
      subst hu hw
      exact hfol
    · obtain ⟨b, hb, hbb⟩ := hx.backward
      refine ⟨b, ?_, hbb⟩
      dsimp only
      rw [List.head?_append, hb]
      rfl

theorem flowBackward_step (hS : S.Closed valid) {x : Traj L K} (hx : S.IsTraj valid x) {b : TVec L K} (hb : x.backward = some b) :
    ∃ s b', S.segment b = .ok s ∧ s.start = b ∧ S.setup s.stop = .ok b' ∧ S.IsSeg valid s ∧ b.singular = false ∧
      (∃ a, x.segments.head? = some a ∧ S.Follows s.invert a ∧ S.tvInvert a.start = .ok b ∧ a.start.singular = false) ∧
      S.IsTraj valid ⟨s.invert :: x.segments, x.forward, b'⟩ := by
  obtain ⟨a, ha, hfa⟩ := hx.backward
  have hmem : a ∈ x.segments := List.mem_of_head? ha
  rcases isSeg_setup hS (isSeg_invert hS.bordered (hx.seg a hmem)) with ⟨-, h⟩ | ⟨s, hsa, h, hfol, hseg, hs, hns, hinv⟩
  · have h : S.setup a.start = .ok none := h
    rw [hfa, hb] at h; injection h with h; cases h
  · have h : S.setup a.start = .ok (some s.start) := h
    rw [hfa, hb] at h
    injection h with h
    injection h with h
    subst h
    obtain ⟨b', hb'⟩ : ∃ b', S.setup s.stop = .ok b' := by
      rcases isSeg_setup hS hs with ⟨-, h⟩ | ⟨s', -, h, -⟩ <;> exact ⟨_, h⟩
    have hF : S.Follows s.invert a := ⟨hns, hinv⟩
    refine ⟨s, b', hseg, rfl, hb', hs, hns, ⟨a, ha, hF, hfol.2, hsa⟩, ?_⟩
    refine ⟨?_, ?_, ?_, ⟨s.invert, rfl, hb'⟩⟩
    · intro u hu
      rcases List.mem_cons.1 hu with hu | hu
      · rw [hu]; exact isSeg_invert hS.bordered hs
      · exact hx.seg u hu
    · refine List.IsChain.cons hx.chain ?_
      intro u hu
      rw [ha] at hu
      simp at hu
      subst hu
      exact hF
    · obtain ⟨c, hc, hcc⟩ := hx.forward
      refine ⟨c, ?_, hcc⟩
      dsimp only
      rw [List.getLast?_cons, hc]
      rfl

/-- **C67.** To flow forward never fails: it appends segments, at most as many as asked for, and fewer only if the trajectory ends at a
vertex or is closed. -/
theorem C67_flow_forward (hS : S.Closed valid) (n : ℕ) {x : Traj L K} (hx : S.IsTraj valid x) :
    ∃ y l, S.flowForward n x = .ok y ∧ S.IsTraj valid y ∧ y.segments = x.segments ++ l ∧ y.backward = x.backward ∧
      l.length ≤ n ∧ (l.length < n → y.forward = none ∨ y.isClosed = true) := by
  induction n generalizing x with
  | zero => exact ⟨x, [], rfl, hx, by simp, rfl, le_rfl, fun h => absurd h (by simp)⟩
  | succ n ih =>
    cases hf : x.forward with
    | none =>
      refine ⟨x, [], ?_, hx, by simp, rfl, by simp, fun _ => .inl hf⟩
      unfold flowForward
      rw [hf]
    | some f =>
      by_cases hc : x.isClosed = true
      · refine ⟨x, [], ?_, hx, by simp, rfl, by simp, fun _ => .inr hc⟩
        unfold flowForward
        rw [hf]
        dsimp only
        rw [if_pos hc]
      · obtain ⟨s, f', h1, -, h2, -, -, -, h3⟩ := flowForward_step hS hx hf
        obtain ⟨y, l, k1, k2, k3, k4, k5, k6⟩ := ih h3
        refine ⟨y, s :: l, ?_, k2, ?_, k4, by simpa using k5, fun h => k6 (by simpa using h)⟩
        · unfold flowForward
          rw [hf]
          dsimp only
          rw [if_neg hc]
          simp only [h1, h2, bind, Except.bind]
          exact k1
        · rw [k3]; simp

/-- **C67.** To flow backward never fails: it prepends segments, at most as many as asked for, and fewer only if the trajectory starts at
a vertex or is closed. -/
theorem C67_flow_backward (hS : S.Closed valid) (n : ℕ) {x : Traj L K} (hx : S.IsTraj valid x) :
    ∃ y l, S.flowBackward n x = .ok y ∧ S.IsTraj valid y ∧ y.segments = l ++ x.segments ∧ y.forward = x.forward ∧
      l.length ≤ n ∧ (l.length < n → y.backward = none ∨ y.isClosed = true) := by
  induction n generalizing x with
  | zero => exact ⟨x, [], rfl, hx, by simp, rfl, le_rfl, fun h => absurd h (by simp)⟩
  | succ n ih =>
    cases hb : x.backward with
    | none =>
      refine ⟨x, [], ?_, hx, by simp, rfl, by simp, fun _ => .inl hb⟩
      unfold flowBackward
      rw [hb]
    | some b =>
      by_cases hc : x.isClosed = true
      · refine ⟨x, [], ?_, hx, by simp, rfl, by simp, fun _ => .inr hc⟩
        unfold flowBackward
        rw [hb]
        dsimp only
        rw [if_pos hc]
      · obtain ⟨s, b', h1, -, h2, -, -, -, h3⟩ := flowBackward_step hS hx hb
        obtain ⟨y, l, k1, k2, k3, k4, k5, k6⟩ := ih h3
        refine ⟨y, l ++ [s.invert], ?_, k2, ?_, k4, by simpa using k5, fun h => k6 (by simpa using h)⟩
        · unfold flowBackward
          rw [hb]
          dsimp only
          rw [if_neg hc]
          have h2' : S.setup s.invert.start = .ok b' := h2
          simp only [h1, h2', bind, Except.bind]
          exact k1
        · rw [k3]; simp

omit [IsStrictOrderedRing K] in
/-- **C67.** To flow in two steps is the same as to flow at once, forward and backward. -/
theorem C67_flow_add (m n : ℕ) (x : Traj L K) :
    S.flowForward (m + n) x = (S.flowForward m x >>= S.flowForward n) ∧ S.flowBackward (m + n) x = (S.flowBackward m x >>= S.flowBackward n) := by
  constructor
  · induction m generalizing x with
    | zero => rw [Nat.zero_add]; rfl
    | succ m ih =>
      rw [Nat.add_right_comm]
      unfold flowForward
      cases hf : x.forward with
      | none =>
        dsimp only [bind, Except.bind]
        cases n with
        | zero => rfl
        | succ n => unfold flowForward; rw [hf]
      | some f =>
        dsimp only
        by_cases hc : x.isClosed = true
        · rw [if_pos hc, if_pos hc]
          dsimp only [bind, Except.bind]
          cases n with
          | zero => rfl
          | succ n => unfold flowForward; rw [hf]; dsimp only; rw [if_pos hc]
        · rw [if_neg hc, if_neg hc]
          cases h1 : S.segment f with
          | error => rfl
          | ok s =>
            simp only [bind, Except.bind]
            cases h2 : S.setup s.stop with
            | error => rfl
            | ok f' => exact ih _
  · induction m generalizing x with
    | zero => rw [Nat.zero_add]; rfl
    | succ m ih =>
      rw [Nat.add_right_comm]
      unfold flowBackward
      cases hf : x.backward with
      | none =>
        dsimp only [bind, Except.bind]
        cases n with
        | zero => rfl
        | succ n => unfold flowBackward; rw [hf]
      | some f =>
        dsimp only
        by_cases hc : x.isClosed = true
        · rw [if_pos hc, if_pos hc]
          dsimp only [bind, Except.bind]
          cases n with
          | zero => rfl
          | succ n => unfold flowBackward; rw [hf]; dsimp only; rw [if_pos hc]
        · rw [if_neg hc, if_neg hc]
          cases h1 : S.segment f with
          | error => rfl
          | ok s =>
            simp only [bind, Except.bind]
            cases h2 : S.setup s.invert.start with
            | error => rfl
            | ok f' => exact ih _

/-! ### Scaling -/

/-- The tangent vector with its vector multiplied by `c`. -/
def _root_.Flat.TVec.scale (c : K) (t : TVec L K) : TVec L K := { t with vector := c • t.vector }

/-- The segment with its vectors multiplied by `c`. -/
def _root_.Flat.Seg.scale (c : K) (s : Seg L K) : Seg L K := ⟨s.start.scale c, s.stop.scale c⟩

omit [DecidableEq L] [IsStrictOrderedRing K] in
theorem smul_ne {c : K} (hc : 0 < c) {v : Vec K} (hv : v ≠ 0) : c • v ≠ 0 := by
  intro h
  apply hv
  rw [← one_smul K v, ← inv_mul_cancel₀ hc.ne', ← smul_smul, h, smul_zero]

omit [DecidableEq L] in
theorem isSeg_scale {s : Seg L K} (h : S.IsSeg valid s) {c : K} (hc : 0 < c) : S.IsSeg valid (s.scale c) := by
  rcases h with ⟨p, τ, h⟩ | ⟨p, p', e, e', g, h⟩
  · refine .inl ⟨p, τ / c, h.valid, h.polygon, h.label, ?_, smul_ne hc h.ne, div_pos h.pos hc, ?_, h.side, h.side', ?_, h.position, h.position'⟩
    · show c • s.stop.vector = -(c • s.start.vector)
      rw [h.vector, smul_neg]
    · show s.stop.point = s.start.point + (τ / c) • c • s.start.vector
      rw [smul_smul, div_mul_cancel₀ _ hc.ne', h.stop]
    · intro r r0 r1
      show p.pointPosition (s.start.point + r • c • s.start.vector) = .interior
      rw [smul_smul]
      refine h.interior _ (mul_pos r0 hc) ?_
      rwa [lt_div_iff₀ hc] at r1
  · refine .inr ⟨p, p', e, e', g, h.valid, h.polygon, h.lt, h.opp, h.polygon', h.wf, h.sign, h.g1, h.g2, h.point, h.position, ?_, h.point', h.position', ?_⟩
    · show isParallel (p.edge e) (c • s.start.vector) = true
      have h1 := (isParallel_iff' _ _).1 h.parallel
      rw [isParallel_iff']
      constructor
      · have := h1.1; unfold ccw at *; simp; linear_combination c * this
      · have := mul_pos hc h1.2; unfold dot at *; simp; linarith
    · show c • s.stop.vector = -g.derivative.mulVec (c • s.start.vector)
      rw [h.vector]
      unfold Mat2.mulVec
      ext <;> simp <;> ring

/-- Tangent vectors differ by scaling if they have the same polygon and point, and their vectors differ by a positive factor. -/
theorem differsByScaling_iff (hS : S.Bordered valid) {t t' : TVec L K} (h : S.IsTangent valid t) (h' : S.IsTangent valid t') :
    t.differsByScaling t' = true ↔ ∃ c : K, 0 < c ∧ t' = t.scale c := by
  obtain ⟨p, hp, -, hpos, hpts⟩ := isTangent_data hS h
  obtain ⟨p', hp', -, hpos', -⟩ := isTangent_data hS h'
  unfold TVec.differsByScaling
  rw [Bool.and_eq_true, Bool.and_eq_true, decide_eq_true_eq, decide_eq_true_eq, C05_isParallel_iff _ _ hpts.1]
  constructor
  · rintro ⟨⟨h1, h2⟩, c, c0, h3⟩
    refine ⟨c, c0, ?_⟩
    rw [← h1, hp] at hp'
    injection hp' with hp'
    subst hp'
    obtain ⟨a1, a2, a3, a4⟩ := t
    obtain ⟨b1, b2, b3, b4⟩ := t'
    dsimp only at *
    subst h1 h2 h3
    unfold TVec.scale
    rw [hpos, hpos']
  · rintro ⟨c, c0, rfl⟩
    exact ⟨⟨rfl, rfl⟩, c, c0, rfl⟩

omit [DecidableEq L] in
/-- Segments whose starts differ by scaling differ by scaling. -/
theorem scale_ext (hS : S.Bordered valid) {s u : Seg L K} (hs : S.IsSeg valid s) (hu : S.IsSeg valid u) {c : K} (hc : 0 < c)
    (h : u.start = s.start.scale c) : u = s.scale c := isSeg_ext hS hu (isSeg_scale hs hc) h

omit [DecidableEq L] in
theorem scale_ext' (hS : S.Bordered valid) {s u : Seg L K} (hs : S.IsSeg valid s) (hu : S.IsSeg valid u) {c : K} (hc : 0 < c)
    (h : u.stop = s.stop.scale c) : u = s.scale c := by
  have := scale_ext hS (isSeg_invert hS hs) (isSeg_invert hS hu) hc h
  have h2 := congrArg Seg.invert this
  exact h2

omit [DecidableEq L] in
theorem follows_back (hS : S.Closed valid) {a b : Seg L K} (ha : S.IsSeg valid a) (hb : S.IsSeg valid b) (h : S.Follows a b) :
    S.Follows b.invert a.invert := by
  obtain ⟨s', h1, -, h3, h4, h5⟩ := isSeg_next hS ha h.1
  rw [h.2] at h1
  injection h1 with h1
  have := isSeg_ext hS.bordered hb h3 h1
  subst this
  exact ⟨h4, h5⟩

omit [DecidableEq L] in
/-- If segments are scaled then so are the segments that follow. -/
theorem follows_scale (hS : S.Closed valid) {a b u w : Seg L K} (ha : S.IsSeg valid a) (hb : S.IsSeg valid b) (hw : S.IsSeg valid w)
    (h : S.Follows a b) (h' : S.Follows u w) {c : K} (hc : 0 < c) (hu : u = a.scale c) : w = b.scale c := by
  have hB := hS.bordered
  refine scale_ext hB hb hw hc ?_
  obtain ⟨e, p, hp, -, hpos, hcc, -⟩ := isSeg_start hB (isSeg_invert hB ha) h.1
  obtain ⟨f, p', e', h1, hf, -, hp', hpos', -, -, hgl⟩ := cross hS (C67_ends hB ha).2 hp hpos hcc
  have h1 : S.tvInvert a.stop = .ok f := h1
  rw [h.2] at h1
  injection h1 with h1
  subst h1
  have hgl' : S.TVGlue valid (u.stop.label, u.stop.point, -u.stop.vector) (b.start.label, b.start.point, c • b.start.vector) := by
    obtain ⟨q, q', k, k', g, g0, g1, g2, g3, g4, g5, g6, g7, g8, g9, g10, g11, g12⟩ := hgl
    rw [hu]
    refine ⟨q, q', k, k', g, g0, g1, g2, g3, g4, g5, g6, g7, g8, ?_, g10, ?_, ?_⟩
    · show -(c • a.stop.vector) ≠ 0
      rw [← smul_neg]
      exact smul_ne hc g9
    · dsimp only at g11 ⊢
      rw [g11, Similarity.call_add g6, Similarity.call_add g6]
      show c • g.derivative.mulVec (-a.stop.vector) = g.derivative.mulVec (-(c • a.stop.vector))
      unfold Mat2.mulVec
      ext <;> simp <;> ring
    · left
      obtain ⟨q2, hq2, hv, hpos2, -⟩ := isTangent_data hB (C67_ends hB ha).2
      have hq : q2 = q := by
        have g1 : S.polygon a.stop.label = .ok q := g1
        rw [hq2] at g1
        injection g1
      subst hq
      have hpos : a.stop.position = .edgeInterior e := hpos
      rw [hpos2] at hpos
      have hn : 0 < q2.length := by omega
      rcases g12 with h12 | ⟨h12, -⟩ | ⟨h12, -⟩
      · exact h12
      · have h12 : a.stop.point = q2.vertex k := h12
        rw [h12, (C12_vertex hv _ k).2 ⟨g2, rfl⟩] at hpos; cases hpos
      · have h12 : a.stop.point = q2.vertex (k + 1) := h12
        rw [(C12_vertex hv _ ((k + 1) % q2.length)).2 ⟨Nat.mod_lt _ hn, by rw [h12, vertex_mod]⟩] at hpos; cases hpos
  have h3 := C45_glued hB hgl'
  have h4 : S.tangentVector b.start.label b.start.point (c • b.start.vector) = .ok (b.start.scale c) :=
    (isSeg_tangent hB (isSeg_scale hb hc)).2
  have h5 := h'.2
  unfold tvInvert at h5
  have hpu : u.stop.position = .edgeInterior e := by rw [hu]; exact hpos
  rw [hpu] at h5
  dsimp only at h5 h3
  rw [h3, h4] at h5
  injection h5 with h5
  exact h5.symm

/-- The segments of a trajectory differ, even up to scaling. -/
def Distinct (x : Traj L K) : Prop := x.segments.Pairwise fun a b => a.start.differsByScaling b.start = false

theorem differs_iff (hS : S.Bordered valid) {a b : Seg L K} (ha : S.IsSeg valid a) (hb : S.IsSeg valid b) :
    a.start.differsByScaling b.start = true ↔ ∃ c : K, 0 < c ∧ b = a.scale c := by
  rw [differsByScaling_iff hS (isSeg_tangent hS ha) (isSeg_tangent hS hb)]
  constructor
  · rintro ⟨c, c0, h⟩; exact ⟨c, c0, scale_ext hS ha hb c0 h⟩
  · rintro ⟨c, c0, h⟩; exact ⟨c, c0, by rw [h]; rfl⟩

omit [DecidableEq L] in
theorem scale_symm {a b : Seg L K} {c : K} (hc : 0 < c) (h : b = a.scale c) : a = b.scale c⁻¹ := by
  subst h
  unfold Seg.scale TVec.scale
  simp only [smul_smul, inv_mul_cancel₀ hc.ne', one_smul]

theorem closed_iff (x : Traj L K) {f : TVec L K} (hf : x.forward = some f) {a : Seg L K} (ha : x.segments.head? = some a) :
    x.isClosed = f.differsByScaling a.start := by
  unfold Traj.isClosed
  rw [hf, ha]

theorem distinct_append (hS : S.Closed valid) {x : Traj L K} (hx : S.IsTraj valid x) (hd : Distinct x) {f : TVec L K} (hf : x.forward = some f)
    (hc : x.isClosed = false) {s : Seg L K} (hs : S.IsSeg valid s) (hsf : s.start = f)
    (hl : ∃ a, x.segments.getLast? = some a ∧ S.Follows a s) (f' b) : Distinct ⟨x.segments ++ [s], f', b⟩ := by
  have hB := hS.bordered
  obtain ⟨last, hlast, hfol⟩ := hl
  have hpw := List.pairwise_iff_getElem.1 hd
  have hch := List.isChain_iff_getElem.1 hx.chain
  have hmem : ∀ j (hj : j < x.segments.length), S.IsSeg valid x.segments[j] := fun j hj => hx.seg _ (List.getElem_mem hj)
  unfold Distinct
  dsimp only
  rw [List.pairwise_append]
  refine ⟨hd, List.pairwise_singleton _ _, ?_⟩
  intro a ha b' hb'
  rw [List.mem_singleton.1 hb', ← Bool.not_eq_true]
  intro hdif
  obtain ⟨j, hj, rfl⟩ := List.getElem_of_mem ha
  obtain ⟨c, c0, hsc⟩ := (differs_iff hB (hmem j hj) hs).1 hdif
  cases j with
  | zero =>
    have hhead : x.segments.head? = some x.segments[0] := by rw [List.head?_eq_getElem?, List.getElem?_eq_getElem hj]
    rw [closed_iff x hf hhead, ← hsf] at hc
    have : s.start.differsByScaling x.segments[0].start = true := (differs_iff hB hs (hmem 0 hj)).2 ⟨c⁻¹, inv_pos.2 c0, scale_symm c0 hsc⟩
    rw [this] at hc
    cases hc
  | succ j =>
    have hj' : j < x.segments.length := by omega
    have h1 := follows_back hS (hmem j hj') (hmem (j + 1) hj) (hch j hj)
    have hla : S.IsSeg valid last := hx.seg _ (List.mem_of_getLast? hlast)
    have h2 := follows_back hS hla hs hfol
    have h3 := follows_scale hS (isSeg_invert hB (hmem (j + 1) hj)) (isSeg_invert hB (hmem j hj')) (isSeg_invert hB hla) h1 h2 c0
      (congrArg Seg.invert hsc)
    have h4 : last = x.segments[j].scale c := congrArg Seg.invert h3
    have h5 : last = x.segments[x.segments.length - 1] := by
      rw [List.getLast?_eq_getElem?, List.getElem?_eq_getElem (by omega)] at hlast
      injection hlast with hlast
      exact hlast.symm
    have h6 := hpw j (x.segments.length - 1) hj' (by omega) (by omega)
    rw [← h5] at h6
    rw [(differs_iff hB (hmem j hj') hla).2 ⟨c, c0, h4⟩] at h6
    cases h6

theorem distinct_prepend (hS : S.Closed valid) {x : Traj L K} (hx : S.IsTraj valid x) (hd : Distinct x)
    (hc : x.isClosed = false) {s : Seg L K} (hs : S.IsSeg valid s) (hl : ∃ a, x.segments.head? = some a ∧ S.Follows s a) (f b) :
    Distinct ⟨s :: x.segments, f, b⟩ := by
  have hB := hS.bordered
  obtain ⟨first, hfirst, hfol⟩ := hl
  have hpw := List.pairwise_iff_getElem.1 hd
  have hch := List.isChain_iff_getElem.1 hx.chain
  have hmem : ∀ j (hj : j < x.segments.length), S.IsSeg valid x.segments[j] := fun j hj => hx.seg _ (List.getElem_mem hj)
  have hfi : S.IsSeg valid first := hx.seg _ (List.mem_of_head? hfirst)
  unfold Distinct
  dsimp only
  rw [List.pairwise_cons]
  refine ⟨?_, hd⟩
  intro a ha
  rw [← Bool.not_eq_true]
  intro hdif
  obtain ⟨j, hj, rfl⟩ := List.getElem_of_mem ha
  obtain ⟨c, c0, hsc⟩ := (differs_iff hB hs (hmem j hj)).1 hdif
  have hstop : x.segments[j].stop.singular = false := by
    rw [hsc]; exact hfol.1
  by_cases hlt : j + 1 < x.segments.length
  · have h1 := follows_scale hS hs hfi (hmem (j + 1) hlt) hfol (hch j hlt) c0 hsc
    have h2 : first = x.segments[0] := by
      rw [List.head?_eq_getElem?, List.getElem?_eq_getElem (by omega)] at hfirst
      injection hfirst with hfirst
      exact hfirst.symm
    have h3 := hpw 0 (j + 1) (by omega) hlt (by omega)
    rw [← h2, (differs_iff hB hfi (hmem (j + 1) hlt)).2 ⟨c, c0, h1⟩] at h3
    cases h3
  · obtain ⟨last, hlast, hset⟩ := hx.forward
    have h5 : last = x.segments[j] := by
      rw [List.getLast?_eq_getElem?, List.getElem?_eq_getElem (by omega)] at hlast
      injection hlast with hlast
      rw [← hlast]
      congr 1
      omega
    rw [h5] at hset
    rcases isSeg_setup hS (hmem j hj) with ⟨h, -⟩ | ⟨s', -, h, hfol', -, hs', -, -⟩
    · rw [h] at hstop; cases hstop
    · rw [hset] at h
      injection h with h
      have h1 := follows_scale hS hs hfi hs' hfol hfol' c0 hsc
      rw [closed_iff x h hfirst, (differs_iff hB hs' hfi).2 ⟨c⁻¹, inv_pos.2 c0, scale_symm c0 h1⟩] at hc
      cases hc

/-- **C67.** The segments of a trajectory stay pairwise different, even up to scaling, when it flows. -/
theorem C67_distinct (hS : S.Closed valid) (n : ℕ) {x y : Traj L K} (hx : S.IsTraj valid x) (hd : Distinct x) :
    (S.flowForward n x = .ok y → Distinct y) ∧ (S.flowBackward n x = .ok y → Distinct y) := by
  constructor
  · induction n generalizing x with
    | zero => intro h; injection h with h; rw [← h]; exact hd
    | succ n ih =>
      intro h
      unfold flowForward at h
      cases hf : x.forward with
      | none => rw [hf] at h; injection h with h; rw [← h]; exact hd
      | some f =>
        rw [hf] at h
        dsimp only at h
        by_cases hc : x.isClosed = true
        · rw [if_pos hc] at h; injection h with h; rw [← h]; exact hd
        · rw [if_neg hc] at h
          obtain ⟨s, f', h1, h2, h3, h4, -, ⟨a, ha, hfol, -⟩, h5⟩ := flowForward_step hS hx hf
          simp only [h1, h3, bind, Except.bind] at h
          exact ih h5 (distinct_append hS hx hd hf (by simpa using hc) h4 h2 ⟨a, ha, hfol⟩ _ _) h
  · induction n generalizing x with
    | zero => intro h; injection h with h; rw [← h]; exact hd
    | succ n ih =>
      intro h
      unfold flowBackward at h
      cases hf : x.backward with
      | none => rw [hf] at h; injection h with h; rw [← h]; exact hd
      | some f =>
        rw [hf] at h
        dsimp only at h
        by_cases hc : x.isClosed = true
        · rw [if_pos hc] at h; injection h with h; rw [← h]; exact hd
        · rw [if_neg hc] at h
          obtain ⟨s, f', h1, h2, h3, h4, -, ⟨a, ha, hfol, -⟩, h5⟩ := flowBackward_step hS hx hf
          have h3' : S.setup s.invert.start = .ok f' := h3
          simp only [h1, h3', bind, Except.bind] at h
          exact ih h5 (distinct_prepend hS hx hd (by simpa using hc) (isSeg_invert hS.bordered h4) ⟨a, ha, hfol⟩ _ _) h

/-- **C67.** From a tangent vector one can flow back and forth any number of times: this never fails, the segments always follow each
other, no segment appears twice (not even up to scaling), and the segment of the tangent vector stays one of the segments. -/
theorem C67_flow (hS : S.Closed valid) {t : TVec L K} (ht : S.IsTangent valid t) (steps : List ℤ) :
    ∃ x y s, S.trajectory t = .ok x ∧ steps.foldlM (fun x n => S.flowSteps n x) x = .ok y ∧ S.segment t = .ok s ∧
      S.IsTraj valid y ∧ Distinct y ∧ s ∈ y.segments := by
  obtain ⟨x, s, h1, h2, h3, h4⟩ := C67_trajectory hS ht
  have hd : Distinct x := by unfold Distinct; rw [h3]; exact List.pairwise_singleton _ _
  have hm : s ∈ x.segments := by rw [h3]; simp
  have key : ∀ (steps : List ℤ) (x : Traj L K), S.IsTraj valid x → Distinct x → s ∈ x.segments →
      ∃ y, steps.foldlM (fun x n => S.flowSteps n x) x = .ok y ∧ S.IsTraj valid y ∧ Distinct y ∧ s ∈ y.segments := by
    intro steps
    induction steps with
    | nil => exact fun x hx hd hm => ⟨x, rfl, hx, hd, hm⟩
    | cons n steps ih =>
      intro x hx hd hm
      have : ∃ y, S.flowSteps n x = .ok y ∧ S.IsTraj valid y ∧ Distinct y ∧ s ∈ y.segments := by
        unfold flowSteps
        split_ifs
        · obtain ⟨y, l, k1, k2, k3, -⟩ := C67_flow_forward hS n.toNat hx
          exact ⟨y, k1, k2, (C67_distinct hS _ hx hd).1 k1, by rw [k3]; exact List.mem_append_left _ hm⟩
        · obtain ⟨y, l, k1, k2, k3, -⟩ := C67_flow_backward hS (-n).toNat hx
          exact ⟨y, k1, k2, (C67_distinct hS _ hx hd).2 k1, by rw [k3]; exact List.mem_append_right _ hm⟩
      obtain ⟨y, k1, k2, k3, k4⟩ := this
      obtain ⟨z, m1, m2⟩ := ih y k2 k3 k4
      refine ⟨z, ?_, m2⟩
      rw [List.foldlM_cons, k1]
      exact m1
  obtain ⟨y, k1, k2, k3, k4⟩ := key steps x h4 hd hm
  exact ⟨x, y, s, h1, k1, h2, k2, k3, k4⟩

/-- **C67.** A trajectory is closed if and only if its last segment does not end at a vertex and is followed by its first segment, up to
scaling. -/
theorem C67_closed (hS : S.Closed valid) {x : Traj L K} (hx : S.IsTraj valid x) {first last : Seg L K} (h1 : x.segments.head? = some first)
    (h2 : x.segments.getLast? = some last) :
    x.isClosed = true ↔ ∃ c : K, 0 < c ∧ S.segNext last = .ok (first.scale c) := by
  have hB := hS.bordered
  have hf : S.IsSeg valid first := hx.seg _ (List.mem_of_head? h1)
  have hl : S.IsSeg valid last := hx.seg _ (List.mem_of_getLast? h2)
  obtain ⟨a, ha, hset⟩ := hx.forward
  rw [h2] at ha; injection ha with ha; subst ha
  rcases isSeg_setup hS hl with ⟨k1, k2⟩ | ⟨s', k1, k2, k3, k4, k5, k6, k7⟩
  · rw [k2] at hset
    injection hset with hset
    constructor
    · intro h; unfold Traj.isClosed at h; rw [← hset] at h; cases h
    · rintro ⟨c, -, h⟩
      rw [(C67_next hS hl).1 k1] at h
      cases h
  · rw [k2] at hset
    injection hset with hset
    have hnext : S.segNext last = .ok s' := by
      unfold segNext
      simp only [k1, k3.2, k4, bind, Except.bind]
      rfl
    rw [closed_iff x hset.symm h1, hnext]
    rw [show (s'.start.differsByScaling first.start = true) ↔ ∃ c : K, 0 < c ∧ first = s'.scale c from differs_iff hB k5 hf]
    constructor
    · rintro ⟨c, c0, h⟩; exact ⟨c⁻¹, inv_pos.2 c0, by rw [← scale_symm c0 h]⟩
    · rintro ⟨c, c0, h⟩
      injection h with h
      exact ⟨c⁻¹, inv_pos.2 c0, scale_symm c0 h⟩

/-- **C67.** A trajectory is a saddle connection if and only if it starts and ends at a vertex. -/
theorem C67_saddle_connection (hS : S.Closed valid) {x : Traj L K} (hx : S.IsTraj valid x) {first last : Seg L K} (h1 : x.segments.head? = some first)
    (h2 : x.segments.getLast? = some last) :
    x.isSaddleConnection = true ↔ (∃ i, first.start.position = .vertex i) ∧ ∃ i, last.stop.position = .vertex i := by
  have hB := hS.bordered
  have hf : S.IsSeg valid first := hx.seg _ (List.mem_of_head? h1)
  have hl : S.IsSeg valid last := hx.seg _ (List.mem_of_getLast? h2)
  obtain ⟨a, ha, hset⟩ := hx.forward
  rw [h2] at ha; injection ha with ha; subst ha
  obtain ⟨a, ha, hset'⟩ := hx.backward
  rw [h1] at ha; injection ha with ha; subst ha
  have key : ∀ {s : Seg L K} {o : Option (TVec L K)}, S.IsSeg valid s → S.setup s.stop = .ok o → (o = none ↔ s.stop.singular = true) := by
    intro s o hs ho
    rcases isSeg_setup hS hs with ⟨k1, k2⟩ | ⟨s', k1, k2, -⟩ <;> rw [ho] at k2 <;> injection k2 with k2
    · simp [k2, k1]
    · simp [k2, k1]
  unfold Traj.isSaddleConnection
  rw [Bool.and_eq_true, Option.isNone_iff_eq_none, Option.isNone_iff_eq_none, key hl hset, key (isSeg_invert hB hf) hset', singular_iff, singular_iff]
  exact and_comm

end RSurf
end Flat
