import Verif.Props.Trajectory
import Verif.Model.Saddle

/-!
# C68: saddle connections

The notion of a saddle connection, independent of how the library finds them.
-/

namespace Flat
variable {L K : Type} [Field K] [LinearOrder K] [IsStrictOrderedRing K]

namespace RSurf
open Poly
variable {S : RSurf L K} {valid : L → Prop}

/-- `g` is the similarity that glues the edge `e` of the polygon `l` to the edge `e'` of the polygon `l'`. -/
structure GluesTo (S : RSurf L K) (l : L) (e : ℕ) (l' : L) (e' : ℕ) (g : Similarity K) : Prop where
  opp : S.opp l e = .ok (some (l', e'))
  wf : g.WF
  sign : g.sign = 1
  ends : ∃ p p', S.polygon l = .ok p ∧ S.polygon l' = .ok p' ∧ e < p.length ∧ g.call (p.vertex e) = p'.vertex (e' + 1) ∧
    g.call (p.vertex (e + 1)) = p'.vertex e'

/-- Segments through the polygons of a surface are unfolded into the plane: `G` maps the polygon of the last segment into the plane of the
polygon of the first segment, so that consecutive polygons are next to each other along the edge that the segments cross. -/
inductive Develops (S : RSurf L K) : List (Seg L K) → Similarity K → Prop
  | single (s : Seg L K) : Develops S [s] .one
  | cons {s s' : Seg L K} {rest : List (Seg L K)} {e e' : ℕ} {g G : Similarity K} (he : s.stop.position = .edgeInterior e)
      (he' : s'.start.position = .edgeInterior e') (hg : S.GluesTo s.stop.label e s'.start.label e' g) (h : Develops S (s' :: rest) G) :
      Develops S (s :: s' :: rest) (g.inv.mul G)

/-- A saddle connection through the inside of polygons: a straight line from the vertex `a` to the vertex `b` of polygons.  Its segments
follow each other; `h` is the vector from its start to its end when it is unfolded from its start, and `k` is the vector from its end to its
start when it is unfolded from its end. -/
structure IsDiagonal (S : RSurf L K) (valid : L → Prop) (segs : List (Seg L K)) (a : L × ℕ) (h : Vec K) (b : L × ℕ) (k : Vec K)
    (first last : Seg L K) (G : Similarity K) : Prop where
  chord : ∀ s ∈ segs, ∃ p τ, S.IsChord valid s p τ
  chain : segs.IsChain S.Follows
  head : segs.head? = some first
  getLast : segs.getLast? = some last
  label : first.start.label = a.1
  position : first.start.position = .vertex a.2
  label' : last.stop.label = b.1
  position' : last.stop.position = .vertex b.2
  develops : S.Develops segs G
  holonomy : h = G.call last.stop.point - first.start.point
  holonomy' : k = G.inv.call first.start.point - last.stop.point

/-- A saddle connection of the surface with these segments, from the vertex `a` to the vertex `b`, with holonomy `h` seen from its start and
holonomy `k` seen from its end: a line through the inside of polygons or an edge. -/
def IsSaddleVia (S : RSurf L K) (valid : L → Prop) (segs : List (Seg L K)) (a : L × ℕ) (h : Vec K) (b : L × ℕ) (k : Vec K) : Prop :=
  (∃ first last G, S.IsDiagonal valid segs a h b k first last G) ∨
  ∃ s p p' e e' g, segs = [s] ∧ S.IsAlong valid s p p' e e' g ∧ a = (s.start.label, e) ∧ b = (s.stop.label, e') ∧ h = p.edge e ∧ k = p'.edge e'

/-- A saddle connection of the surface. -/
def IsSaddle (S : RSurf L K) (valid : L → Prop) (a : L × ℕ) (h : Vec K) (b : L × ℕ) (k : Vec K) : Prop := ∃ segs, S.IsSaddleVia valid segs a h b k

/-! ### Similarities -/

omit [LinearOrder K] [IsStrictOrderedRing K] in
theorem inv_inv_call {g : Similarity K} (hg : g.WF) : g.inv.inv = g := by
  have h1 := Similarity.C01_inv_wf g hg
  have h2 := Similarity.C01_mul_inv g.inv h1
  have h3 := congrArg (fun x => g.mul x) h2
  rw [← Similarity.C01_mul_assoc _ _ _ hg h1, Similarity.C01_mul_inv g hg, Similarity.C01_one_mul, Similarity.C01_mul_one] at h3
  exact h3

omit [LinearOrder K] [IsStrictOrderedRing K] in
theorem inv_sign (g : Similarity K) : g.inv.sign = g.sign := rfl

omit [LinearOrder K] [IsStrictOrderedRing K] in
theorem mul_sign {g h : Similarity K} (hg : g.sign = 1) (hh : h.sign = 1) : (g.mul h).sign = 1 := by
  show g.sign * h.sign = 1
  rw [hg, hh]; rfl

omit [LinearOrder K] [IsStrictOrderedRing K] in
theorem mul_call {g h : Similarity K} (hg : g.sign = 1) (hh : h.sign = 1) (v : Vec K) : (g.mul h).call v = g.call (h.call v) :=
  Similarity.C01_mul_call g h (.inl hg) (.inl hh) v

omit [LinearOrder K] [IsStrictOrderedRing K] in
theorem mul_deriv {g h : Similarity K} (hg : g.sign = 1) (hh : h.sign = 1) (v : Vec K) :
    (g.mul h).derivative.mulVec v = g.derivative.mulVec (h.derivative.mulVec v) := by
  unfold Similarity.derivative Similarity.mul Mat2.mulVec
  ext <;> simp [hg, hh] <;> ring

omit [LinearOrder K] [IsStrictOrderedRing K] in
theorem mul_inv_rev {g h : Similarity K} (hg : g.WF) (hh : h.WF) : (g.mul h).inv = h.inv.mul g.inv := by
  have wg := Similarity.C01_inv_wf g hg
  have wh := Similarity.C01_inv_wf h hh
  have w := Similarity.C01_mul_wf g h hg hh
  have wi := Similarity.C01_inv_wf _ w
  have e1 : (g.mul h).mul (h.inv.mul g.inv) = .one := by
    rw [Similarity.C01_mul_assoc g h _ hg hh, ← Similarity.C01_mul_assoc h h.inv _ hh wh, Similarity.C01_mul_inv h hh, Similarity.C01_one_mul,
      Similarity.C01_mul_inv g hg]
  have e2 := congrArg (fun x => (g.mul h).inv.mul x) e1
  rw [← Similarity.C01_mul_assoc _ _ _ wi w, Similarity.C01_inv_mul _ w, Similarity.C01_one_mul, Similarity.C01_mul_one] at e2
  exact e2.symm

omit [LinearOrder K] [IsStrictOrderedRing K] in
theorem inv_deriv {g : Similarity K} (hg : g.WF) (hs : g.sign = 1) (v : Vec K) :
    g.inv.derivative.mulVec (g.derivative.mulVec v) = v ∧ g.derivative.mulVec (g.inv.derivative.mulVec v) = v := by
  have hi : g.inv.sign = 1 := hs
  have h1 := Similarity.C01_inv_mul g hg
  have h2 := Similarity.C01_mul_inv g hg
  have ho : (Similarity.one : Similarity K).derivative.mulVec v = v := by
    unfold Similarity.derivative Mat2.mulVec Similarity.one; ext <;> simp
  constructor
  · rw [← mul_deriv hi hs, h1, ho]
  · rw [← mul_deriv hs hi, h2, ho]

omit [LinearOrder K] [IsStrictOrderedRing K] in
/-- The inverse matrix of a derivative. -/
theorem inverse_deriv {g : Similarity K} (hg : g.WF) (hs : g.sign = 1) : g.derivative.inverse = g.inv.derivative := by
  have hd := Similarity.det_ne_zero g hg
  have e : g.derivative.det = g.det := by unfold Similarity.derivative Similarity.det Mat2.det; rw [hs]; simp
  unfold Mat2.inverse
  rw [e]
  unfold Similarity.derivative Similarity.inv
  simp [hs]
  ring

theorem one_wf : (Similarity.one : Similarity K).WF := by
  refine ⟨?_, .inl rfl⟩
  simp [Similarity.one]

/-! ### Gluings -/

theorem gluesTo_symm (hS : S.Bordered valid) {l l' : L} {e e' : ℕ} {g : Similarity K} (hl : valid l) (h : S.GluesTo l e l' e' g) :
    S.GluesTo l' e' l e g.inv ∧ valid l' := by
  obtain ⟨ho, hg, hs, p, p', hp, hp', he, h1, h2⟩ := h
  obtain ⟨hl', q, hq, he', hb⟩ := hS.back hl hp he ho
  rw [hp'] at hq; injection hq with hq; subst hq
  exact ⟨⟨hb, Similarity.C01_inv_wf g hg, hs, p', p, hp', hp, he', inv_call hg hs h2, inv_call hg hs h1⟩, hl'⟩

theorem glueTo_ext {l l' l'' : L} {e e' e'' : ℕ} {g g' : Similarity K} (hS : S.Bordered valid) (hl : valid l) (h : S.GluesTo l e l' e' g)
    (h' : S.GluesTo l e l'' e'' g') : l'' = l' ∧ e'' = e' ∧ g' = g := by
  obtain ⟨ho, hg, hs, p, p', hp, hp', he, h1, h2⟩ := h
  obtain ⟨ho2, hg2, hs2, q, q', hq, hq', he2, k1, k2⟩ := h'
  rw [ho] at ho2
  injection ho2 with ho2
  injection ho2 with ho2
  injection ho2 with a1 a2
  subst a1 a2
  rw [hp] at hq; injection hq with hq; subst hq
  rw [hp'] at hq'; injection hq' with hq'; subst hq'
  refine ⟨rfl, rfl, ?_⟩
  exact similarity_ext2 ((hS.valid_of_polygon hl hp).edge_ne e) hs2 hs (k1.trans h1.symm) (k2.trans h2.symm)
where
  similarity_ext2 {p : Poly K} {e : ℕ} {g g' : Similarity K} (hne : p.edge e ≠ 0) (hs : g.sign = 1) (hs' : g'.sign = 1)
      (h1 : g.call (p.vertex e) = g'.call (p.vertex e)) (h2 : g.call (p.vertex (e + 1)) = g'.call (p.vertex (e + 1))) : g = g' := by
    have hn := (normSq_pos' hne).ne'
    have e1 : g.derivative.mulVec (p.edge e) = g'.derivative.mulVec (p.edge e) := by
      have hv : p.vertex (e + 1) = p.vertex e + p.edge e := by unfold Poly.edge; abel
      rw [← Similarity.call_add hs (p.vertex e), ← Similarity.call_add hs' (p.vertex e), ← hv, h1, h2]
    generalize p.edge e = w at hn e1
    generalize p.vertex e = x at h1
    obtain ⟨a, b, s, t, σ⟩ := g
    obtain ⟨a', b', s', t', σ'⟩ := g'
    dsimp only at hs hs'
    subst hs hs'
    unfold Similarity.derivative Mat2.mulVec at e1
    unfold Similarity.call at h1
    simp only [Prod.mk.injEq, if_true] at e1 h1
    obtain ⟨e1, e2⟩ := e1
    obtain ⟨h1, h2⟩ := h1
    have ha : a = a' := by
      apply mul_left_cancel₀ hn
      push_cast at e1 e2
      linear_combination w.1 * e1 + w.2 * e2
    have hb : b = b' := by
      apply mul_left_cancel₀ hn
      push_cast at e1 e2
      linear_combination -w.2 * e1 + w.1 * e2
    subst ha hb
    simp only [Similarity.mk.injEq, true_and]
    refine ⟨by linear_combination h1, by linear_combination h2, trivial⟩

theorem gluesTo_ok (hS : S.Closed valid) {l : L} (hl : valid l) {p : Poly K} (hp : S.polygon l = .ok p) {e : ℕ} (he : e < p.length) :
    ∃ l' e' p' g, S.GluesTo l e l' e' g ∧ S.opp! l e = .ok (l', e') ∧ S.edgeTransformation l e = .ok g ∧ valid l' ∧ S.polygon l' = .ok p' ∧
      e' < p'.length ∧ g.call (p.vertex e) = p'.vertex (e' + 1) ∧ g.call (p.vertex (e + 1)) = p'.vertex e' := by
  obtain ⟨l', e', p', ho, hl', hp', he', hb⟩ := hS.glue l p e hl hp he
  have hv := hS.bordered.valid_of_polygon hl hp
  have hv' := hS.bordered.valid_of_polygon hl' hp'
  obtain ⟨g, hg, hw, hs, g1, g2⟩ := edgeTransformation_ok ho hp hp' (hv.edge_ne e) (hv'.edge_ne e')
  exact ⟨l', e', p', g, ⟨ho, hw, hs, p, p', hp, hp', he, g1, g2⟩, opp!_ok ho, hg, hl', hp', he', g1, g2⟩

theorem edgeTransformation_of_glue (hS : S.Closed valid) {l l' : L} {e e' : ℕ} {g : Similarity K} (hl : valid l) (h : S.GluesTo l e l' e' g) :
    S.edgeTransformation l e = .ok g := by
  obtain ⟨p, -, hp, -, he, -⟩ := h.ends
  obtain ⟨l2, e2, p2, g2, h2, -, h3, -⟩ := gluesTo_ok hS hl hp he
  obtain ⟨-, -, e3⟩ := glueTo_ext hS.bordered hl h h2
  rw [h3, e3]

/-- The inverse of a tangent vector that points to the left of an edge, in terms of the gluing of the edge. -/
theorem cross_at (hS : S.Closed valid) {t : TVec L K} (ht : S.IsTangent valid t) {p : Poly K} (hp : S.polygon t.label = .ok p) {e : ℕ}
    (hpos : t.position = .edgeInterior e) (hc : 0 < ccw (p.edge e) t.vector) {l' : L} {e' : ℕ} {g : Similarity K} (hg : S.GluesTo t.label e l' e' g) :
    S.tvInvert t = .ok ⟨l', g.call t.point, g.derivative.mulVec (-t.vector), .edgeInterior e'⟩ ∧
      S.IsTangent valid ⟨l', g.call t.point, g.derivative.mulVec (-t.vector), .edgeInterior e'⟩ := by
  have hB := hS.bordered
  obtain ⟨q, hq, hv, hpos', hpts⟩ := isTangent_data hB ht
  rw [hp] at hq; injection hq with hq; subst hq
  obtain ⟨he, hopen⟩ := (C12_edge hv t.point e).1 (by rw [← hpos', hpos])
  obtain ⟨ho, hg, hs, p2, p', hp2, hp', he2, g1, g2⟩ := hg
  rw [hp] at hp2; injection hp2 with hp2; subst hp2
  obtain ⟨hl', q, hq, he', hb⟩ := hB.back ht.1 hp he ho
  rw [hp'] at hq; injection hq with hq; subst hq
  have hv' := hB.valid_of_polygon hl' hp'
  have hgl : S.TVGlue valid (t.label, t.point, -t.vector) (l', g.call t.point, g.derivative.mulVec (-t.vector)) :=
    ⟨p, p', e, e', g, ht.1, hp, he, ho, hp', hg, hs, g1, g2, neg_ne_zero.2 hpts.1, rfl, (Similarity.call_add hs _ _).symm, .inl hopen⟩
  have hne : g.derivative.mulVec (-t.vector) ≠ 0 := Similarity.derivative_ne hg hs (neg_ne_zero.2 hpts.1)
  have hcc : 0 < ccw (p'.edge e') (g.derivative.mulVec (-t.vector)) := by
    rw [show p'.edge e' = g.derivative.mulVec (-p.edge e) by rw [Similarity.derivative_neg, derivative_edge hs g1 g2, neg_neg],
      Similarity.ccw_derivative hs]
    refine mul_pos hg.normSq_pos ?_
    rw [show ccw (-p.edge e) (-t.vector) = ccw (p.edge e) t.vector by unfold ccw; simp]
    exact hc
  have hopen' := call_openSide hs g1 g2 hopen
  have hpts' : Points p' (g.call t.point) (g.derivative.mulVec (-t.vector)) := (points_edge hv' he' hopen').2 ⟨hne, .inl hcc⟩
  have hpp := (C12_edge hv' _ e').2 ⟨he', hopen'⟩
  have h1 : S.tangentVector t.label t.point (-t.vector) = .ok ⟨l', g.call t.point, g.derivative.mulVec (-t.vector), .edgeInterior e'⟩ := by
    rw [← hpp]
    exact tangentVector_of_glue hB (tvGlue_symm hB hgl) hp' hpts'
  refine ⟨?_, isTangent_of_ok hB ht.1 h1⟩
  unfold tvInvert; rw [hpos]; exact h1

/-- Two chords that follow each other and the gluing that is between them. -/
theorem follows_glue (hS : S.Closed valid) {s s' : Seg L K} {p : Poly K} {τ : K} (h : S.IsChord valid s p τ) (hf : S.Follows s s') :
    ∃ e e' g, s.stop.position = .edgeInterior e ∧ s'.start.position = .edgeInterior e' ∧ S.GluesTo s.stop.label e s'.start.label e' g ∧
      s'.start.point = g.call s.stop.point ∧ s'.start.vector = g.derivative.mulVec s.start.vector := by
  have hB := hS.bordered
  have hseg : S.IsSeg valid s := .inl ⟨p, τ, h⟩
  obtain ⟨e, q, hq, he, hpos, hc, -⟩ := isSeg_start hB (isSeg_invert hB hseg) hf.1
  obtain ⟨l', e', p', g, hg, -⟩ := gluesTo_ok hS (by rw [h.label]; exact h.valid : valid s.stop.label) hq he
  obtain ⟨h1, -⟩ := cross_at hS (C67_ends hB hseg).2 hq hpos hc hg
  rw [hf.2] at h1
  injection h1 with h1
  refine ⟨e, e', g, hpos, by rw [h1], ?_, by rw [h1], ?_⟩
  · rw [h1]; exact hg
  · rw [h1, h.vector, neg_neg]

/-! ### Unfolding -/

theorem develops_wf {segs : List (Seg L K)} {G : Similarity K} (h : S.Develops segs G) : G.WF ∧ G.sign = 1 := by
  induction h with
  | single s => exact ⟨one_wf, rfl⟩
  | cons _ _ hg _ ih => exact ⟨Similarity.C01_mul_wf _ _ (Similarity.C01_inv_wf _ hg.wf) ih.1, mul_sign hg.sign ih.2⟩

theorem develops_snoc {segs : List (Seg L K)} {G : Similarity K} (h : S.Develops segs G) {last s' : Seg L K} (hl : segs.getLast? = some last) {e e' : ℕ}
    {g : Similarity K} (he : last.stop.position = .edgeInterior e) (he' : s'.start.position = .edgeInterior e')
    (hg : S.GluesTo last.stop.label e s'.start.label e' g) : S.Develops (segs ++ [s']) (G.mul g.inv) := by
  induction h with
  | single s =>
    simp at hl
    subst hl
    rw [Similarity.C01_one_mul, ← Similarity.C01_mul_one g.inv]
    exact .cons he he' hg (.single _)
  | @cons s t rest k k' f G hk hk' hf h ih =>
    rw [List.getLast?_cons_cons] at hl
    rw [Similarity.C01_mul_assoc _ _ _ (Similarity.C01_inv_wf _ hf.wf) (develops_wf h).1]
    exact .cons hk hk' hf (ih hl)

theorem develops_reverse (hS : S.Bordered valid) {segs : List (Seg L K)} {G : Similarity K} (h : S.Develops segs G) (hv : ∀ s ∈ segs, valid s.stop.label) :
    S.Develops (segs.map Seg.invert).reverse G.inv := by
  induction h with
  | single s =>
    have : (Similarity.one : Similarity K).inv = .one := by
      have := Similarity.C01_mul_inv (Similarity.one : Similarity K) one_wf
      rwa [Similarity.C01_one_mul] at this
    rw [this]
    exact .single _
  | @cons s t rest k k' f G hk hk' hf h ih =>
    have wf := develops_wf h
    rw [mul_inv_rev (Similarity.C01_inv_wf _ hf.wf) wf.1]
    have ih := ih fun x hx => hv x (List.mem_cons_of_mem _ hx)
    rw [List.map_cons, List.reverse_cons]
    refine develops_snoc ih (last := t.invert) (by simp) (e := k') (e' := k) hk' hk ?_
    exact (gluesTo_symm hS (hv s (by simp)) hf).1

/-- A line through the inside of polygons is straight: unfolded, it goes from its start in the direction of its first vector. -/
theorem develops_straight (hS : S.Closed valid) {segs : List (Seg L K)} {G : Similarity K} (h : S.Develops segs G)
    (hc : ∀ s ∈ segs, ∃ p τ, S.IsChord valid s p τ) (hf : segs.IsChain S.Follows) {first last : Seg L K} (h1 : segs.head? = some first)
    (h2 : segs.getLast? = some last) :
    (∃ c : K, 0 < c ∧ G.call last.stop.point = first.start.point + c • first.start.vector) ∧
      G.derivative.mulVec last.start.vector = first.start.vector := by
  induction h generalizing first with
  | single s =>
    simp at h1 h2
    subst h1 h2
    obtain ⟨p, τ, hch⟩ := hc s (by simp)
    refine ⟨⟨τ, hch.pos, ?_⟩, ?_⟩
    · rw [Similarity.C01_one_call, hch.stop]
    · unfold Similarity.derivative Mat2.mulVec Similarity.one; ext <;> simp
  | @cons s t rest k k' f G hk hk' hfg h ih =>
    simp only [List.head?_cons, Option.some.injEq] at h1
    subst h1
    rw [List.getLast?_cons_cons] at h2
    obtain ⟨p, τ, hch⟩ := hc s (by simp)
    rw [List.isChain_cons_cons] at hf
    obtain ⟨e, e', g, g1, g2, g3, g4, g5⟩ := follows_glue hS hch hf.1
    rw [hk] at g1; injection g1 with g1; subst g1
    have hval : valid s.stop.label := by rw [hch.label]; exact hch.valid
    obtain ⟨-, -, rfl⟩ := glueTo_ext hS.bordered hval hfg g3
    obtain ⟨⟨c, c0, hG⟩, hD⟩ := ih (fun x hx => hc x (List.mem_cons_of_mem _ hx)) hf.2 rfl h2
    have wf := develops_wf h
    have hi : g.inv.sign = 1 := hfg.sign
    constructor
    · refine ⟨τ + c, add_pos hch.pos c0, ?_⟩
      rw [mul_call hi wf.2, hG, g4, g5]
      have e1 : g.call s.stop.point + c • g.derivative.mulVec s.start.vector = g.call (s.stop.point + c • s.start.vector) := by
        rw [eq_comm, ← sub_eq_iff_eq_add', Similarity.call_add hfg.sign]
        unfold Mat2.mulVec
        ext <;> simp <;> ring
      rw [e1, inv_call hfg.wf hfg.sign rfl, hch.stop, add_smul, add_assoc]
    · rw [mul_deriv hi wf.2, hD, g5, (inv_deriv hfg.wf hfg.sign _).1]

/-- **C68.** A saddle connection, run through in the other direction, is a saddle connection. -/
theorem C68_symm (hS : S.Closed valid) {segs : List (Seg L K)} {a b : L × ℕ} {h k : Vec K} (hs : S.IsSaddleVia valid segs a h b k) :
    S.IsSaddleVia valid (segs.map Seg.invert).reverse b k a h := by
  have hB := hS.bordered
  rcases hs with ⟨first, last, G, hd⟩ | ⟨s, p, p', e, e', g, rfl, hal, rfl, rfl, rfl, rfl⟩
  · refine .inl ⟨last.invert, first.invert, G.inv, ?_⟩
    have wf := develops_wf hd.develops
    exact {
      chord := by
        intro s hs
        rw [List.mem_reverse, List.mem_map] at hs
        obtain ⟨x, hx, rfl⟩ := hs
        obtain ⟨p, τ, hc⟩ := hd.chord x hx
        exact ⟨p, τ, isChord_invert hc⟩
      chain := by
        rw [List.isChain_reverse, List.isChain_map]
        refine List.IsChain.imp_of_mem_imp ?_ hd.chain
        intro x y hx hy hf
        obtain ⟨p, τ, hx⟩ := hd.chord x hx
        obtain ⟨q, σ, hy⟩ := hd.chord y hy
        exact follows_back hS (.inl ⟨p, τ, hx⟩) (.inl ⟨q, σ, hy⟩) hf
      head := by rw [List.head?_reverse, List.getLast?_map, hd.getLast]; rfl
      getLast := by rw [List.getLast?_reverse, List.head?_map, hd.head]; rfl
      label := hd.label'
      position := hd.position'
      label' := hd.label
      position' := hd.position
      develops := develops_reverse hB hd.develops fun s hs => by
        obtain ⟨p, τ, hc⟩ := hd.chord s hs
        rw [hc.label]; exact hc.valid
      holonomy := hd.holonomy'
      holonomy' := by rw [inv_inv_call wf.1]; exact hd.holonomy }
  · exact .inr ⟨s.invert, p', p, e', e, g.inv, rfl, isAlong_invert hB hal, rfl, rfl, rfl, rfl⟩

/-- **C68.** The holonomy of a saddle connection points into the polygon in which it starts, at the vertex from which it starts. -/
theorem C68_direction (hS : S.Closed valid) {a b : L × ℕ} {h k : Vec K} (hs : S.IsSaddle valid a h b k) :
    ∃ p, valid a.1 ∧ S.polygon a.1 = .ok p ∧ a.2 < p.length ∧ Points p (p.vertex a.2) h := by
  have hB := hS.bordered
  obtain ⟨segs, ⟨first, last, G, hd⟩ | ⟨s, p, p', e, e', g, rfl, hal, rfl, rfl, rfl, rfl⟩⟩ := hs
  · obtain ⟨⟨c, c0, h1⟩, -⟩ := develops_straight hS hd.develops hd.chord hd.chain hd.head hd.getLast
    obtain ⟨p, τ, hch⟩ := hd.chord first (List.mem_of_head? hd.head)
    have hv := hB.valid_of_polygon hch.valid hch.polygon
    have hpos := hch.position
    rw [hd.position] at hpos
    obtain ⟨hi, hpt⟩ := (C12_vertex hv _ _).1 hpos.symm
    have hh : h = c • first.start.vector := by rw [hd.holonomy, h1, add_sub_cancel_left]
    refine ⟨p, by rw [← hd.label]; exact hch.valid, by rw [← hd.label]; exact hch.polygon, hi, ?_⟩
    rw [← hpt, hh]
    refine points_of_interior hv (smul_ne c0 hch.ne) (τ0 := div_pos hch.pos c0) fun r r0 r1 => ?_
    rw [smul_smul]
    refine hch.interior _ (mul_pos r0 c0) ?_
    rwa [lt_div_iff₀ c0] at r1
  · have hv := hB.valid_of_polygon hal.valid hal.polygon
    refine ⟨p, hal.valid, hal.polygon, hal.lt, (points_vertex hv hal.lt).2 ⟨hv.edge_ne e, .inl ?_⟩⟩
    rw [C05_isParallel_iff _ _ (hv.edge_ne e)]
    exact ⟨1, one_pos, (one_smul _ _).symm⟩

end RSurf
end Flat
