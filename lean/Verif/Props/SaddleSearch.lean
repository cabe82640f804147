import Verif.Lemmas.SaddleLoop

/-!
# C68: the search for saddle connections finds exactly the saddle connections
-/

namespace Flat
variable {L K : Type} [Field K] [LinearOrder K] [IsStrictOrderedRing K]

namespace RSurf
open Poly
variable {S : RSurf L K} {valid : L → Prop}

/-- The search goes on to the other side of an edge if and only if the edge is in the wedge and some point inside of it is in the circle. -/
theorem scCross_iff (hS : S.Closed valid) {bound : K} {sim : Similarity K} {label : L} (hl : valid label) {w : Vec K × Vec K} {p : Poly K}
    (hp : S.polygon label = .ok p) {i : ℕ} (hi : i < p.length) : ∃ l' e' g p', S.GluesTo label i l' e' g ∧ valid l' ∧ S.polygon l' = .ok p' ∧ e' < p'.length ∧
      ∀ m, S.scCross bound sim label w i (sim.call (p.vertex i)) (sim.call (p.vertex ((i + 1) % p.length))) = .ok [m] ↔
        0 < ccw (sim.call (p.vertex i)) (sim.call (p.vertex (i + 1))) ∧ 0 < ccw w.1 (sim.call (p.vertex (i + 1))) ∧ 0 < ccw (sim.call (p.vertex i)) w.2 ∧
        (∃ θ : K, 0 < θ ∧ θ < 1 ∧
          Circle.distSq (sim.call (p.vertex i) + θ • (sim.call (p.vertex (i + 1)) - sim.call (p.vertex i))) 0 < bound) ∧
        m = ⟨sim.mul g.inv, l', scWedge w (sim.call (p.vertex i)) (sim.call (p.vertex (i + 1))), scVerts p'.length e' 1⟩ := by
  obtain ⟨l', e', p', g, h1, h2, h3, h4, h5, h6, -⟩ := gluesTo_ok hS hl hp hi
  refine ⟨l', e', g, p', h1, h4, h5, h6, fun m => ?_⟩
  rw [vertex_mod]
  set P := sim.call (p.vertex i)
  set Q := sim.call (p.vertex (i + 1))
  unfold scCross
  by_cases hc : 0 < ccw P Q ∧ 0 < ccw w.1 Q ∧ 0 < ccw P w.2
  · rw [if_pos hc]
    have hne : P ≠ Q := by
      intro he
      rw [he, ccw_self] at hc
      exact lt_irrefl _ hc.1
    obtain ⟨x, x1, x2, -⟩ := Circle.C44_line_segment_position ⟨0, bound⟩ P Q hne
    dsimp only at x2
    simp only [x1, bind, Except.bind, h2, h3, h5, pure, Except.pure]
    by_cases hx : x = 1
    · rw [if_pos hx]
      simp only [Except.ok.injEq, List.cons.injEq, and_true]
      constructor
      · rintro rfl; exact ⟨hc.1, hc.2.1, hc.2.2, x2.1 hx, rfl⟩
      · rintro ⟨-, -, -, -, h⟩; exact h.symm
    · rw [if_neg hx]
      constructor
      · intro h; cases h
      · rintro ⟨-, -, -, h, -⟩; exact absurd (x2.2 h) hx
  · rw [if_neg hc]
    constructor
    · intro h; cases h
    · rintro ⟨a, b, c, -⟩; exact absurd ⟨a, b, c⟩ hc

/-- A line through the inside of polygons from the tangent vector `t` to the vertex `b`; unfolded with the polygon of `t` put into the plane by
`sim`, it ends at `h`, and `G` is what puts its last polygon into the plane. -/
structure Path (S : RSurf L K) (valid : L → Prop) (sim : Similarity K) (t : TVec L K) (h : Vec K) (b : L × ℕ) (G : Similarity K) (segs : List (Seg L K))
    (first last : Seg L K) (G' : Similarity K) : Prop where
  chord : ∀ s ∈ segs, ∃ p τ, S.IsChord valid s p τ
  chain : segs.IsChain S.Follows
  head : segs.head? = some first
  start : first.start = t
  getLast : segs.getLast? = some last
  label' : last.stop.label = b.1
  position' : last.stop.position = .vertex b.2
  develops : S.Develops segs G'
  eq : G = sim.mul G'
  point : G.call last.stop.point = h

/-- What is seen is the end of a line. -/
theorem sees_sound (hS : S.Closed valid) (hconv : ∀ l p, valid l → S.polygon l = .ok p → p.Convex) {bound : K} {n : ScNode L K} {h : Vec K} {b : L × ℕ}
    {G : Similarity K} (hs : S.Sees bound n h b G) {p : Poly K} {o : Position} {U : List ℕ} (hG : S.ScGood valid n.sim n.label n.wedge p o U)
    (hU : ∀ i ∈ n.verts, i ∈ U) :
    InWedge n.wedge h ∧ h.1 ^ 2 + h.2 ^ 2 ≤ bound ∧ ∀ t s, S.Entry valid n.sim t h s → t.label = n.label → t.position = o →
      ∃ segs first last G', S.Path valid n.sim t h b G segs first last G' ∧
        ∃ i ∈ n.verts, first.stop.position = .vertex i ∨ first.stop.position = .edgeInterior i := by
  have hB := hS.bordered
  induction hs generalizing p o U with
  | @vertex n q i hp hi hw hb =>
    rw [hG.polygon] at hp; injection hp with hp; subst hp
    refine ⟨hw, hb, fun t s ht h1 h2 => ?_⟩
    obtain ⟨c, τ, c1, c2, -, -, c3⟩ := hG.step hS hw ht h1 h2
    have hpos := (c3 i (hU i hi)).1.2 ⟨1, (one_smul _ _).symm⟩
    have hv := hB.valid_of_polygon hG.mem hG.polygon
    have hpt : c.stop.point = p.vertex i := by
      have := c1.position'
      rw [hpos] at this
      exact ((C12_vertex hv _ i).1 this.symm).2
    refine ⟨[c], c, c, .one, ⟨by simpa using ⟨p, τ, c1⟩, .singleton _, rfl, c2, rfl, by rw [c1.label, c2, h1], hpos, .single c, ?_, by rw [hpt]⟩, i, hi, .inl hpos⟩
    rw [Similarity.C01_mul_one]
  | @edge n m q i h b G hp hi hc hs ih =>
    rw [hG.polygon] at hp; injection hp with hp; subst hp
    have hiU := hU i hi
    obtain ⟨l', e', g, p', g1, g2, g3, g4, g5⟩ := scCross_iff hS (bound := bound) (sim := n.sim) (w := n.wedge) hG.mem hG.polygon (hG.lt i hiU)
    obtain ⟨a1, a2, a3, -, rfl⟩ := (g5 m).1 hc
    have hG' := good_child hS hG g1 g3 g4 (hconv _ _ g2 g3) a1 a2 a3
    obtain ⟨b1, b2, b3⟩ := ih hG' fun i hi => hi
    obtain ⟨w1, w2⟩ := (scWedge_iff hG.wedge a1 a2 a3 h).1 b1
    refine ⟨w1, b2, fun t s ht h1 h2 => ?_⟩
    obtain ⟨c, τ, c1, c2, ⟨s1, s01, hs1⟩, -, c3⟩ := hG.step hS w1 ht h1 h2
    have hpos := (c3 i hiU).2.2 ⟨a1, w2⟩
    have hs0 := ht.nonneg
    have hg' : S.GluesTo c.start.label i l' e' g := by rw [c2, h1]; exact g1
    obtain ⟨k1, k2, k3⟩ := entry_child hS c1 hpos hg' hG.sign hs1 (by rw [c2]; exact ht.vector) (by linarith)
    obtain ⟨segs, first, last, G', d, -⟩ := b3 _ _ k3 rfl rfl
    obtain ⟨rest, rfl⟩ : ∃ rest, segs = first :: rest := by
      have := d.head
      cases segs with
      | nil => cases this
      | cons x y => injection this with this; exact ⟨y, by rw [this]⟩
    refine ⟨c :: first :: rest, c, last, g.inv.mul G', ⟨?_, ?_, rfl, c2, ?_, d.label', d.position', ?_, ?_, d.point⟩, i, hi, .inr hpos⟩
    · intro x hx
      rcases List.mem_cons.1 hx with rfl | hx
      · exact ⟨p, τ, c1⟩
      · exact d.chord x hx
    · rw [List.isChain_cons_cons]
      exact ⟨⟨k2, by rw [d.start]; exact k1⟩, d.chain⟩
    · rw [List.getLast?_cons_cons]; exact d.getLast
    · refine .cons hpos (by rw [d.start]) ?_ d.develops
      rw [d.start, c1.label]
      exact hg'
    · rw [d.eq, Similarity.C01_mul_assoc _ _ _ hG.wf (Similarity.C01_inv_wf _ g1.wf)]

theorem chord_ext (hS : S.Bordered valid) {c d : Seg L K} {p q : Poly K} {τ σ : K} (hc : S.IsChord valid c p τ) (hd : S.IsChord valid d q σ)
    (h : c.start = d.start) : c = d := isSeg_ext hS (.inl ⟨_, _, hc⟩) (.inl ⟨_, _, hd⟩) h

theorem normSq_smul (c : K) (h : Vec K) : Circle.distSq (c • h) 0 = c ^ 2 * (h.1 ^ 2 + h.2 ^ 2) := by
  unfold Circle.distSq; simp; ring

/-- The end of a line is seen if it is in the wedge and close enough. -/
theorem sees_complete (hS : S.Closed valid) (hconv : ∀ l p, valid l → S.polygon l = .ok p → p.Convex) {bound : K} {segs : List (Seg L K)}
    {G' : Similarity K} (hd : S.Develops segs G') {n : ScNode L K} {p : Poly K} {o : Position} (hG : S.ScGood valid n.sim n.label n.wedge p o n.verts)
    {t : TVec L K} {s : K} {h : Vec K} {b : L × ℕ} {G : Similarity K} {first last : Seg L K} (ht : S.Entry valid n.sim t h s) (h1 : t.label = n.label)
    (h2 : t.position = o) (hP : S.Path valid n.sim t h b G segs first last G') (hw : InWedge n.wedge h) (hb : h.1 ^ 2 + h.2 ^ 2 ≤ bound) :
    S.Sees bound n h b G := by
  have hB := hS.bordered
  induction hd generalizing n p o t s first with
  | single c =>
    have e1 := hP.head
    have e2 := hP.getLast
    simp only [List.head?_cons, Option.some.injEq] at e1
    simp only [List.getLast?_singleton, Option.some.injEq] at e2
    subst e1 e2
    obtain ⟨q, σ, hc⟩ := hP.chord c (by simp)
    obtain ⟨d, τ, d1, d2, -, ⟨i, hi, hpos⟩, -⟩ := hG.step hS hw ht h1 h2
    have : c = d := chord_ext hB hc d1 (hP.start.trans d2.symm)
    subst this
    rw [hP.position'] at hpos
    have hbi : b.2 = i := by
      rcases hpos with hpos | hpos
      · injection hpos
      · cases hpos
    have hlab : b.1 = n.label := by rw [← hP.label', hc.label, hP.start, h1]
    have hv := hB.valid_of_polygon hG.mem hG.polygon
    have hq : S.polygon c.start.label = .ok p := by rw [hP.start, h1]; exact hG.polygon
    have hcp := hc.polygon
    rw [hq] at hcp; injection hcp with hcp; subst hcp
    have hpt : c.stop.point = p.vertex i := by
      have := hc.position'
      rw [hP.position', hbi] at this
      exact ((C12_vertex hv _ i).1 this.symm).2
    have hGe := hP.eq
    rw [Similarity.C01_mul_one] at hGe
    have hh := hP.point
    rw [hGe, hpt] at hh
    subst hh
    rw [hGe, show b = (n.label, i) by rw [← hlab, ← hbi]]
    exact .vertex hG.polygon hi hw hb
  | @cons c c' rest e e' g G1 he he' hg hd ih =>
    have e1 := hP.head
    simp only [List.head?_cons, Option.some.injEq] at e1
    subst e1
    have e2 := hP.getLast
    rw [List.getLast?_cons_cons] at e2
    obtain ⟨q, σ, hc⟩ := hP.chord c (by simp)
    obtain ⟨d, τ, d1, d2, ⟨s1, s01, hs1⟩, ⟨i, hi, hpos⟩, d3⟩ := hG.step hS hw ht h1 h2
    have : c = d := chord_ext hB hc d1 (hP.start.trans d2.symm)
    subst this
    rw [he] at hpos
    have hei : e = i := by
      rcases hpos with hpos | hpos
      · cases hpos
      · injection hpos
    subst hei
    obtain ⟨a1, a2⟩ := (d3 e hi).2.1 he
    have hs0 := ht.nonneg
    have hlab : c.stop.label = n.label := by rw [hc.label, hP.start, h1]
    have hg' : S.GluesTo n.label e c'.start.label e' g := by rw [← hlab]; exact hg
    obtain ⟨l', e2', g', p', g1, g2, g3, g4, g5⟩ := scCross_iff hS (bound := bound) (sim := n.sim) (w := n.wedge) hG.mem hG.polygon (hG.lt e hi)
    obtain ⟨q1, q2, q3⟩ := glueTo_ext hB hG.mem g1 hg'
    subst q1 q2 q3
    have w1 := hG.left h hw (e + 1) a2.2
    have w2 := hG.right h hw e a2.1
    have hf := (List.isChain_cons_cons.1 hP.chain)
    obtain ⟨k1, k2, k3⟩ := entry_child hS hc he (by rw [← hc.label]; exact hg) hG.sign hs1 (by rw [hP.start]; exact ht.vector) (by linarith)
    have hst : c'.start = ⟨c'.start.label, g.call c.stop.point, g.derivative.mulVec c.start.vector, .edgeInterior e'⟩ := by
      have := hf.1.2
      rw [k1] at this
      injection this with this
      exact this.symm
    rw [← hst] at k3
    have hG' := good_child hS hG g1 g3 g4 (hconv _ _ g2 g3) a1 w1 w2
    have hP' : S.Path valid (n.sim.mul g.inv) c'.start h b G (c' :: rest) c' last G1 := by
      refine ⟨fun x hx => hP.chord x (List.mem_cons_of_mem _ hx), hf.2, rfl, rfl, e2, hP.label', hP.position', hd, ?_, hP.point⟩
      rw [hP.eq, Similarity.C01_mul_assoc _ _ _ hG.wf (Similarity.C01_inv_wf _ hg.wf)]
    -- the edge is crossed before the end of the line
    have hs1' : s1 < 1 := by
      obtain ⟨⟨r, r0, hr⟩, -⟩ := develops_straight hS hd hP'.chord hP'.chain hP'.head hP'.getLast
      have wf := develops_wf hd
      have e3 := hP'.point
      have hsg : (n.sim.mul g.inv).sign = 1 := mul_sign hG.sign hg.sign
      rw [hP'.eq, mul_call hsg wf.2, hr, ← sub_eq_zero] at e3
      have e4 : (n.sim.mul g.inv).call (c'.start.point + r • c'.start.vector) = s1 • h + r • h := by
        rw [eq_add_of_sub_eq' (Similarity.call_add hsg c'.start.point (r • c'.start.vector)), k3.point, mulVec_smul, k3.vector]
      rw [e4] at e3
      by_contra hge
      push Not at hge
      have : (s1 + r - 1) • h = 0 := by rw [sub_smul, add_smul, one_smul]; exact e3
      exact smul_ne (by linarith) (inWedge_ne hw) this
    have hcirc : ∃ θ : K, 0 < θ ∧ θ < 1 ∧
        Circle.distSq (n.sim.call (p.vertex e) + θ • (n.sim.call (p.vertex (e + 1)) - n.sim.call (p.vertex e))) 0 < bound := by
      have hv := hB.valid_of_polygon hG.mem hG.polygon
      have hq : S.polygon c.start.label = .ok p := by rw [hP.start, h1]; exact hG.polygon
      have hcp := hc.polygon
      rw [hq] at hcp; injection hcp with hcp; subst hcp
      have hpp := hc.position'
      rw [he] at hpp
      obtain ⟨-, θ, θ0, θ1, hθ⟩ := (C12_edge hv _ e).1 hpp.symm
      refine ⟨θ, θ0, θ1, ?_⟩
      have : n.sim.call (p.vertex e) + θ • (n.sim.call (p.vertex (e + 1)) - n.sim.call (p.vertex e)) = s1 • h := by
        rw [← hs1, hθ, call_sub hG.sign, ← mulVec_smul, ← Similarity.call_add hG.sign (p.vertex e)]
        show _ + (n.sim.call (p.vertex e + θ • p.edge e) - _) = _
        abel
      rw [this, normSq_smul]
      have hn : 0 < h.1 ^ 2 + h.2 ^ 2 := by
        have := normSq_pos' (inWedge_ne hw)
        rw [sq, sq]; exact this
      refine lt_of_lt_of_le ?_ hb
      have : s1 ^ 2 < 1 := by
        rw [sq]
        have := mul_lt_mul'' hs1' hs1' (by linarith) (by linarith)
        rwa [one_mul] at this
      have := mul_lt_mul_of_pos_right this hn
      rwa [one_mul] at this
    refine .edge (n := n) hG.polygon hi ((g5 _).2 ⟨a1, w1, w2, hcirc, rfl⟩) ?_
    exact ih hG' k3 rfl (by rw [hst]) hP' ((scWedge_iff hG.wedge a1 w1 w2 h).2 ⟨hw, a2⟩)

end RSurf
end Flat
