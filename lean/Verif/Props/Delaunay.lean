import Verif.Model.Delaunay
import Verif.Props.TriangleFlip
import Verif.Props.Circle
import Mathlib.Algebra.BigOperators.Group.Finset.Basic

/-!
# C29, C30: Delaunay flips
-/

namespace Flat
namespace MSurf
variable {L K : Type} [LinearOrder L] [Field K] [LinearOrder K] [IsStrictOrderedRing K]

/-- The quantity whose sign decides about a flip: up to a positive factor the sine of the sum of the two angles opposite to
the edge. -/
def delN (a b c d : Vec K) : K := -(dot c d * ccw a b + ccw c d * dot a b)

theorem simFromVectors_ok (u v : Vec K) (hu : u ≠ 0) :
    ∃ m, simFromVectors u v = .ok m ∧ m.a * normSq u = dot u v ∧ m.c * normSq u = ccw u v := by
  have hn : normSq u ≠ 0 := normSq_ne_zero hu
  have hn' : u.1 * u.1 + u.2 * u.2 ≠ 0 := hn
  unfold simFromVectors similarityFromVectors
  by_cases h : u = v
  · subst h
    rw [if_pos rfl]
    exact ⟨_, rfl, by simp [Mat2.one, normSq, dot], by simp [Mat2.one, ccw]; ring⟩
  · rw [if_neg h]
    simp only [if_neg hn']
    refine ⟨_, rfl, ?_, ?_⟩
    · simp only [normSq, dot]
      rw [div_mul_cancel₀ _ hn']
    · simp only [normSq, ccw]
      rw [div_mul_cancel₀ _ hn']

theorem normSq_pos' {u : Vec K} (hu : u ≠ 0) : 0 < normSq u :=
  lt_of_le_of_ne (add_nonneg (mul_self_nonneg _) (mul_self_nonneg _)) (Ne.symm (normSq_ne_zero hu))

/-- The sign of the entry of the product of two rotation matrices. -/
theorem sim_sign {u v u' v' : Vec K} (hu : u ≠ 0) (hu' : u' ≠ 0) {m m' : Mat2 K} (h1 : m.a * normSq u = dot u v)
    (h2 : m.c * normSq u = ccw u v) (h1' : m'.a * normSq u' = dot u' v') (h2' : m'.c * normSq u' = ccw u' v')
    (hd : m.d = m.a ∨ True) (hm : m.d * normSq u = dot u v) :
    (m.mul m').c * (normSq u * normSq u') = ccw u v * dot u' v' + dot u v * ccw u' v' := by
  simp only [Mat2.mul]
  linear_combination (m'.a * normSq u') * h2 + (m'.c * normSq u') * hm + ccw u v * h1' + dot u v * h2'

theorem simFromVectors_ok' (u v : Vec K) (hu : u ≠ 0) :
    ∃ m, simFromVectors u v = .ok m ∧ m.a * normSq u = dot u v ∧ m.c * normSq u = ccw u v ∧ m.d * normSq u = dot u v := by
  obtain ⟨m, h1, h2, h3⟩ := simFromVectors_ok u v hu
  refine ⟨m, h1, h2, h3, ?_⟩
  rw [← h2]
  congr 1
  unfold simFromVectors similarityFromVectors at h1
  split_ifs at h1 with h
  · injection h1 with h1; rw [← h1]; rfl
  · have hn' : u.1 * u.1 + u.2 * u.2 ≠ 0 := normSq_ne_zero hu
    simp only [if_neg hn'] at h1
    injection h1 with h1
    rw [← h1]

theorem needs_sign (u v u' v' : Vec K) (hu : u ≠ 0) (hu' : u' ≠ 0) :
    ∃ m m', simFromVectors u v = .ok m ∧ simFromVectors u' v' = .ok m' ∧
      ((m.mul m').c < 0 ↔ ccw u v * dot u' v' + dot u v * ccw u' v' < 0) ∧
      ((m.mul m').c = 0 ↔ ccw u v * dot u' v' + dot u v * ccw u' v' = 0) := by
  obtain ⟨m, h1, h2, h3, h4⟩ := simFromVectors_ok' u v hu
  obtain ⟨m', h1', h2', h3', h4'⟩ := simFromVectors_ok' u' v' hu'
  have hpos := mul_pos (normSq_pos' hu) (normSq_pos' hu')
  have := sim_sign hu hu' h2 h3 h2' h3' (Or.inr trivial) h4
  refine ⟨m, m', h1, h1', ?_, ?_⟩
  · rw [← this]
    constructor
    · intro h; exact mul_neg_of_neg_of_pos h hpos
    · intro h; by_contra hn; have := mul_nonneg (not_lt.1 hn) hpos.le; linarith
  · rw [← this, mul_eq_zero]
    simp [ne_of_gt hpos]

theorem needsFlip_eq {s : MSurf L (Poly K)} (hs : GInv s) {l1 l2 : L} {e1 e2 : ℕ} {P1 P2 : Poly K}
    (hp1 : s.polygons.get l1 = some P1) (hp2 : s.polygons.get l2 = some P2) (h1 : P1.length = 3) (h2 : P2.length = 3)
    (ho : s.opp l1 e1 = some (l2, (e2 : Int))) (hn1 : P1.edge (e1 + 2) ≠ 0) (hn2 : P2.edge (e2 + 2) ≠ 0) :
    s.delaunayEdgeNeedsFlip l1 e1 =
      .ok (decide (delN (P2.edge (e2 + 1)) (P2.edge (e2 + 2)) (P1.edge (e1 + 1)) (P1.edge (e1 + 2)) < 0)) := by
  have he : s.IsEdge l1 e1 := opp_isEdge hs.toShape ho
  have hopp : s.oppositeEdge! l1 (e1 : Int) = .ok (l2, (e2 : Int)) := by
    unfold oppositeEdge!; rw [oppositeEdge_eq_opp hs.toShape he, ho]
  obtain ⟨m, m', k1, k2, k3, -⟩ := needs_sign (P1.edge (e1 + 2)) (-P1.edge (e1 + 1)) (P2.edge (e2 + 2)) (-P2.edge (e2 + 1)) hn1 hn2
  have hN : ccw (P1.edge (e1 + 2)) (-P1.edge (e1 + 1)) * dot (P2.edge (e2 + 2)) (-P2.edge (e2 + 1)) +
      dot (P1.edge (e1 + 2)) (-P1.edge (e1 + 1)) * ccw (P2.edge (e2 + 2)) (-P2.edge (e2 + 1)) =
      delN (P2.edge (e2 + 1)) (P2.edge (e2 + 2)) (P1.edge (e1 + 1)) (P1.edge (e1 + 2)) := by
    simp only [delN, ccw, dot, Prod.fst_neg, Prod.snd_neg]
    ring
  rw [hN] at k3
  have a1 : nv P1 = 3 := h1
  have a2 : nv P2 = 3 := h2
  unfold delaunayEdgeNeedsFlip
  simp only [bind, Except.bind, hopp, polygon_ok.2 hp1, polygon_ok.2 hp2, a1, a2, ne_eq, not_true_eq_false, or_self, if_false,
    Int.toNat_natCast, k1, k2, pure, Except.pure, k3]

theorem delN_scale {g : Similarity K} (hg : g.sign = 1) (a b c d : Vec K) :
    delN (g.derivative.mulVec a) (g.derivative.mulVec b) c d = (g.a * g.a + g.b * g.b) * delN a b c d := by
  simp only [delN, dot, ccw, Mat2.mulVec, Similarity.derivative, hg, Int.cast_one]
  ring

/-- The power of a point with respect to a circle through a triangle. -/
theorem delN_power {A B C D : Vec K} {c : Circle K} (hA : Circle.distSq A c.center = c.radiusSq)
    (hB : Circle.distSq B c.center = c.radiusSq) (hC : Circle.distSq C c.center = c.radiusSq) :
    delN (D - A) (B - D) (C - B) (A - C) = ccw (B - A) (C - B) * (Circle.distSq D c.center - c.radiusSq) := by
  simp only [Circle.distSq] at hA hB hC ⊢
  simp only [delN, dot, ccw, Prod.fst_sub, Prod.snd_sub]
  linear_combination
    (((D.1 - A.1) * (C.2 - A.2) - (D.2 - A.2) * (C.1 - A.1)) + ((B.1 - A.1) * (D.2 - A.2) - (B.2 - A.2) * (D.1 - A.1)) - ((B.1 - A.1) * (C.2 - A.2) - (B.2 - A.2) * (C.1 - A.1))) * hA -
      ((D.1 - A.1) * (C.2 - A.2) - (D.2 - A.2) * (C.1 - A.1)) * hB - ((B.1 - A.1) * (D.2 - A.2) - (B.2 - A.2) * (D.1 - A.1)) * hC

/-- The edges of a triangle of positive area are not zero. -/
theorem edge_ne_zero_of_area {p : Poly K} (h : p.length = 3) (ha : 0 < p.area) (i : ℕ) : p.edge i ≠ 0 := by
  intro h0
  have := area_of_length_three p h (i + 2)
  rw [Poly.edge_congr p (i := i + 2 + 1) (j := i) (by rw [h]; omega), h0] at this
  simp only [ccw, Prod.fst_zero, Prod.snd_zero, zero_mul, sub_zero] at this
  linarith

/-- Everything about two glued triangles that is used below. -/
theorem glued_triangles {s : MSurf L (Poly K)} (hs : GInv s) {l1 l2 : L} {e1 e2 : ℕ} {P1 P2 : Poly K}
    (hp1 : s.polygons.get l1 = some P1) (hp2 : s.polygons.get l2 = some P2) (h1 : P1.length = 3) (h2 : P2.length = 3)
    (ho : s.opp l1 e1 = some (l2, (e2 : Int))) (a1 : 0 < P1.area) (a2 : 0 < P2.area) :
    ∃ g, s.edgeTransformation l2 e2 = .ok g ∧ g.sign = 1 ∧ 0 < g.a * g.a + g.b * g.b ∧
      g.call (P2.vertex e2) = P1.vertex (e1 + 1) ∧ g.call (P2.vertex (e2 + 1)) = P1.vertex e1 := by
  have ho' := opp_back hs ho
  have he : s.IsEdge l2 e2 := opp_isEdge hs.toShape ho'
  have hopp' : s.oppositeEdge! l2 (e2 : Int) = .ok (l1, (e1 : Int)) := by
    unfold oppositeEdge!; rw [oppositeEdge_eq_opp hs.toShape he, ho']
  have hn1 := edge_ne_zero_of_area h1 a1 e1
  have hn2 := edge_ne_zero_of_area h2 a2 e2
  obtain ⟨g, hg⟩ := (edgeTransformationPts_isSome (P2.vertex e2) (P2.vertex (e2 + 1)) (P1.vertex (e1 + 1)) (P1.vertex e1)).2
    ⟨fun h => hn2 (by unfold Poly.edge; rw [h, sub_self]), fun h => hn1 (by unfold Poly.edge; rw [h, sub_self])⟩
  obtain ⟨hwf, hsign, hga, hgb⟩ := edgeTransformationPts_spec _ _ _ _ _ hg
  refine ⟨g, ?_, hsign, ?_, hga, hgb⟩
  · unfold edgeTransformation
    simp only [bind, Except.bind, polygon_ok.2 hp1, polygon_ok.2 hp2, hopp', Int.toNat_natCast]
    rw [hg]
    rfl
  · exact lt_of_le_of_ne (add_nonneg (mul_self_nonneg _) (mul_self_nonneg _)) (Ne.symm hwf.1)

theorem ccw_vertices_three {p : Poly K} (h : p.length = 3) (ha : 0 < p.area) (i : ℕ) :
    0 < ccw (p.vertex (i + 1) - p.vertex i) (p.vertex (i + 2) - p.vertex (i + 1)) := by
  have := area_of_length_three p h (i + 2)
  rw [Poly.edge_congr p (i := i + 2 + 1) (j := i) (by rw [h]; omega),
    Poly.edge_congr p (i := i + 2 + 2) (j := i + 1) (by rw [h]; omega)] at this
  unfold Poly.edge at this
  rw [show i + 1 + 1 = i + 2 from rfl] at this
  linarith

variable [LabelNum L]

/-- **C29**. The edge between two triangles needs a flip iff the vertex of the second triangle opposite to the edge, placed
next to the first triangle, is strictly inside of the circumscribed circle of the first triangle, and the triangles are to be
joined iff the vertex is on this circle. -/
theorem C29_flip_iff_in_circle {s : MSurf L (Poly K)} (h : Reachable s) {l1 l2 : L} {e1 e2 : ℕ} {P1 P2 : Poly K}
    (hp1 : s.polygon l1 = .ok P1) (hp2 : s.polygon l2 = .ok P2) (h1 : P1.length = 3) (h2 : P2.length = 3)
    (a1 : 0 < P1.area) (a2 : 0 < P2.area) (ho : s.oppositeEdge l1 e1 = .ok (some (l2, (e2 : Int)))) :
    ∃ g c b b', s.edgeTransformation l2 e2 = .ok g ∧ P1.circumscribedCircle = .ok c ∧
      s.delaunayEdgeNeedsFlip l1 e1 = .ok b ∧ s.delaunayEdgeNeedsJoin l1 e1 = .ok b' ∧
      (b = true ↔ c.pointPosition (g.call (P2.vertex (e2 + 2))) = 1) ∧
      (b' = true ↔ c.pointPosition (g.call (P2.vertex (e2 + 2))) = 0) := by
  obtain ⟨k, hk, -, -, hopp, -⟩ := oppositeEdge_some h.ginv ho
  dsimp only at hk hopp
  rw [Int.natCast_inj] at hk
  subst hk
  have hp1' := polygon_ok.1 hp1
  have hp2' := polygon_ok.1 hp2
  obtain ⟨g, hT, hsign, hpos, hga, hgb⟩ := glued_triangles h.ginv hp1' hp2' h1 h2 hopp a1 a2
  obtain ⟨c, hc⟩ : ∃ c, P1.circumscribedCircle = .ok c := by
    have hne : ccw (P1.vertex 1 - P1.vertex 0) (P1.vertex 2 - P1.vertex 0) ≠ 0 := by
      have := ccw_vertices_three h1 a1 0
      have e : ccw (P1.vertex 1 - P1.vertex 0) (P1.vertex 2 - P1.vertex 0) = ccw (P1.vertex (0 + 1) - P1.vertex 0) (P1.vertex (0 + 2) - P1.vertex (0 + 1)) := by
        simp only [ccw, Prod.fst_sub, Prod.snd_sub, zero_add]; ring
      rw [e]
      exact this.ne'
    obtain ⟨m, hm⟩ := (Circle.C44_three_points_ok_iff _ _ _).2 hne
    refine ⟨m, ?_⟩
    unfold Poly.circumscribedCircle
    simp only [bind, Except.bind, hm, h1]
    rfl
  have hon : ∀ i, Circle.distSq (P1.vertex i) c.center = c.radiusSq := by
    intro i
    have hne : ccw (P1.vertex 1 - P1.vertex 0) (P1.vertex 2 - P1.vertex 0) ≠ 0 := by
      have := ccw_vertices_three h1 a1 0
      have e : ccw (P1.vertex 1 - P1.vertex 0) (P1.vertex 2 - P1.vertex 0) = ccw (P1.vertex (0 + 1) - P1.vertex 0) (P1.vertex (0 + 2) - P1.vertex (0 + 1)) := by
        simp only [ccw, Prod.fst_sub, Prod.snd_sub, zero_add]; ring
      rw [e]
      exact this.ne'
    apply (Circle.C44_circumscribed_circle P1 (by omega) hne c).1 hc
    rw [← Poly.vertex_mod, Poly.vertex_of_lt P1 (Nat.mod_lt i (by omega))]
    exact List.getElem_mem _
  have hN := needsFlip_eq h.ginv hp1' hp2' h1 h2 hopp (edge_ne_zero_of_area h1 a1 _) (edge_ne_zero_of_area h2 a2 _)
  set D := g.call (P2.vertex (e2 + 2)) with hD
  have hpow := delN_power (D := D) (hon e1) (hon (e1 + 1)) (hon (e1 + 2))
  have ea : g.derivative.mulVec (P2.edge (e2 + 1)) = D - P1.vertex e1 := by
    unfold Poly.edge; rw [← Poly.call_sub hsign, show e2 + 1 + 1 = e2 + 2 from rfl, hgb]
  have eb : g.derivative.mulVec (P2.edge (e2 + 2)) = P1.vertex (e1 + 1) - D := by
    unfold Poly.edge
    rw [← Poly.call_sub hsign, show e2 + 2 + 1 = e2 + P2.length by omega, Poly.vertex_add_length, hga]
  have ec : P1.edge (e1 + 1) = P1.vertex (e1 + 2) - P1.vertex (e1 + 1) := rfl
  have ed : P1.edge (e1 + 2) = P1.vertex e1 - P1.vertex (e1 + 2) := by
    unfold Poly.edge
    rw [show e1 + 2 + 1 = e1 + P1.length by omega, Poly.vertex_add_length]
  rw [← ea, ← eb, ← ec, ← ed, delN_scale hsign] at hpow
  have hX := ccw_vertices_three h1 a1 e1
  rw [show P1.vertex (e1 + 2) - P1.vertex (e1 + 1) = P1.edge (e1 + 1) from rfl] at hX
  set N := delN (P2.edge (e2 + 1)) (P2.edge (e2 + 2)) (P1.edge (e1 + 1)) (P1.edge (e1 + 2)) with hNdef
  -- the join test
  obtain ⟨m, m', k1, k2, -, k4⟩ := needs_sign (P1.vertex e1 - P1.vertex (e1 + 2)) (-P1.edge (e1 + 1))
    (P2.vertex e2 - P2.vertex (e2 + 2)) (-P2.edge (e2 + 1)) (by rw [← ed]; exact edge_ne_zero_of_area h1 a1 _)
    (by
      have : P2.edge (e2 + 2) = P2.vertex e2 - P2.vertex (e2 + 2) := by
        unfold Poly.edge
        rw [show e2 + 2 + 1 = e2 + P2.length by omega, Poly.vertex_add_length]
      rw [← this]; exact edge_ne_zero_of_area h2 a2 _)
  have hN2 : ccw (P1.vertex e1 - P1.vertex (e1 + 2)) (-P1.edge (e1 + 1)) * dot (P2.vertex e2 - P2.vertex (e2 + 2)) (-P2.edge (e2 + 1)) +
      dot (P1.vertex e1 - P1.vertex (e1 + 2)) (-P1.edge (e1 + 1)) * ccw (P2.vertex e2 - P2.vertex (e2 + 2)) (-P2.edge (e2 + 1)) = N := by
    have : P2.edge (e2 + 2) = P2.vertex e2 - P2.vertex (e2 + 2) := by
      unfold Poly.edge
      rw [show e2 + 2 + 1 = e2 + P2.length by omega, Poly.vertex_add_length]
    rw [← ed, ← this, hNdef]
    simp only [delN, ccw, dot, Prod.fst_neg, Prod.snd_neg]
    ring
  rw [hN2] at k4
  have he : s.IsEdge l1 e1 := opp_isEdge h.ginv.toShape hopp
  have hopp! : s.oppositeEdge! l1 (e1 : Int) = .ok (l2, (e2 : Int)) := by
    unfold oppositeEdge!; rw [oppositeEdge_eq_opp h.ginv.toShape he, hopp]
  have hJ : s.delaunayEdgeNeedsJoin l1 e1 = .ok (decide ((m.mul m').c = 0)) := by
    unfold delaunayEdgeNeedsJoin
    simp only [bind, Except.bind, hopp!, hp1, hp2, Int.toNat_natCast, k1, k2, pure, Except.pure]
  have hcp := Circle.C44_point_position c D
  refine ⟨g, c, _, _, hT, hc, hN, hJ, ?_, ?_⟩
  · rw [decide_eq_true_eq, hcp.1]
    constructor
    · intro hlt
      have h5 := mul_neg_of_pos_of_neg hpos hlt
      rw [hpow] at h5
      by_contra hn
      have := mul_nonneg hX.le (sub_nonneg.2 (not_lt.1 hn))
      linarith
    · intro hlt
      have h5 := mul_neg_of_pos_of_neg hX (sub_neg.2 hlt)
      rw [← hpow] at h5
      by_contra hn
      have := mul_nonneg hpos.le (not_lt.1 hn)
      linarith
  · rw [decide_eq_true_eq, k4, hcp.2.1]
    constructor
    · intro h0
      rw [h0, mul_zero] at hpow
      have := (mul_eq_zero.1 hpow.symm).resolve_left hX.ne'
      exact sub_eq_zero.1 this
    · intro h0
      rw [h0, sub_self, mul_zero] at hpow
      exact (mul_eq_zero.1 hpow).resolve_left hpos.ne'

omit [LabelNum L] [IsStrictOrderedRing K] [LinearOrder K] [LinearOrder L] in
theorem delN_symm (a b c d : Vec K) : delN a b c d = delN c d a b := by
  simp only [delN]; ring

/-- **C29**. The two triangles at an edge agree on whether it needs a flip. -/
theorem C29_symmetric {s : MSurf L (Poly K)} (h : Reachable s) {l1 l2 : L} {e1 e2 : ℕ} {P1 P2 : Poly K}
    (hp1 : s.polygon l1 = .ok P1) (hp2 : s.polygon l2 = .ok P2) (h1 : P1.length = 3) (h2 : P2.length = 3)
    (a1 : 0 < P1.area) (a2 : 0 < P2.area) (ho : s.oppositeEdge l1 e1 = .ok (some (l2, (e2 : Int)))) :
    s.delaunayEdgeNeedsFlip l1 e1 = s.delaunayEdgeNeedsFlip l2 e2 := by
  obtain ⟨k, hk, -, hopp', hopp, -⟩ := oppositeEdge_some h.ginv ho
  dsimp only at hk hopp hopp'
  rw [Int.natCast_inj] at hk
  subst hk
  rw [needsFlip_eq h.ginv (polygon_ok.1 hp1) (polygon_ok.1 hp2) h1 h2 hopp (edge_ne_zero_of_area h1 a1 _) (edge_ne_zero_of_area h2 a2 _),
    needsFlip_eq h.ginv (polygon_ok.1 hp2) (polygon_ok.1 hp1) h2 h1 hopp' (edge_ne_zero_of_area h2 a2 _) (edge_ne_zero_of_area h1 a1 _),
    delN_symm]

/-- **C29**. An edge that needs a flip is the diagonal of a strictly convex quadrilateral, so that it can be flipped. -/
theorem C29_flippable {s : MSurf L (Poly K)} (h : Reachable s) {l1 l2 : L} {e1 e2 : ℕ} {P1 P2 : Poly K}
    (hp1 : s.polygon l1 = .ok P1) (hp2 : s.polygon l2 = .ok P2) (h1 : P1.length = 3) (h2 : P2.length = 3)
    (a1 : 0 < P1.area) (a2 : 0 < P2.area) (ho : s.oppositeEdge l1 e1 = .ok (some (l2, (e2 : Int))))
    (hflip : s.delaunayEdgeNeedsFlip l1 e1 = .ok true) : s.isConvexEdge l1 e1 true = .ok true := by
  obtain ⟨k, hk, -, -, hopp, -⟩ := oppositeEdge_some h.ginv ho
  dsimp only at hk hopp
  rw [Int.natCast_inj] at hk
  subst hk
  have hp1' := polygon_ok.1 hp1
  have hp2' := polygon_ok.1 hp2
  obtain ⟨g, hT, hsign, hpos, hga, hgb⟩ := glued_triangles h.ginv hp1' hp2' h1 h2 hopp a1 a2
  rw [needsFlip_eq h.ginv hp1' hp2' h1 h2 hopp (edge_ne_zero_of_area h1 a1 _) (edge_ne_zero_of_area h2 a2 _)] at hflip
  injection hflip with hflip
  rw [decide_eq_true_eq] at hflip
  rw [isConvexEdge_iff h.ginv hp1' hp2' h1 h2 hopp]
  refine ⟨g, hT, ?_⟩
  have hN := mul_neg_of_pos_of_neg hpos hflip
  rw [← delN_scale hsign] at hN
  have A1 := area_of_length_three P1 h1 e1
  have A2 := area_of_length_three P2 h2 e2
  have hdet : ccw (g.derivative.mulVec (P2.edge (e2 + 1))) (g.derivative.mulVec (P2.edge (e2 + 2))) =
      (g.a * g.a + g.b * g.b) * ccw (P2.edge (e2 + 1)) (P2.edge (e2 + 2)) := by
    simp only [ccw, Mat2.mulVec, Similarity.derivative, hsign, Int.cast_one]; ring
  have hsum : g.derivative.mulVec (P2.edge (e2 + 1)) + g.derivative.mulVec (P2.edge (e2 + 2)) = -(P1.edge (e1 + 1) + P1.edge (e1 + 2)) := by
    rw [← edge_succ_three P1 h1 e1]
    unfold Poly.edge
    rw [← Poly.call_sub hsign, ← Poly.call_sub hsign, show e2 + 2 + 1 = e2 + P2.length by omega, Poly.vertex_add_length, hga,
      show e2 + 1 + 1 = e2 + 2 from rfl, hgb]
    abel
  set a := g.derivative.mulVec (P2.edge (e2 + 1)) with ha
  set b := g.derivative.mulVec (P2.edge (e2 + 2)) with hb
  set c := P1.edge (e1 + 1) with hc
  set d := P1.edge (e1 + 2) with hd
  have hab : 0 < ccw a b := by rw [hdet, ← A2]; positivity
  have hcd : 0 < ccw c d := by rw [← A1]; positivity
  have hda : ccw d a * normSq (c + d) = normSq d * ccw a b - delN a b c d + normSq a * ccw c d := by
    have x1 := congrArg Prod.fst hsum
    have x2 := congrArg Prod.snd hsum
    simp only [Prod.fst_add, Prod.snd_add, Prod.fst_neg, Prod.snd_neg] at x1 x2
    obtain ⟨b1, b2⟩ := b
    dsimp only at x1 x2
    obtain rfl : b1 = -(c.1 + d.1) - a.1 := by linear_combination x1
    obtain rfl : b2 = -(c.2 + d.2) - a.2 := by linear_combination x2
    simp only [ccw, normSq, delN, dot, Prod.fst_add, Prod.snd_add]
    ring
  have hbc : ccw b c * normSq (c + d) = normSq b * ccw c d - delN a b c d + normSq c * ccw a b := by
    have x1 := congrArg Prod.fst hsum
    have x2 := congrArg Prod.snd hsum
    simp only [Prod.fst_add, Prod.snd_add, Prod.fst_neg, Prod.snd_neg] at x1 x2
    obtain ⟨b1, b2⟩ := b
    dsimp only at x1 x2
    obtain rfl : b1 = -(c.1 + d.1) - a.1 := by linear_combination x1
    obtain rfl : b2 = -(c.2 + d.2) - a.2 := by linear_combination x2
    simp only [ccw, normSq, delN, dot, Prod.fst_add, Prod.snd_add]
    ring
  have nn : ∀ v : Vec K, 0 ≤ normSq v := fun v => add_nonneg (mul_self_nonneg _) (mul_self_nonneg _)
  have fin : ∀ x : K, 0 < x * normSq (c + d) → 0 < x := by
    intro x hx
    by_contra hn
    have := mul_nonneg (neg_nonneg.2 (not_lt.1 hn)) (nn (c + d))
    linarith
  refine ⟨hab, fin _ ?_, hcd, fin _ ?_⟩
  · rw [hbc]
    have := mul_nonneg (nn b) hcd.le
    have := mul_nonneg (nn c) hab.le
    linarith
  · rw [hda]
    have := mul_nonneg (nn d) hab.le
    have := mul_nonneg (nn a) hcd.le
    linarith

/-- Two different edges of a triangle which are glued to each other never need a flip. -/
theorem needsFlip_fold {s : MSurf L (Poly K)} (hs : GInv s) {l : L} {e1 e2 : ℕ} {P : Poly K}
    (hp : s.polygons.get l = some P) (h3 : P.length = 3) (a : 0 < P.area) (ho : s.opp l e1 = some (l, (e2 : Int)))
    (hflip : s.delaunayEdgeNeedsFlip l e1 = .ok true) : e1 = e2 := by
  have k1 : e1 < 3 := lt_three_of_opp hs hp h3 ho
  have k2 : e2 < 3 := lt_three_of_opp hs hp h3 (opp_back hs ho)
  rw [needsFlip_eq hs hp hp h3 h3 ho (edge_ne_zero_of_area h3 a _) (edge_ne_zero_of_area h3 a _)] at hflip
  injection hflip with hflip
  rw [decide_eq_true_eq] at hflip
  have nn : ∀ v : Vec K, 0 ≤ normSq v := fun v => add_nonneg (mul_self_nonneg _) (mul_self_nonneg _)
  have A := area_of_length_three P h3 e1
  by_contra hne
  rcases (show e2 = (e1 + 1) % 3 ∨ e2 = (e1 + 2) % 3 by omega) with h | h
  · rw [Poly.edge_congr P (i := e2 + 1) (j := e1 + 2) (by rw [h3]; omega),
      Poly.edge_congr P (i := e2 + 2) (j := e1) (by rw [h3]; omega), edge_succ_three P h3 e1] at hflip
    have key : delN (P.edge (e1 + 2)) (-(P.edge (e1 + 1) + P.edge (e1 + 2))) (P.edge (e1 + 1)) (P.edge (e1 + 2)) =
        ccw (P.edge (e1 + 1)) (P.edge (e1 + 2)) * normSq (P.edge (e1 + 2)) := by
      simp only [delN, ccw, dot, normSq, Prod.fst_neg, Prod.snd_neg, Prod.fst_add, Prod.snd_add]; ring
    rw [key, ← A] at hflip
    have := mul_nonneg (show 0 ≤ 2 * P.area by linarith) (nn (P.edge (e1 + 2)))
    linarith
  · rw [Poly.edge_congr P (i := e2 + 1) (j := e1) (by rw [h3]; omega),
      Poly.edge_congr P (i := e2 + 2) (j := e1 + 1) (by rw [h3]; omega), edge_succ_three P h3 e1] at hflip
    have key : delN (-(P.edge (e1 + 1) + P.edge (e1 + 2))) (P.edge (e1 + 1)) (P.edge (e1 + 1)) (P.edge (e1 + 2)) =
        ccw (P.edge (e1 + 1)) (P.edge (e1 + 2)) * normSq (P.edge (e1 + 1)) := by
      simp only [delN, ccw, dot, normSq, Prod.fst_neg, Prod.snd_neg, Prod.fst_add, Prod.snd_add]; ring
    rw [key, ← A] at hflip
    have := mul_nonneg (show 0 ≤ 2 * P.area by linarith) (nn (P.edge (e1 + 1)))
    linarith

/-- **C29**. On a mutable surface, an edge that needs a flip can be flipped, also when the two triangles are the same. -/
theorem C29_flip_succeeds {s : MSurf L (Poly K)} (h : Reachable s) (hm : s.mutable = true) {l1 l2 : L} {e1 e2 : ℕ} {P1 P2 : Poly K}
    (hp1 : s.polygon l1 = .ok P1) (hp2 : s.polygon l2 = .ok P2) (h1 : P1.length = 3) (h2 : P2.length = 3)
    (a1 : 0 < P1.area) (a2 : 0 < P2.area) (ho : s.oppositeEdge l1 e1 = .ok (some (l2, (e2 : Int))))
    (hglued : ∀ e : ℕ, e < 3 → s.oppositeEdge l1 e ≠ .ok none ∧ s.oppositeEdge l2 e ≠ .ok none)
    (hroots : s.roots ≠ [] → s.rootsList = .ok s.roots)
    (hflip : s.delaunayEdgeNeedsFlip l1 e1 = .ok true) : ∃ t, triangleFlip l1 e1 s = .ok () t := by
  refine C26_triangle_flip_succeeds h hm l1 l2 e1 e2 P1 P2 hp1 hp2 h1 h2 ho ?_ (C29_flippable h hp1 hp2 h1 h2 a1 a2 ho hflip) hglued hroots
  rintro rfl
  obtain ⟨k, hk, -, -, hopp, -⟩ := oppositeEdge_some h.ginv ho
  dsimp only at hk hopp
  rw [Int.natCast_inj] at hk
  subst hk
  exact needsFlip_fold h.ginv (polygon_ok.1 hp1) h1 a1 hopp hflip

omit [LabelNum L] [IsStrictOrderedRing K] [LinearOrder K] [LinearOrder L] in
theorem delN_rotate {a b c d : Vec K} (h : a + b = -(c + d)) : delN b c d a = - delN a b c d := by
  have x1 := congrArg Prod.fst h
  have x2 := congrArg Prod.snd h
  simp only [Prod.fst_add, Prod.snd_add, Prod.fst_neg, Prod.snd_neg] at x1 x2
  obtain ⟨b1, b2⟩ := b
  dsimp only at x1 x2
  obtain rfl : b1 = -(c.1 + d.1) - a.1 := by linear_combination x1
  obtain rfl : b2 = -(c.2 + d.2) - a.2 := by linear_combination x2
  simp only [ccw, delN, dot]
  ring

omit [LabelNum L] [LinearOrder L] in
theorem Turns.ne_zero {a b c d : Vec K} (h : Poly.Turns a b c d) : a ≠ 0 ∧ b ≠ 0 ∧ c ≠ 0 ∧ d ≠ 0 := by
  obtain ⟨h1, h2, h3, h4⟩ := h
  refine ⟨?_, ?_, ?_, ?_⟩ <;> rintro rfl <;> simp [ccw] at *

/-- What a flip does to the four sides of the quadrilateral. -/
theorem flip_sides {s t : MSurf L (Poly K)} (hs : Good s) {l1 : L} {e1 : ℕ} (ht : triangleFlip l1 e1 s = .ok () t) :
    ∃ l2 e2 P1 P2 Q1 Q2 a b c d r, Good t ∧ s.opp l1 e1 = some (l2, ((e2 : ℕ) : Int)) ∧ t.opp l1 e1 = some (l2, (e2 : Int)) ∧
      s.polygons.get l1 = some P1 ∧ s.polygons.get l2 = some P2 ∧ t.polygons.get l1 = some Q1 ∧ t.polygons.get l2 = some Q2 ∧
      P1.length = 3 ∧ P2.length = 3 ∧ Q1.length = 3 ∧ Q2.length = 3 ∧ (l1 = l2 → e1 = e2) ∧
      (∀ l, l ≠ l1 → l ≠ l2 → t.polygons.get l = s.polygons.get l) ∧
      Poly.Turns a b c d ∧ a + b = -(c + d) ∧ P1.edge (e1 + 1) = c ∧ P1.edge (e1 + 2) = d ∧ (0 < r) ∧
      (∃ g : Similarity K, g.sign = 1 ∧ g.a * g.a + g.b * g.b = r ∧ g.derivative.mulVec (P2.edge (e2 + 1)) = a ∧
        g.derivative.mulVec (P2.edge (e2 + 2)) = b) ∧
      Q2.edge (e2 + 1) = b ∧ Q2.edge (e2 + 2) = c ∧
      ((Q1.edge (e1 + 1) = d ∧ Q1.edge (e1 + 2) = a) ∨ (l1 = l2 ∧ a = -c ∧ b = -d ∧ Q1.edge (e1 + 1) = b ∧ Q1.edge (e1 + 2) = c)) := by
  obtain ⟨l2, e2, P1, P2, ho, hp1, hp2, h1, h2⟩ := triangleFlip_pre hs.1 l1 e1 ht
  have spec := triangleFlip_spec hs l1 l2 e1 e2 P1 P2 hp1 hp2 h1 h2 ho
  unfold wp at spec
  rw [ht] at spec
  obtain ⟨hg, hfull, hd, ⟨g, hT, hsign, hwf, hgm, hturn, Q0, Q1, hq0, hq1, hv0, hv1, e01, e02, e00, e11, e12, e10, hpol⟩, hgl, hopp⟩ := spec
  have to1 : t.opp l1 e1 = some (l2, (e2 : Int)) := (hopp _ _ _).2 ⟨e2, rfl, Or.inl ⟨rfl, rfl⟩⟩
  have hpos : 0 < g.a * g.a + g.b * g.b := lt_of_le_of_ne (add_nonneg (mul_self_nonneg _) (mul_self_nonneg _)) (Ne.symm hwf.1)
  have hsum : g.derivative.mulVec (P2.edge (e2 + 1)) + g.derivative.mulVec (P2.edge (e2 + 2)) = -(P1.edge (e1 + 1) + P1.edge (e1 + 2)) := by
    rw [← edge_succ_three P1 h1 e1, ← neg_inj, ← hgm, edge_succ_three P2 h2 e2]
    ext <;> simp only [Mat2.mulVec, Prod.fst_add, Prod.snd_add, Prod.fst_neg, Prod.snd_neg] <;> ring
  have hoth : ∀ l, l ≠ l1 → l ≠ l2 → t.polygons.get l = s.polygons.get l := by
    intro l k0 k1
    rw [hpol, if_neg k1, if_neg k0]
  by_cases hl : l1 = l2
  · subst hl
    obtain rfl := hd rfl
    obtain rfl : P1 = P2 := by rw [hp1] at hp2; injection hp2
    have tp : t.polygons.get l1 = some Q1 := by rw [hpol, if_pos rfl]
    have hvP : P1.edge e1 ≠ 0 := by
      intro h9
      rw [edge_succ_three P1 h1] at h9
      have h8 : P1.edge (e1 + 1) = - P1.edge (e1 + 2) := by rw [neg_eq_zero] at h9; exact eq_neg_of_add_eq_zero_left h9
      have h7 := hturn.2.2.1
      rw [h8] at h7
      simp only [ccw, Prod.fst_neg, Prod.snd_neg] at h7
      linarith
    have hfix := rotScale_fixes hsign hvP (-1) (by rw [hgm]; simp)
    refine ⟨l1, e1, P1, P1, Q1, Q1, _, _, _, _, _, hg, ho, to1, hp1, hp1, tp, tp, h1, h1, hq1, hq1, fun _ => rfl, hoth, hturn, hsum, rfl, rfl, hpos,
      ⟨g, hsign, rfl, rfl, rfl⟩, e11, e12, Or.inr ⟨rfl, ?_, ?_, e11, e12⟩⟩
    · rw [hfix]; simp
    · rw [hfix]; simp
  · have tp0 : t.polygons.get l1 = some Q0 := by rw [hpol, if_neg hl, if_pos rfl]
    have tp1 : t.polygons.get l2 = some Q1 := by rw [hpol, if_pos rfl]
    exact ⟨l2, e2, P1, P2, Q0, Q1, _, _, _, _, _, hg, ho, to1, hp1, hp2, tp0, tp1, h1, h2, hq0, hq1, fun h => absurd h hl, hoth, hturn, hsum, rfl, rfl, hpos,
      ⟨g, hsign, rfl, rfl, rfl⟩, e11, e12, Or.inl ⟨e01, e02⟩⟩

/-- **C29**. After a flip of an edge that needed it, the new edge does not need a flip. -/
theorem C29_after_flip {s t : MSurf L (Poly K)} (h : Reachable s) (hm : s.mutable = true) {l e}
    (hflip : s.delaunayEdgeNeedsFlip l e = .ok true) (ht : triangleFlip l e s = .ok () t) :
    t.delaunayEdgeNeedsFlip l e = .ok false := by
  obtain ⟨l2, e2, P1, P2, Q1, Q2, a, b, c, d, r, hg, ho, ho', hp1, hp2, hq1, hq2, h1, h2, k1, k2, hd, hoth, hturn, hsum, hc, hd', hr,
    ⟨g, hsign, hgr, hga, hgb⟩, q21, q22, hQ⟩ := flip_sides ⟨h.ginv, hm, h.rootsOK⟩ ht
  obtain ⟨na, nb, nc, nd⟩ := Turns.ne_zero hturn
  have hnb : P2.edge (e2 + 2) ≠ 0 := by
    intro h0; rw [h0] at hgb; apply nb; rw [← hgb]; simp [Mat2.mulVec]
  rw [needsFlip_eq h.ginv hp1 hp2 h1 h2 ho (by rw [hd']; exact nd) hnb] at hflip
  injection hflip with hflip
  rw [decide_eq_true_eq] at hflip
  have hN := mul_neg_of_pos_of_neg hr hflip
  rw [← hgr, ← delN_scale hsign, hga, hgb, hc, hd'] at hN
  have key : delN (Q2.edge (e2 + 1)) (Q2.edge (e2 + 2)) (Q1.edge (e + 1)) (Q1.edge (e + 2)) = - delN a b c d := by
    rcases hQ with ⟨x1, x2⟩ | ⟨-, x1, x2, x3, x4⟩
    · rw [q21, q22, x1, x2]; exact delN_rotate hsum
    · rw [q21, q22, x3, x4, x1, x2]
      simp only [delN, ccw, dot, Prod.fst_neg, Prod.snd_neg]; ring
  have n1 : Q1.edge (e + 2) ≠ 0 := by
    rcases hQ with ⟨x1, x2⟩ | ⟨-, x1, x2, x3, x4⟩
    · rw [x2]; exact na
    · rw [x4]; exact nc
  rw [needsFlip_eq hg.1 hq1 hq2 k1 k2 ho' n1 (by rw [q22]; exact nc), key]
  congr 1
  rw [decide_eq_false_iff_not]
  linarith

/-- All polygons are triangles of positive area. -/
def Triangulated (s : MSurf L (Poly K)) : Prop := ∀ l P, s.polygon l = .ok P → P.length = 3 ∧ 0 < P.area

/-- On a triangulated surface the flip test works for all glued edges. -/
theorem needsFlip_ok {s : MSurf L (Poly K)} (hs : GInv s) (ht : Triangulated s) {l : L} {e : ℕ} {c : L × Int}
    (ho : s.opp l e = some c) : ∃ b P1 P2, s.delaunayEdgeNeedsFlip l e = .ok b ∧ s.polygon l = .ok P1 ∧ s.polygon c.1 = .ok P2 := by
  have he : s.oppositeEdge l (e : Int) = .ok (some c) := by rw [oppositeEdge_eq_opp hs.toShape (opp_isEdge hs.toShape ho), ho]
  obtain ⟨k, hk, hk1, hk2, hk3, hk4⟩ := oppositeEdge_some hs he
  obtain ⟨P1, hp1, -⟩ := hk4
  obtain ⟨P2, hp2, -⟩ := hk1
  obtain ⟨h1, a1⟩ := ht _ _ (polygon_ok.2 hp1)
  obtain ⟨h2, a2⟩ := ht _ _ (polygon_ok.2 hp2)
  exact ⟨_, P1, P2, needsFlip_eq hs hp1 hp2 h1 h2 hk3 (edge_ne_zero_of_area h1 a1 _) (edge_ne_zero_of_area h2 a2 _),
    polygon_ok.2 hp1, polygon_ok.2 hp2⟩

theorem delaunayLoop_spec {s : MSurf L (Poly K)} (hs : GInv s) (ht : Triangulated s) :
    ∀ gs : List ((L × Int) × (L × Int)), (∀ x ∈ gs, ∃ e : ℕ, x.1.2 = e ∧ s.opp x.1.1 e = some x.2) →
      ∃ b, s.delaunayLoop gs = .ok b ∧ (b = true ↔ ∀ x ∈ gs, s.delaunayEdgeNeedsFlip x.1.1 x.1.2.toNat = .ok false) := by
  intro gs
  induction gs with
  | nil => intro _; exact ⟨true, rfl, by simp⟩
  | cons x xs ih =>
    intro hx
    obtain ⟨b, hb, hb'⟩ := ih (fun y hy => hx y (List.mem_cons_of_mem _ hy))
    obtain ⟨e, he, ho⟩ := hx x List.mem_cons_self
    obtain ⟨b', P1, P2, hf, hp1, hp2⟩ := needsFlip_ok hs ht ho
    have h1 : nv P1 = 3 := (ht _ _ hp1).1
    have h2 : nv P2 = 3 := (ht _ _ hp2).1
    have hf' : s.delaunayEdgeNeedsFlip x.1.1 x.1.2.toNat = .ok b' := by rw [he, Int.toNat_natCast, hf]
    have hrun : s.delaunayLoop (x :: xs) = if b' = true then .ok false else .ok b := by
      rw [delaunayLoop]
      simp only [bind, Except.bind, hp1, hp2, h1, h2, hf', hb, ne_eq, not_true_eq_false, if_false, pure, Except.pure]
    rw [hrun]
    cases b' with
    | true =>
      refine ⟨false, rfl, ?_⟩
      constructor
      · intro h; cases h
      · intro h
        have := h x List.mem_cons_self
        rw [hf'] at this
        injection this with this
        cases this
    | false =>
      refine ⟨b, rfl, hb'.trans ?_⟩
      constructor
      · intro h y hy
        rcases List.mem_cons.1 hy with rfl | hy
        · exact hf'
        · exact h y hy
      · exact fun h y hy => h y (List.mem_cons_of_mem _ hy)

/-- **C29**. On a triangulated surface `is_delaunay_triangulated` tells whether no glued edge needs a flip. -/
theorem C29_is_delaunay_triangulated {s : MSurf L (Poly K)} (h : Reachable s) (ht : Triangulated s) :
    ∃ b, s.isDelaunayTriangulated = .ok b ∧ (b = true ↔ ∀ (l : L) (e : ℕ) (c : L × Int), s.oppositeEdge l e = .ok (some c) →
      s.delaunayEdgeNeedsFlip l e = .ok false) := by
  obtain ⟨gs, hgs, hmem⟩ := gluingPairs_spec h.ginv h.rootsOK
  obtain ⟨b, hb, hb'⟩ := delaunayLoop_spec h.ginv ht gs (fun x hx => (hmem x).1 hx)
  refine ⟨b, ?_, hb'.trans ?_⟩
  · unfold isDelaunayTriangulated
    simp only [bind, Except.bind, hgs, hb]
  · constructor
    · intro hall l e c hc
      obtain ⟨k, hk, -, -, ho, -⟩ := oppositeEdge_some h.ginv hc
      have := hall ((l, (e : Int)), c) ((hmem _).2 ⟨e, rfl, by dsimp only; rw [ho, ← hk]⟩)
      simpa using this
    · rintro hall x hx
      obtain ⟨e, he, ho⟩ := (hmem x).1 hx
      rw [he, Int.toNat_natCast]
      exact hall x.1.1 e x.2 (by rw [oppositeEdge_eq_opp h.ginv.toShape (opp_isEdge h.ginv.toShape ho), ho])

theorem firstFlip_spec {s : MSurf L (Poly K)} (hs : GInv s) (ht : Triangulated s) :
    ∀ gs : List ((L × Int) × (L × Int)), (∀ x ∈ gs, ∃ e : ℕ, x.1.2 = e ∧ s.opp x.1.1 e = some x.2) →
      (s.firstFlip gs = .ok none ∧ ∀ x ∈ gs, x.1.1 < x.2.1 ∨ (x.1.1 = x.2.1 ∧ x.1.2 ≤ x.2.2) →
        s.delaunayEdgeNeedsFlip x.1.1 x.1.2.toNat = .ok false) ∨
      ∃ y : L × ℕ, s.firstFlip gs = .ok (some y) ∧ s.delaunayEdgeNeedsFlip y.1 y.2 = .ok true := by
  intro gs
  induction gs with
  | nil => intro _; exact Or.inl ⟨rfl, by simp⟩
  | cons x xs ih =>
    intro hx
    have ih' := ih (fun y hy => hx y (List.mem_cons_of_mem _ hy))
    obtain ⟨e, he, ho⟩ := hx x List.mem_cons_self
    obtain ⟨b', P1, P2, hf, hp1, hp2⟩ := needsFlip_ok hs ht ho
    have hf' : s.delaunayEdgeNeedsFlip x.1.1 x.1.2.toNat = .ok b' := by rw [he, Int.toNat_natCast, hf]
    rw [firstFlip]
    by_cases hlt : x.1.1 < x.2.1 ∨ (x.1.1 = x.2.1 ∧ x.1.2 ≤ x.2.2)
    · simp only [hlt, if_true, bind, Except.bind, hf']
      cases b' with
      | true => exact Or.inr ⟨(x.1.1, x.1.2.toNat), rfl, hf'⟩
      | false =>
        rcases ih' with ⟨i1, i2⟩ | i
        · refine Or.inl ⟨i1, fun y hy hy' => ?_⟩
          rcases List.mem_cons.1 hy with rfl | hy
          · exact hf'
          · exact i2 y hy hy'
        · exact Or.inr i
    · simp only [hlt, if_false]
      rcases ih' with ⟨i1, i2⟩ | i
      · refine Or.inl ⟨i1, fun y hy hy' => ?_⟩
        rcases List.mem_cons.1 hy with rfl | hy
        · exact absurd hy' hlt
        · exact i2 y hy hy'
      · exact Or.inr i

/-- **C29**. `delaunay_single_flip` on a triangulated surface: it returns `False` exactly when the surface is Delaunay
triangulated, and does not change it then; otherwise it does what flipping some edge that needs a flip does. -/
theorem C29_single_flip {s : MSurf L (Poly K)} (h : Reachable s) (ht : Triangulated s) :
    (s.isDelaunayTriangulated = .ok true ∧ delaunaySingleFlip s = .ok false s) ∨
    (s.isDelaunayTriangulated = .ok false ∧ ∃ l e, s.delaunayEdgeNeedsFlip l e = .ok true ∧
      ((∃ t, triangleFlip l e s = .ok () t ∧ delaunaySingleFlip s = .ok true t) ∨
        ∃ x t, triangleFlip l e s = .error x t ∧ delaunaySingleFlip s = .error x t)) := by
  obtain ⟨b, hb, hb'⟩ := C29_is_delaunay_triangulated h ht
  obtain ⟨gs, hgs, hmem⟩ := gluingPairs_spec h.ginv h.rootsOK
  rcases firstFlip_spec h.ginv ht gs (fun x hx => (hmem x).1 hx) with ⟨h1, h2⟩ | ⟨y, h1, h2⟩
  · left
    have hbt : b = true := by
      rw [hb']
      intro l e c hc
      obtain ⟨k, hk, -, ho', ho, -⟩ := oppositeEdge_some h.ginv hc
      obtain ⟨c1, c2⟩ := c
      dsimp only at hk ho ho'
      subst hk
      have hin : ((l, (e : Int)), (c1, (k : Int))) ∈ gs := (hmem _).2 ⟨e, rfl, ho⟩
      have hin' : ((c1, (k : Int)), (l, (e : Int))) ∈ gs := (hmem _).2 ⟨k, rfl, ho'⟩
      by_cases hlt : l < c1 ∨ (l = c1 ∧ (e : Int) ≤ (k : Int))
      · have := h2 _ hin hlt; simpa using this
      · have hlt' : c1 < l ∨ (c1 = l ∧ (k : Int) ≤ (e : Int)) := by
          push Not at hlt
          rcases lt_trichotomy c1 l with k1 | k1 | k1
          · exact Or.inl k1
          · exact Or.inr ⟨k1, (hlt.2 k1.symm).le⟩
          · exact absurd k1 (not_lt.2 hlt.1)
        have := h2 _ hin' hlt'
        dsimp only at this
        rw [Int.toNat_natCast] at this
        obtain ⟨-, P1, P2, -, hp1, hp2⟩ := needsFlip_ok h.ginv ht ho
        rw [C29_symmetric h hp1 hp2 (ht _ _ hp1).1 (ht _ _ hp2).1 (ht _ _ hp1).2 (ht _ _ hp2).2 hc]
        exact this
    subst hbt
    refine ⟨hb, ?_⟩
    have : wp delaunaySingleFlip (fun r t => r = false ∧ t = s) (fun _ _ => False) s := by
      unfold delaunaySingleFlip
      rw [wp_bind, wp_get, wp_bind, wp_liftE, hgs]
      refine ⟨fun a ha => ?_, fun _ h' => by cases h'⟩
      injection ha with ha; subst ha
      rw [wp_bind, wp_liftE, h1]
      refine ⟨fun a ha => ?_, fun _ h' => by cases h'⟩
      injection ha with ha; subst ha
      rw [wp_pure]
      exact ⟨rfl, rfl⟩
    unfold wp at this
    split at this
    · next hr => rw [hr, this.1, this.2]
    · exact this.elim
  · right
    have hbf : b = false := by
      by_contra hne
      have hbt : b = true := by simpa using hne
      have hex : ∃ c, s.oppositeEdge y.1 (y.2 : Int) = .ok (some c) := by
        unfold delaunayEdgeNeedsFlip at h2
        unfold oppositeEdge! at h2
        cases ho : s.oppositeEdge y.1 (y.2 : Int) with
        | error x => rw [ho] at h2; cases h2
        | ok c =>
          cases c with
          | none => rw [ho] at h2; cases h2
          | some c => exact ⟨c, rfl⟩
      obtain ⟨c, hc⟩ := hex
      rw [hb'.1 hbt y.1 y.2 c hc] at h2
      injection h2 with h2
      cases h2
    subst hbf
    refine ⟨hb, y.1, y.2, h2, ?_⟩
    have hrun : delaunaySingleFlip s = (do triangleFlip y.1 y.2; return true : Act L (Poly K) Bool) s := by
      unfold delaunaySingleFlip
      simp only [liftE, hgs, h1, bind, EStateM.bind, get, getThe, MonadStateOf.get, EStateM.get, pure, EStateM.pure]
    rw [hrun]
    cases htf : triangleFlip y.1 y.2 s with
    | ok u t =>
      left
      refine ⟨t, rfl, ?_⟩
      simp only [bind, EStateM.bind, htf, pure, EStateM.pure]
    | error x t =>
      right
      refine ⟨x, t, rfl, ?_⟩
      simp only [bind, EStateM.bind, htf]

/-! Concrete cases. -/

/-- A torus made of two triangles which share the long diagonal of a parallelogram. -/
def exSkewOps : List (Op ℕ ℚ) := [.addPolygon [(0, 0), (1, 0), (3, 1)] none, .addPolygon [(0, 0), (3, 1), (2, 1)] none,
  .glue (0, 0) (1, 1), .glue (0, 1) (1, 2), .glue (0, 2) (1, 0)]

def exSkew : MSurf ℕ (Poly ℚ) := runOps exSkewOps empty

theorem exSkew_reachable : Reachable exSkew := by
  refine reachable_runOps _ _ .empty (by decide +kernel) ?_ ?_
  · intro op hop
    simp only [exSkewOps, List.mem_cons, List.not_mem_nil, or_false] at hop
    rcases hop with rfl | rfl | rfl | rfl | rfl <;> simp [Op.NonNeg]
  · intro op hop
    simp only [exSkewOps, List.mem_cons, List.not_mem_nil, or_false] at hop
    rcases hop with rfl | rfl | rfl | rfl | rfl <;> simp

theorem exSkew_flip : exSkew.delaunayEdgeNeedsFlip 0 2 = .ok true := by decide +kernel

theorem exSkew_flips : ∃ t, triangleFlip 0 2 exSkew = .ok () t :=
  C29_flip_succeeds (P1 := [(0, 0), (1, 0), (3, 1)]) (P2 := [(0, 0), (3, 1), (2, 1)]) (l2 := 1) (e2 := 0) exSkew_reachable
    (by decide +kernel) (by decide +kernel) (by decide +kernel) rfl rfl (by decide +kernel) (by decide +kernel) (by decide +kernel)
    (by decide +kernel) (by decide +kernel) exSkew_flip

theorem triangulated_of_keys {s : MSurf ℕ (Poly ℚ)} (h : ∀ x ∈ s.polygons, x.2.length = 3 ∧ 0 < x.2.area) : Triangulated s := by
  intro l P hP
  exact h (l, P) (Dict.mem_of_get _ _ _ (polygon_ok.1 hP))

theorem exSkew_triangulated : Triangulated exSkew := triangulated_of_keys (by decide +kernel)

example : exSkew.isDelaunayTriangulated = .ok false ∧ ∃ t, triangleFlip 0 2 exSkew = .ok () t ∧ t.delaunayEdgeNeedsFlip 0 2 = .ok false := by
  obtain ⟨t, ht⟩ := exSkew_flips
  exact ⟨by decide +kernel, t, ht, C29_after_flip exSkew_reachable (by decide +kernel) exSkew_flip ht⟩

example : ∃ g c b b', exSkew.edgeTransformation 1 0 = .ok g ∧ Poly.circumscribedCircle [(0, 0), (1, 0), (3, 1)] = .ok c ∧
    exSkew.delaunayEdgeNeedsFlip 0 2 = .ok b ∧ exSkew.delaunayEdgeNeedsJoin 0 2 = .ok b' ∧
    (b = true ↔ c.pointPosition (g.call (Poly.vertex [(0, 0), (3, 1), (2, 1)] (0 + 2))) = 1) ∧
    (b' = true ↔ c.pointPosition (g.call (Poly.vertex [(0, 0), (3, 1), (2, 1)] (0 + 2))) = 0) :=
  C29_flip_iff_in_circle (l1 := 0) (l2 := 1) exSkew_reachable (by decide +kernel) (by decide +kernel) rfl rfl (by decide +kernel)
    (by decide +kernel) (by decide +kernel)

/-- The triangles of the square torus are to be joined. -/
example : exTorus.delaunayEdgeNeedsFlip 0 1 = .ok false ∧ exTorus.delaunayEdgeNeedsJoin 0 1 = .ok true ∧
    exTorus.isDelaunayTriangulated = .ok true := by decide +kernel

/-- **C29** fails in the absence of gluings: `is_delaunay_triangulated` accepts surfaces which are not triangulated, since
polygons without glued edges are never looked at. -/
theorem C29_untriangulated_violation : ∃ s : MSurf ℕ (Poly ℚ), Reachable s ∧ (∃ P, s.polygon 0 = .ok P ∧ P.length = 4) ∧
    s.isDelaunayTriangulated = .ok true := by
  refine ⟨runOps [.addPolygon [(0, 0), (1, 0), (1, 1), (0, 1)] none] empty, reachable_runOps _ _ .empty (by decide +kernel) ?_ ?_,
    ⟨[(0, 0), (1, 0), (1, 1), (0, 1)], by decide +kernel, rfl⟩, by decide +kernel⟩
  · intro op hop
    simp only [List.mem_cons, List.not_mem_nil, or_false] at hop
    subst hop; simp [Op.NonNeg]
  · intro op hop
    simp only [List.mem_cons, List.not_mem_nil, or_false] at hop
    subst hop; simp

/-- The loop of `is_delaunay_triangulated()` only returns `True` if it has seen triangles and edges that need no flip. -/
theorem delaunayLoop_true {s : MSurf L (Poly K)} : ∀ gs : List ((L × Int) × (L × Int)), s.delaunayLoop gs = .ok true →
    ∀ x ∈ gs, (∃ p, s.polygon x.1.1 = .ok p ∧ p.length = 3) ∧ (∃ p, s.polygon x.2.1 = .ok p ∧ p.length = 3) ∧
      s.delaunayEdgeNeedsFlip x.1.1 x.1.2.toNat = .ok false
  | [], _, x, hx => by cases hx
  | y :: ys, h, x, hx => by
    rw [delaunayLoop] at h
    simp only [bind, Except.bind, pure, Except.pure] at h
    cases hp1 : s.polygon y.1.1 with
    | error _ => rw [hp1] at h; cases h
    | ok p1 =>
    cases hp2 : s.polygon y.2.1 with
    | error _ => rw [hp1, hp2] at h; dsimp only at h; split_ifs at h <;> cases h
    | ok p2 =>
    cases hf : s.delaunayEdgeNeedsFlip y.1.1 y.1.2.toNat with
    | error _ => rw [hp1, hp2, hf] at h; dsimp only at h; split_ifs at h <;> cases h
    | ok b =>
    rw [hp1, hp2, hf] at h
    dsimp only at h
    split_ifs at h with h1 h2 h3
    · cases h
    · cases h
    · cases h
    rcases List.mem_cons.1 hx with rfl | hx
    · exact ⟨⟨p1, hp1, not_not.1 h1⟩, ⟨p2, hp2, not_not.1 h2⟩, by rw [hf, Bool.eq_false_iff.2 h3]⟩
    · exact delaunayLoop_true ys h x hx

/-- **C29**, any surface: when `is_delaunay_triangulated()` says yes, then every polygon with a glued edge is a triangle and no
edge needs a flip. -/
theorem C29_is_delaunay_triangulated_sound {s : MSurf L (Poly K)} (h : Reachable s) (ht : s.isDelaunayTriangulated = .ok true)
    {l l' : L} {e : ℕ} {e' : Int} (ho : s.oppositeEdge l e = .ok (some (l', e'))) :
    (∃ p, s.polygon l = .ok p ∧ p.length = 3) ∧ (∃ p, s.polygon l' = .ok p ∧ p.length = 3) ∧
      s.delaunayEdgeNeedsFlip l e = .ok false := by
  obtain ⟨gs, hgs, hmem⟩ := gluingPairs_spec h.ginv h.rootsOK
  unfold isDelaunayTriangulated at ht
  simp only [bind, Except.bind, hgs] at ht
  obtain ⟨k, hk, -, -, hopp, -⟩ := oppositeEdge_some h.ginv ho
  have := delaunayLoop_true gs ht ((l, (e : Int)), (l', e')) ((hmem _).2 ⟨e, rfl, by dsimp only at hk ⊢; rw [hopp, ← hk]⟩)
  simpa using this

end MSurf
end Flat
