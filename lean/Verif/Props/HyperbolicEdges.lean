import Verif.Lemmas.PolygonCorners

/-!
# C83, C84: Edges and vertices of polygons in the hyperbolic plane

The edges are the intersections of the polygon with its bounding geodesics, the vertices are its corners in counterclockwise order.
-/

namespace Flat
namespace Hyp
namespace Props

variable {K : Type} [Field K] [LinearOrder K] [IsStrictOrderedRing K]

/-- C83. `edges()` of a polygon returns one edge for each of its half spaces, in the same counterclockwise order.
The edge consists of exactly the points of the polygon on the boundary of the half space, also for points with coordinates in a larger field; in particular, it has interior points.
Each edge ends where the next one starts, unless the end is ideal. -/
theorem C83_edges (l : List (Geo K)) (hl : (ConvexSet.polygon l).Reduced) :
    ∃ es : List (Edge K), polyEdges l = .ok es ∧ es.map Edge.geo = l ∧
      (∀ x ∈ es, (∀ p, x.start = some p ∨ x.stop = some p → p.1 * p.1 + p.2 * p.2 < 1 ∧ x.geo.val p = 0) ∧
        (∃ p q : K × K, p ≠ q ∧ p.1 * p.1 + p.2 * p.2 < 1 ∧ q.1 * q.1 + q.2 * q.2 < 1 ∧ Between (RingHom.id K) x.geo x.start x.stop p ∧ Between (RingHom.id K) x.geo x.start x.stop q) ∧
        ∀ (F : Type) [Field F] [LinearOrder F] [IsStrictOrderedRing F] (f : K →+* F), StrictMono f → ∀ z : F × F, z.1 * z.1 + z.2 * z.2 ≤ 1 →
          (Between f x.geo x.start x.stop z ↔ (x.geo.map f).val z = 0 ∧ (ConvexSet.polygon l).Mem f z)) ∧
      ∀ i (hi : i < es.length), (es[(i + 1) % es.length]'(Nat.mod_lt _ (by omega))).start = es[i].stop := by
  obtain ⟨h1, h2⟩ := polyEdges_eq hl
  have hper : ∀ i, cornerAt l (i + l.length) = cornerAt l i := fun i => by
    rw [cornerAt, cornerAt, seqOf_per, show i + l.length + 1 = i + 1 + l.length by omega, seqOf_per]
  have hn : 2 ≤ l.length := hl.1
  refine ⟨_, h1, ?_, ?_, ?_⟩
  · rw [List.map_map]
    exact list_seqOf l
  · intro x hx
    obtain ⟨i, -, rfl⟩ := List.mem_map.mp hx
    obtain ⟨v, hN, hm⟩ := h2 i
    refine ⟨fun p hp => ?_, ?_, fun F _ _ _ f hf z hz => ?_⟩
    · rcases hp with hp | hp
      · obtain ⟨k1, k2⟩ := hN.start p hp
        exact ⟨of_decide_eq_true k2, k1⟩
      · obtain ⟨k1, k2⟩ := hN.stop p hp
        exact ⟨of_decide_eq_true k2, k1⟩
    · obtain ⟨y, w, hyw, m1, m2, f1, f2⟩ := two_points v (R := segmentFinal (seqOf l i) (cornerAt l (i + (l.length - 1))) (cornerAt l i)) ⟨_, _, hN, rfl⟩
      have hb := mem_segmentFinal (RingHom.id K) (g := seqOf l i) (fun p hp q hq h => absurd (congrArg (seqOf l i).pos h) (hN.order p hp q hq).ne)
      exact ⟨y, w, hyw, f1, f2, ((hb y).1 m1).2, ((hb w).1 m2).2⟩
    · rw [show ((ConvexSet.polygon l).Mem f z ↔ InAll f l z) from ⟨fun h => h.2, fun h => ⟨hz, h⟩⟩]
      exact hm F f hf z hz
  · intro i hi
    simp only [List.length_map, List.length_range] at hi ⊢
    simp only [List.getElem_map, List.getElem_range, edgeAt]
    by_cases he : i + 1 = l.length
    · rw [he, Nat.mod_self, show 0 + (l.length - 1) = i by omega]
    · rw [Nat.mod_eq_of_lt (by omega), show i + 1 + (l.length - 1) = i + l.length by omega, hper]

/-- A triangle with a vertical side in the Klein model. -/
def triangle : List (Geo ℚ) := [⟨0, -1, 1⟩, ⟨3 / 10, -1 / 10, -1 / 2⟩, ⟨0, 1, 0⟩]

theorem triangle_reduced : (ConvexSet.polygon triangle).Reduced := by
  refine ⟨by decide, by decide +kernel, ⟨(1 / 8, 1 / 4), by norm_num, ?_⟩, ?_⟩
  · simp only [triangle, List.mem_cons, List.not_mem_nil, or_false, forall_eq_or_imp, forall_eq, Geo.val]
    norm_num
  · simp only [triangle, List.mem_cons, List.not_mem_nil, or_false, forall_eq_or_imp, forall_eq, Geo.val, Geo.Valid, InDisk]
    refine ⟨⟨by norm_num, (1 / 4, 1 / 8), ?_⟩, ⟨by norm_num, (1 / 8, 7 / 10), ?_⟩, ⟨by norm_num, (-1 / 8, 1 / 4), ?_⟩⟩ <;> norm_num

/-- The hypotheses of `C83_edges` are met, and its edges are the three sides of the triangle. -/
example : (ConvexSet.polygon triangle).Reduced ∧ (match polyEdges triangle with
    | .ok es => decide (es.map (fun x => (x.start, x.stop)) = [(some (0, 0), some (1 / 2, 1 / 2)), (some (1 / 2, 1 / 2), some (0, 3 / 5)), (some (0, 3 / 5), some (0, 0))])
    | .error _ => false) = true := ⟨triangle_reduced, by decide +kernel⟩

/-- C84. `vertices()` of a polygon without marked vertices returns all its corners once and in counterclockwise order: the points of the polygon that are on two of its bounding geodesics or that are ideal and on one of them.
A `ValueError` is raised only if an ideal corner does not have coordinates in the base field.

What is missing: with marked vertices, corners can get lost, see `C84_marked_violation`. -/
theorem C84_vertices_partial (sqrt : K → Option K) (hsqrt : IsSqrt sqrt) (l : List (Geo K)) (hl : (ConvexSet.polygon l).Reduced) :
    (∃ vs, polyVertices sqrt l [] = .ok vs ∧ vs.Nodup ∧
      (∀ a b c, [a, b, c].Sublist vs → (b.2 - a.2) * (c.1 - a.1) < (b.1 - a.1) * (c.2 - a.2)) ∧
      ∀ v : K × K, v ∈ vs ↔ (ConvexSet.polygon l).Mem (RingHom.id K) v ∧
        ((∃ g ∈ l, g.val v = 0 ∧ v.1 * v.1 + v.2 * v.2 = 1) ∨ ∃ g ∈ l, ∃ h ∈ l, g ≠ h ∧ g.val v = 0 ∧ h.val v = 0)) ∨
    (polyVertices sqrt l [] = .error .valueError ∧ ∃ es, polyEdges l = .ok es ∧ ∃ x ∈ es,
      (x.start = none ∧ ∀ p q, ¬IsStart x.geo p q) ∨ (x.stop = none ∧ ∀ p q, ¬IsStart x.geo.neg p q)) := by
  rcases polyVertices_spec hsqrt hl with ⟨vs, h1, h2, h3, h4⟩ | ⟨err, h1, i, hi, h2⟩
  · left
    refine ⟨vs, h1, h2, fun a b c h => ?_, fun v => ?_⟩
    · have := h3 a b c h
      simp only [area] at this
      linarith
    · rw [h4]
      exact Iff.rfl
  · right
    obtain ⟨e1, e2⟩ := polyEdges_eq hl
    have herr : ∀ g : Geo K, g.Valid → startCoordinates sqrt g = .error err → err = .valueError ∧ ∀ p q, ¬IsStart g p q := by
      intro g hg h
      rcases C51_start hsqrt hg with ⟨x, y, k, -⟩ | ⟨k, k'⟩
      · rw [k] at h; cases h
      · rw [k] at h; cases h; exact ⟨rfl, k'⟩
    have hm : edgeAt l i ∈ (List.range l.length).map (edgeAt l) := List.mem_map.mpr ⟨i, List.mem_range.mpr hi, rfl⟩
    rcases h2 with ⟨k1, k2⟩ | ⟨k1, k2⟩
    · obtain ⟨rfl, k3⟩ := herr _ (e2 i).1 k2
      exact ⟨h1, _, e1, _, hm, .inl ⟨k1, k3⟩⟩
    · obtain ⟨rfl, k3⟩ := herr _ (valid_neg (e2 i).1) k2
      exact ⟨h1, _, e1, _, hm, .inr ⟨k1, k3⟩⟩

/-- The hypotheses of `C84_vertices_partial` are met, and the vertices of the triangle are found. -/
example : IsSqrt ratSqrt ∧ (ConvexSet.polygon triangle).Reduced ∧ polyVertices ratSqrt triangle [] = .ok [(0, 0), (1 / 2, 1 / 2), (0, 3 / 5)] :=
  ⟨ratSqrt_isSqrt, triangle_reduced, by decide +kernel⟩

/-- Two half spaces whose boundaries do not meet have four ideal vertices. -/
example : polyVertices ratSqrt [⟨3 / 5, -1, 0⟩, ⟨3 / 5, 1, 0⟩] [] = .ok [(-3 / 5, -4 / 5), (3 / 5, -4 / 5), (3 / 5, 4 / 5), (-3 / 5, 4 / 5)] := by decide +kernel

/-- Ideal vertices without coordinates in the base field. -/
example : polyVertices ratSqrt [⟨1 / 2, -1, 0⟩, ⟨1 / 2, 1, 0⟩] [] = .error .valueError := by decide +kernel

/-- With a marked vertex on the left side of a polygon that is vertical in the Klein model, one of the vertices of the polygon gets lost. -/
theorem C84_marked_violation : ∃ (l : List (Geo ℚ)) (m v : ℚ × ℚ), (ConvexSet.polygon l).Reduced ∧ ((∃ g ∈ l, g.val m = 0) ∧ m.1 * m.1 + m.2 * m.2 < 1 ∧ (ConvexSet.polygon l).Mem (RingHom.id ℚ) m) ∧
    (∃ vs, polyVertices ratSqrt l [] = .ok vs ∧ v ∈ vs) ∧ ∃ ws, polyVertices ratSqrt l [m] = .ok ws ∧ v ∉ ws := by
  refine ⟨triangle, (0, 5 / 13), (0, 3 / 5), triangle_reduced, ⟨⟨⟨0, 1, 0⟩, by simp [triangle], by norm_num [Geo.val]⟩, by norm_num, ?_⟩, ?_, ?_⟩
  · refine ⟨by norm_num [InDisk], ?_⟩
    simp only [InAll, triangle, List.mem_cons, List.not_mem_nil, or_false, forall_eq_or_imp, forall_eq, Geo.val, Geo.map, RingHom.id_apply]
    norm_num
  · exact ⟨[(0, 0), (1 / 2, 1 / 2), (0, 3 / 5)], by decide +kernel, by simp⟩
  · exact ⟨[(0, 0), (1 / 2, 1 / 2), (0, 5 / 13)], by decide +kernel, by norm_num⟩

end Props
end Hyp
end Flat
