import Verif.Props.Flow

/-!
# C61: positions close to the boundary and under linear maps
-/

namespace Flat
namespace Poly
variable {K : Type} [Field K] [LinearOrder K] [IsStrictOrderedRing K]

/-- **C61.** `get_point_position` commutes with the action of orientation preserving matrices on polygons. -/
theorem C61_linear {g : Mat2 K} {p q : Poly K} (hv : p.Valid) (hm : mul g p = some q) (hg : 0 < g.det) (x : Vec K) :
    q.pointPosition (g.mulVec x) = p.pointPosition x := by
  obtain ⟨hlen, _, hpos, -⟩ := C10_vertices g p q hv.ne_nil hm
  exact pointPosition_image hv (C10_mul_valid hv hm) hlen (fun a b => mulVec_sub g b a) hg (hpos hg) x

/-- **C61.** `get_point_position` commutes with translations of polygons. -/
theorem C61_translate {p : Poly K} (hv : p.Valid) (u x : Vec K) : (p.translate u).pointPosition (u + x) = p.pointPosition x :=
  pointPosition_image (F := fun y => u + y) (g := ⟨1, 0, 0, 1⟩) hv (hv.translate u) (by simp [translate])
    (fun a b => by ext <;> simp [Mat2.mulVec]) (by simp [Mat2.det]) (fun i => vertex_translate p hv.ne_nil u i) x

/-- **C61.** Polygons are to the left of their edges: close to a point inside of an edge, the points to the left of the edge are inside
of the polygon, and the points to the right of the edge are outside. -/
theorem C61_edge_sides {p : Poly K} (hv : p.Valid) {pt : Vec K} {e : ℕ} (h : p.pointPosition pt = .edgeInterior e) (d : Vec K) :
    (0 < ccw (p.edge e) d → ∃ ε : K, 0 < ε ∧ ∀ s : K, 0 < s → s ≤ ε → p.pointPosition (pt + s • d) = .interior) ∧
    (ccw (p.edge e) d < 0 → ∃ ε : K, 0 < ε ∧ ∀ s : K, 0 < s → s ≤ ε → p.pointPosition (pt + s • d) = .outside) :=
  side_local hv ((C12_edge hv pt e).1 h).2 d

/-- **C61.** Close to a vertex, the points in the sector counterclockwise from the next edge to the previous edge are inside of the
polygon, the points strictly in the other sector are outside. -/
theorem C61_vertex_sectors {p : Poly K} (hv : p.Valid) {pt : Vec K} {i : ℕ} (h : p.pointPosition pt = .vertex i) (d : Vec K) :
    (isBetween (p.edge i) (-p.edge (i + (p.length - 1))) d = true →
      ∃ ε : K, 0 < ε ∧ ∀ s : K, 0 < s → s ≤ ε → p.pointPosition (pt + s • d) = .interior) ∧
    (isBetween (-p.edge (i + (p.length - 1))) (p.edge i) d = true →
      ∃ ε : K, 0 < ε ∧ ∀ s : K, 0 < s → s ≤ ε → p.pointPosition (pt + s • d) = .outside) := by
  obtain ⟨hi, rfl⟩ := (C12_vertex hv pt i).1 h
  exact vertex_local hv hi d

/-- The reflex vertex of the L-shaped polygon, and an edge. -/
example : (∃ ε : ℚ, 0 < ε ∧ ∀ s : ℚ, 0 < s → s ≤ ε → exL.pointPosition ((1, 1) + s • (1, -1)) = .interior) ∧
    (∃ ε : ℚ, 0 < ε ∧ ∀ s : ℚ, 0 < s → s ≤ ε → exL.pointPosition ((1, 1) + s • (1, 2)) = .outside) ∧
    (∃ ε : ℚ, 0 < ε ∧ ∀ s : ℚ, 0 < s → s ≤ ε → exL.pointPosition ((3 / 2, 1) + s • (1, 2)) = .outside) :=
  ⟨(C61_vertex_sectors exL_valid (i := 4) (by decide +kernel) _).1 (by decide +kernel),
    (C61_vertex_sectors exL_valid (i := 4) (by decide +kernel) _).2 (by decide +kernel),
    (C61_edge_sides exL_valid (e := 3) (by decide +kernel) _).2 (by decide +kernel)⟩

example : mul (⟨2, 1, 1, 1⟩ : Mat2 ℚ) exL = some [(0, 0), (2, 1), (4, 2), (5, 3), (3, 2), (4, 3), (2, 2), (1, 1)] := by decide +kernel

end Poly
end Flat
