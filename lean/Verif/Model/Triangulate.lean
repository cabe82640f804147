import Verif.Model.SurfaceOps

/-!
# Triangulating a polygon

`triangulate()` of a Euclidean polygon, by clipping ears.
-/

namespace Flat

/-- Three corners of a polygon, given by their indices. -/
abbrev Triple := ℕ × ℕ × ℕ

namespace Poly
variable {K : Type} [Field K] [LinearOrder K]

/-- The conditions in the loop of `triangulate()` for clipping `b` between `a` and `c`, euclidean_polygons.py 1513-1536:
the triangle has positive area and none of the other remaining vertices is in it. -/
def isEar (p : Poly K) (u : List ℕ) (a b c : ℕ) : Bool :=
  decide (¬ ccw (p.vertex b - p.vertex a) (p.vertex c - p.vertex a) ≤ 0) &&
  !(u.filter (fun m => m ∉ [a, b, c])).any (fun m =>
    decide (ccw (p.vertex b - p.vertex a) (p.vertex m - p.vertex a) ≥ 0) &&
    decide (ccw (p.vertex c - p.vertex b) (p.vertex m - p.vertex b) ≥ 0) &&
    decide (ccw (p.vertex a - p.vertex c) (p.vertex m - p.vertex c) ≥ 0))

/-- `untriangulated[i], untriangulated[j], untriangulated[k]`, euclidean_polygons.py 1505-1511.  (The indices are in range.) -/
def corners (u : List ℕ) (i : ℕ) : Triple :=
  (u.getD i 0, u.getD ((i + 1) % u.length) 0, u.getD (((i + 1) % u.length + 1) % u.length) 0)

/-- The inner loop of `triangulate()`: the first position that can be clipped, euclidean_polygons.py 1503-1540. -/
def findEar (p : Poly K) (u : List ℕ) : Option ℕ :=
  (List.range u.length).find? (fun i => isEar p u (corners u i).1 (corners u i).2.1 (corners u i).2.2)

/-- The outer loop of `triangulate()`, euclidean_polygons.py 1502-1544; `t` is the dictionary `triangles`. -/
def earLoop (p : Poly K) (u : List ℕ) (t : Dict Triple ℕ) : Except Err (Dict Triple ℕ) :=
  if h : 3 < u.length then
    match findEar p u with
    | none => .error .assertionError
    | some i => earLoop p (u.eraseIdx ((i + 1) % u.length)) (t.set (corners u i) t.length)
  else .ok (t.set (u.getD 0 0, u.getD 1 0, u.getD 2 0) t.length)
termination_by u.length
decreasing_by
  rw [List.length_eraseIdx_of_lt (Nat.mod_lt _ (by omega))]
  omega

/-- The dictionary `edges`, euclidean_polygons.py 1562-1575. -/
def triangleEdges (t : Dict Triple ℕ) : Dict (ℕ × ℕ) (ℕ × Int) :=
  (t.map (fun x => ((x.1.1, x.1.2.1), ((x.2, 0) : ℕ × Int))) ++ t.map (fun x => ((x.1.2.1, x.1.2.2), ((x.2, 1) : ℕ × Int))) ++
    t.map (fun x => ((x.1.2.2, x.1.1), ((x.2, 2) : ℕ × Int)))).foldl (fun d x => d.set x.1 x.2) []

end Poly

namespace MSurf
variable {K : Type} [Field K] [LinearOrder K]

/-- The loop over the edges of `triangulate()`, euclidean_polygons.py 1577-1587. -/
def triangulateGlue (n : ℕ) (edges : Dict (ℕ × ℕ) (ℕ × Int)) :
    Dict (ℕ × ℕ) (ℕ × Int) → Dict ℕ (ℕ × Int) → Act ℕ (Poly K) (Dict ℕ (ℕ × Int))
  | [], outer => pure outer
  | ((a, b), x) :: es, outer =>
    if edges.has (b, a) = decide (b = (a + 1) % n ∨ a = (b + 1) % n) then throw .assertionError
    else match edges.get (b, a) with
      | some y => do glue x y; triangulateGlue n edges es outer
      | none => triangulateGlue n edges es (outer.set a x)

/-- `triangulate()` of a polygon, euclidean_polygons.py 1391-1591, run on an empty surface; the value is the dictionary
from the edges of the polygon to the edges of the triangles.  (In Python it is a `bidict`, which can be built since the
values are different.) -/
def triangulate (p : Poly K) : Act ℕ (Poly K) (Dict ℕ (ℕ × Int)) :=
  if p.length < 3 then throw .valueError
  else if p.length = 3 then do
    let l ← addPolygon p none
    return [(0, (l, 0)), (1, (l, 1)), (2, (l, 2))]
  else do
    let t ← liftE (p.earLoop (List.range p.length) [])
    let ps ← liftE (t.mapM (fun x => do
      let q ← Poly.ofVertices [p.vertex x.1.1, p.vertex x.1.2.1, p.vertex x.1.2.2]
      return (x.2, q)))
    addAll ps
    triangulateGlue p.length (Poly.triangleEdges t) (Poly.triangleEdges t) []

end MSurf
end Flat
