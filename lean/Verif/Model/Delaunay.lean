import Verif.Model.SurfaceOps
import Verif.Model.Circle

/-!
# Delaunay triangulations

Model of the Delaunay tests in categories/similarity_surfaces.py and of `delaunay_single_flip` in surface.py.
-/

namespace Flat
namespace MSurf
variable {L K : Type} [LinearOrder L] [Field K] [LinearOrder K] [IsStrictOrderedRing K]

/-- `similarity_from_vectors(u, v)`; a zero vector `u` leads to a `ZeroDivisionError`, modelled by the same exception as in
`edgeTransformation`. -/
def simFromVectors (u v : Vec K) : Except Err (Mat2 K) :=
  match similarityFromVectors u v with
  | some m => .ok m
  | none => .error .valueError

/-- `_delaunay_edge_needs_flip(p1, e1)`, categories/similarity_surfaces.py 2560-2575. -/
def delaunayEdgeNeedsFlip (s : MSurf L (Poly K)) (l1 : L) (e1 : ℕ) : Except Err Bool := do
  let c ← s.oppositeEdge! l1 e1
  let p1 ← s.polygon l1
  let p2 ← s.polygon c.1
  if nv p1 ≠ 3 ∨ nv p2 ≠ 3 then throw .valueError
  let sim1 ← simFromVectors (p1.edge (e1 + 2)) (-p1.edge (e1 + 1))
  let sim2 ← simFromVectors (p2.edge (c.2.toNat + 2)) (-p2.edge (c.2.toNat + 1))
  return decide ((sim1.mul sim2).c < 0)

/-- `_delaunay_edge_needs_join(p1, e1)`, categories/similarity_surfaces.py 2577-2596. -/
def delaunayEdgeNeedsJoin (s : MSurf L (Poly K)) (l1 : L) (e1 : ℕ) : Except Err Bool := do
  let c ← s.oppositeEdge! l1 e1
  let p1 ← s.polygon l1
  let p2 ← s.polygon c.1
  let e2 := c.2.toNat
  let sim1 ← simFromVectors (p1.vertex e1 - p1.vertex (e1 + 2)) (-p1.edge (e1 + 1))
  let sim2 ← simFromVectors (p2.vertex e2 - p2.vertex (e2 + 2)) (-p2.edge (e2 + 1))
  return decide ((sim1.mul sim2).c = 0)

/-- The loop of `is_delaunay_triangulated()`. -/
def delaunayLoop (s : MSurf L (Poly K)) : List ((L × Int) × (L × Int)) → Except Err Bool
  | [] => .ok true
  | x :: xs => do
    let p1 ← s.polygon x.1.1
    if nv p1 ≠ 3 then return false
    let p2 ← s.polygon x.2.1
    if nv p2 ≠ 3 then return false
    if ← s.delaunayEdgeNeedsFlip x.1.1 x.1.2.toNat then return false
    delaunayLoop s xs

/-- `is_delaunay_triangulated()` without a limit, categories/similarity_surfaces.py 2598-2635. -/
def isDelaunayTriangulated (s : MSurf L (Poly K)) : Except Err Bool := do
  delaunayLoop s (← s.gluingPairs)

/-- The loop of `delaunay_single_flip()`: the first edge of the list which needs a flip. -/
def firstFlip (s : MSurf L (Poly K)) : List ((L × Int) × (L × Int)) → Except Err (Option (L × ℕ))
  | [] => .ok none
  | x :: xs => do
    if x.1.1 < x.2.1 ∨ (x.1.1 = x.2.1 ∧ x.1.2 ≤ x.2.2) then
      if ← s.delaunayEdgeNeedsFlip x.1.1 x.1.2.toNat then return some (x.1.1, x.1.2.toNat)
    firstFlip s xs

/-- `delaunay_single_flip()`, surface.py 2064-2076.  The label comparator is the order of the labels. -/
def delaunaySingleFlip : Act L (Poly K) Bool := do
  let s ← get
  let gs ← liftE s.gluingPairs
  let f ← liftE (s.firstFlip gs)
  match f with
  | none => return false
  | some x =>
    triangleFlip x.1 x.2
    return true

end MSurf
end Flat
