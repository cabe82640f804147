import Verif.Model.Lazy
import Mathlib.Data.Finset.Prod
import Mathlib.Data.Finset.Image

/-!
# Model of points of surfaces

`flatsurf/geometry/surface_objects.py` (`SurfacePoint`).  The surface is given by the results of `polygon()` and `opposite_edge()`.
An edge `(label, e)` stands for the vertex at which it starts.
-/

namespace Flat
namespace RSurf
variable {L K : Type} [Field K] [LinearOrder K] [IsStrictOrderedRing K]

/-- `rotate(label, source_edge, direction)` with `direction == 1`, surface_objects.py 211-224. -/
def rotateCw (S : RSurf L K) (d : L × ℕ) : Except Err (Option (L × ℕ)) := do
  match ← S.opp d.1 d.2 with
  | none => return none
  | some c => do
    let p ← S.polygon c.1
    return some (c.1, (c.2 + 1) % p.length)

/-- `rotate(label, source_edge, direction)` with `direction == -1`, surface_objects.py 211-224. -/
def rotateCcw (S : RSurf L K) (d : L × ℕ) : Except Err (Option (L × ℕ)) := do
  let p ← S.polygon d.1
  S.opp d.1 ((d.2 + (p.length - 1)) % p.length)

/-- `collect_representatives(label, source_edge, direction, limit)` with `limit=None`, surface_objects.py 210-245.  The set of
representatives is a list without repetitions.  For a vertex with infinitely many representatives the loop does not end: the model
runs out of fuel. -/
def collect {D : Type} [DecidableEq D] (rot : D → Except Err (Option D)) : ℕ → List D → D → Except Err (List D)
  | 0, _, _ => .error .outOfFuel
  | fuel + 1, acc, x => do
    let acc' := if x ∈ acc then acc else x :: acc
    match ← rot x with
    | none => return acc'
    | some y => if y ∈ acc' then return acc' else collect rot fuel acc' y

/-- The edges that start at the vertex of an edge, surface_objects.py 247-249. -/
def vertexEdges [DecidableEq L] (S : RSurf L K) (fuel : ℕ) (d : L × ℕ) : Except Err (List (L × ℕ)) := do
  let r ← collect S.rotateCw fuel [] d
  collect S.rotateCcw fuel r d

/-- The coordinates of the vertex at which an edge starts, surface_objects.py 252. -/
def startPt (S : RSurf L K) (d : L × ℕ) : Except Err (L × Vec K) := do
  let p ← S.polygon d.1
  return (d.1, p.vertex d.2)

/-- `SurfacePoint(surface, label, point)`: the frozenset of its representatives, surface_objects.py 154-260.  `__eq__` (589-619)
and `__hash__` (643-657) compare and hash this set. -/
def surfacePoint [DecidableEq L] (S : RSurf L K) (fuel : ℕ) (x : L × Vec K) : Except Err (Finset (L × Vec K)) := do
  let p ← S.polygon x.1
  match p.pointPosition x.2 with
  | .outside => throw .notImplemented
  | .interior => return {x}
  | .edgeInterior e => do
    match ← S.opp x.1 e with
    | none => return {x}
    | some c => do
      let g ← S.edgeTransformation x.1 e
      return {x, (c.1, g.call x.2)}
  | .vertex v => do
    let ds ← S.vertexEdges fuel (x.1, v)
    let xs ← ds.mapM S.startPt
    return xs.toFinset

/-- `SurfacePoint(surface, label, vertex)` with the number of a vertex, surface_objects.py 178-179. -/
def surfaceVertex [DecidableEq L] (S : RSurf L K) (fuel : ℕ) (d : L × ℕ) : Except Err (Finset (L × Vec K)) := do
  S.surfacePoint fuel (← S.startPt d)

end RSurf
end Flat
