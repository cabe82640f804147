import Verif.Model.HomologyMaps
import Verif.Model.Saddle

/-!
# Model of the homology class of a saddle connection

`SaddleConnection._homology_` of `flatsurf/geometry/surface_objects.py`.  The two checks of the argument `H`, lines 1176-1183, are not modelled: the
homology group is the one of the surface, given by its simplices.
-/

namespace Flat
namespace RSurf
variable {L K : Type} [DecidableEq L] [Field K] [LinearOrder K] [IsStrictOrderedRing K] {R : Type} [CommRing R]

/-- The vertex of the polygon with which the path of edges for a segment begins, surface_objects.py 1201-1209; `n` is the number of vertices. -/
def segFirst (n : ℕ) (s : Seg L K) : Except Err ℕ :=
  match s.start.position with
  | .edgeInterior e => .ok ((e + 1) % n)
  | .vertex v => .ok v
  | _ => .error .assertionError

/-- The vertex of the polygon with which the path of edges for a segment ends, surface_objects.py 1211-1217. -/
def segLast (s : Seg L K) : Except Err ℕ :=
  match s.stop.position with
  | .edgeInterior e => .ok e
  | .vertex v => .ok v
  | _ => .error .assertionError

/-- The edges that are summed up for a segment, surface_objects.py 1200-1223. -/
def segPath (S : RSurf L K) (s : Seg L K) : Except Err (List (L × ℕ)) := do
  let p ← S.polygon s.start.label
  let i ← segFirst p.length s
  let j ← segLast s
  if i < j then return (List.range' i (j - i)).map fun e => (s.start.label, e)
  else return (List.range' i (p.length - i) ++ List.range j).map fun e => (s.start.label, e)

/-- The loop over the segments, surface_objects.py 1198-1225. -/
def segsChain (S : RSurf L K) (sx : List (L × ℕ)) : List (Seg L K) → Except Err (L × ℕ → R)
  | [] => .ok 0
  | s :: ss => do
    let ds ← S.segPath s
    let c ← S.pathChain sx ds
    let r ← S.segsChain sx ss
    return c + r

/-- `_homology_(H)` of a saddle connection, surface_objects.py 1159-1225 with `start_tangent_vector()`, 993-1003; the code flows for an unbounded number
`limit` of steps. -/
def saddleChain (S : RSurf L K) (sx : List (L × ℕ)) (limit : ℕ) (c : Saddle L K) : Except Err (L × ℕ → R) := do
  let p ← S.polygon c.start.1
  let t ← S.tangentVector c.start.1 (p.vertex c.start.2) c.direction
  let x ← S.trajectory t
  let y ← S.flowSteps limit x
  match y.segments with
  | [s] => if ← S.segIsEdge s then S.toChain sx (s.start.label, ← S.segEdge s) else S.segsChain sx [s]
  | segs => S.segsChain sx segs

end RSurf
end Flat
