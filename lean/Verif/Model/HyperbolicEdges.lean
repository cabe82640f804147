import Verif.Model.HyperbolicHull

/-!
# Edges and vertices of polygons in the hyperbolic plane

The model of `HyperbolicConvexPolygon.edges`, `HyperbolicConvexPolygon.vertices` and of the orders of `HyperbolicEdges` and `HyperbolicVertices`, `flatsurf/geometry/hyperbolic.py`.
-/

namespace Flat
namespace Hyp

variable {K : Type} [Field K] [LinearOrder K]

/-- An edge: an oriented segment or an oriented geodesic, which is a segment without a finite start and a finite end, lines 13145-13310 and 8097-8226. -/
structure Edge (K : Type) where
  geo : Geo K
  start : Option (K × K)
  stop : Option (K × K)
  deriving DecidableEq

/-- The geodesic and the end points of what `segment` returns; points and the empty set have no `geodesic()`. -/
def ConvexSet.asEdge : ConvexSet K → Except Err (Edge K)
  | .geodesic g => .ok ⟨g, none, none⟩
  | .segment g s e => .ok ⟨g, s, e⟩
  | _ => .error .attributeError

/-- The end point shared by consecutive boundaries in `edges`, lines 11525-11559. -/
def edgeCorner (A B : Geo K) : Except Err (Option (K × K)) := do
  let c ← A.configuration B
  match c with
  | .convex => pure ((A.inter B).filter finitePoint)
  | .concave => pure none
  | .negative => pure none
  | .antiParallel => pure none
  | _ => .error .notImplemented

/-- The body of the loop in `edges`, lines 11521-11565. -/
def polyEdge (A B C : Geo K) : Except Err (Edge K) := do
  let s ← edgeCorner A B
  let e ← edgeCorner B C
  let edge ← segment B s e
  edge.asEdge

/-- The loop in `edges`, lines 11521-11565. -/
def edgeList : List (Geo K × Geo K × Geo K) → Except Err (List (Edge K))
  | [] => .ok []
  | (A, B, C) :: l => do
    let e ← polyEdge A B C
    let rest ← edgeList l
    pure (e :: rest)

/-- Comparison of two points on a geodesic, lines 14657-14659 and 14666-14668. -/
def paramLt (g : Geo K) (p q : K × K) : Bool :=
  match g.parametrize p, g.parametrize q with
  | .ok t, .ok u => decide (t < u)
  | _, _ => false

/-- The end of `HyperbolicEdges._lt_`, lines 14648-14668: a start that is not finite is ideal. -/
def sameGeoLt (g : Geo K) (s e s' e' : Option (K × K)) : Bool :=
  match s, s' with
  | none, none =>
    match e, e' with
    | some p, some q => paramLt g p q
    | _, _ => false
  | none, some _ => true
  | some _, none => false
  | some p, some q => paramLt g p q

/-- `HyperbolicEdges._lt_`, lines 14587-14668. -/
def edgeLt (x y : Edge K) : Bool :=
  if halfSpaceLt x.geo y.geo then true
  else if x.geo.eq y.geo true = false then false
  else if x.start = y.start ∧ x.stop = y.stop then false
  else sameGeoLt x.geo x.start x.stop y.start y.stop

/-- `HyperbolicConvexPolygon.edges` without marked vertices, lines 11456-11594. -/
def polyEdges (l : List (Geo K)) : Except Err (List (Edge K)) :=
  if l.length ≤ 1 then .ok (l.map fun g => ⟨g, none, none⟩)
  else do
    let es ← edgeList (triples l)
    pure (orderedSet edgeLt es)

/-- The coordinates of `start()` and `end()` of an edge, lines 13236-13304. -/
def Edge.ends (sqrt : K → Option K) (x : Edge K) : Except Err ((K × K) × (K × K)) := do
  let s ← endCoords sqrt x.geo x.start
  let e ← endCoords sqrt x.geo.neg x.stop
  pure (s, e)

/-- The coordinates of the end points of all edges. -/
def allEnds (sqrt : K → Option K) : List (Edge K) → Except Err (List ((K × K) × (K × K)))
  | [] => .ok []
  | x :: l => do
    let p ← x.ends sqrt
    let rest ← allEnds sqrt l
    pure (p :: rest)

/-- The loop in `vertices`, lines 11652-11659: the end of the previous edge and the end points of the remaining edges. -/
def collectVertices (stop : K × K) : List ((K × K) × (K × K)) → List (K × K)
  | [] => []
  | (s, e) :: l => if s ≠ stop then s :: e :: collectVertices e l else e :: collectVertices e l

/-- `HyperbolicVertices._lt_`, lines 14233-14297. The assertions hold by the choice of `start`.
The `ValueError` for collinear entries is simplified to entries that are not ordered. -/
def vertexLt (entries : List (K × K)) (start p q : K × K) : Bool :=
  if p = start then true
  else if q = start then false
  else if p = q then false
  else if (p.2 - start.2) * (q.1 - start.1) < (q.2 - start.2) * (p.1 - start.1) then true
  else if (p.2 - start.2) * (q.1 - start.1) > (q.2 - start.2) * (p.1 - start.1) then false
  else
    match entries.find? fun v => decide ((v.2 - start.2) * (q.1 - start.1) ≠ (q.2 - start.2) * (v.1 - start.1)) with
    | some v =>
      if (v.2 - start.2) * (q.1 - start.1) > (q.2 - start.2) * (v.1 - start.1) then decide (p.1 - start.1 < q.1 - start.1)
      else decide (p.1 - start.1 > q.1 - start.1)
    | none => false

/-- `HyperbolicVertices.__init__`, lines 14117-14178. -/
def sortVertices : List (K × K) → List (K × K)
  | [] => []
  | [v] => [v]
  | v :: vs => orderedSet (vertexLt (v :: vs) (minCoords v vs)) (v :: vs)

/-- `HyperbolicConvexPolygon.vertices`, lines 11596-11664, with the marked vertices `marked`. -/
def polyVertices (sqrt : K → Option K) (l : List (Geo K)) (marked : List (K × K)) : Except Err (List (K × K)) := do
  let es ← polyEdges l
  let ends ← allEnds sqrt es
  match ends.getLast? with
  | none => .error .indexError
  | some last => pure (sortVertices (collectVertices last.2 ends ++ marked))

end Hyp
end Flat
