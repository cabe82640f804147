import Verif.Model.HyperbolicPolygon

/-!
# Convex hulls in the hyperbolic plane

A model of `HyperbolicHalfSpaces.convex_hull`, `flatsurf/geometry/hyperbolic.py`, lines 14442-14559, and of `HyperbolicPlane.convex_hull`, lines 1948-2100, for points, segments, geodesics and half spaces without marked vertices.
Line numbers refer to that file.
-/

namespace Flat
namespace Hyp

variable {K : Type} [Field K] [LinearOrder K]

/-- The order of the coordinates that `min` uses, line 14493. -/
def coordsLt (p q : K × K) : Bool := decide (p.1 < q.1) || (decide (p.1 = q.1) && decide (p.2 < q.2))

/-- `min(vertices)`, line 14493, given the first vertex. -/
def minCoords (p : K × K) (l : List (K × K)) : K × K := l.foldl (fun m q => if coordsLt q m then q else m) p

/-- `Slope.__eq__`, lines 14500-14505. -/
def slopeEq (r p q : K × K) : Bool :=
  if p.1 - r.1 = 0 ∧ p.2 - r.2 = 0 then decide (q.1 - r.1 = 0 ∧ q.2 - r.2 = 0)
  else decide ((p.2 - r.2) * (q.1 - r.1) = (q.2 - r.2) * (p.1 - r.1))

/-- `Slope.__lt__`, lines 14507-14516. -/
def slopeLt (r p q : K × K) : Bool :=
  if (p.2 - r.2) * (q.1 - r.1) < (q.2 - r.2) * (p.1 - r.1) then true
  else if (p.2 - r.2) * (q.1 - r.1) > (q.2 - r.2) * (p.1 - r.1) then false
  else decide ((p.1 - r.1) * (p.1 - r.1) + (p.2 - r.2) * (p.2 - r.2) < (q.1 - r.1) * (q.1 - r.1) + (q.2 - r.2) * (q.2 - r.2))

/-- Insert a vertex into a sorted list. -/
def insertSlope (r p : K × K) : List (K × K) → List (K × K)
  | [] => [p]
  | q :: l => if slopeLt r p q then p :: q :: l else q :: insertSlope r p l

/-- `vertices.sort(key=Slope)`, line 14518. -/
def sortSlope (r : K × K) (l : List (K × K)) : List (K × K) := l.foldr (insertSlope r) []

/-- Drop collinear points, lines 14522-14536. -/
def dropCollinear (r : K × K) : List (K × K) → List (K × K)
  | [] => []
  | [p] => [p]
  | p :: q :: l => if slopeEq r p q then dropCollinear r (q :: l) else p :: dropCollinear r (q :: l)

/-- `ccw`, lines 14540-14544. -/
def turnsLeft (A B C : K × K) : Bool := decide ((B.1 - A.1) * (C.2 - B.2) > (C.1 - B.1) * (B.2 - A.2))

/-- The inner loop of the Graham scan, lines 14547-14548; the last vertex of the hull comes first. -/
def popHull (v : K × K) : List (K × K) → List (K × K)
  | b :: a :: hull => if turnsLeft a b v then b :: a :: hull else popHull v (a :: hull)
  | hull => hull

/-- The outer loop of the Graham scan, lines 14546-14549; the last vertex of the hull comes first. -/
def grahamScan (l : List (K × K)) : List (K × K) := l.foldl (fun hull v => v :: popHull v hull) []

/-- The half spaces of the edges from each vertex to the next one, lines 14555-14557. -/
def hullEdges (sqrt : K → Option K) (last : K × K) : List (K × K) → Except Err (List (Geo K))
  | [] => .ok []
  | p :: l => do
    let g ← geodesicThrough sqrt (.coords last.1 last.2) (.coords p.1 p.2) true
    let rest ← hullEdges sqrt p l
    pure (g :: rest)

/-- `HyperbolicHalfSpaces.convex_hull`, lines 14442-14559, of the coordinates of vertices. -/
def hullHalfSpaces (sqrt : K → Option K) (vertices : List (K × K)) : Except Err (List (Geo K)) :=
  match vertices.dedup with
  | [] => .error .notImplemented
  | [p] => .ok (pointHalfSpaces p)
  | p :: l => do
    let reference := minCoords p l
    let hull := grahamScan (dropCollinear reference (sortSlope reference (p :: l)))
    match hull with
    | [] => .error .assertionError
    | last :: _ => do
      if hull.getLast? ≠ some reference then .error .assertionError
      else do
        let edges ← hullEdges sqrt last hull.reverse
        pure (orderedSet halfSpaceLt edges)

/-- The coordinates of the start and the end of a geodesic, lines 7985-8000 and 8180-8226. -/
def Geo.ends (sqrt : K → Option K) (g : Geo K) : Except Err ((K × K) × (K × K)) := do
  let s ← startCoordinates sqrt g
  let e ← startCoordinates sqrt g.neg
  pure (s, e)

/-- The coordinates of the `start` of a segment, which is the start of the geodesic if it is not a finite point, lines 13236-13310. -/
def endCoords (sqrt : K → Option K) (g : Geo K) : Option (K × K) → Except Err (K × K)
  | some p => .ok p
  | none => startCoordinates sqrt g

/-- The coordinates of the `vertices` of a convex set, lines 6447-6500, 7947-7983, 9334-9360, 12859-12905 and 13602-13619; polygons are not modelled. -/
def ConvexSet.vertexCoords (sqrt : K → Option K) : ConvexSet K → Except Err (List (K × K))
  | .empty => .ok []
  | .point p => .ok [p]
  | .geodesic g => do
    let v ← g.ends sqrt
    pure [v.1, v.2]
  | .segment g s e => do
    let s ← endCoords sqrt g s
    let e ← endCoords sqrt g.neg e
    pure [s, e]
  | .halfSpace g => do
    let v ← g.ends sqrt
    pure [v.1, v.2]
  | .polygon _ => .error .notImplemented

/-- All the vertices, line 2055. -/
def allVertices (sqrt : K → Option K) : List (ConvexSet K) → Except Err (List (K × K))
  | [] => .ok []
  | S :: sets => do
    let v ← S.vertexCoords sqrt
    let rest ← allVertices sqrt sets
    pure (v ++ rest)

/-- The half spaces among the sets, lines 2059-2063. -/
def halfSpacesAmong : List (ConvexSet K) → List (Geo K)
  | [] => []
  | .halfSpace g :: sets => g :: halfSpacesAmong sets
  | _ :: sets => halfSpacesAmong sets

/-- The inner loop of lines 2081-2085: whether the other side of an edge is contained in one of the half spaces. -/
def coveredEdge (pick : Interval K → K) (shuffle : List (Geo K) → List (Geo K)) (edge : Geo K) : List (Geo K) → Except Err Bool
  | [] => .ok false
  | h :: half => do
    let b ← isSubset pick shuffle (.halfSpace edge.neg) (.halfSpace h)
    if b then pure true else coveredEdge pick shuffle edge half

/-- The loop of lines 2080-2085. -/
def uncoveredEdges (pick : Interval K → K) (shuffle : List (Geo K) → List (Geo K)) (half : List (Geo K)) : List (Geo K) → Except Err (List (Geo K))
  | [] => .ok []
  | g :: l => do
    let b ← coveredEdge pick shuffle g half
    let rest ← uncoveredEdges pick shuffle half l
    pure (if b then rest else g :: rest)

/-- The assertion of lines 2096-2098. -/
def allSubsets (pick : Interval K → K) (shuffle : List (Geo K) → List (Geo K)) (hull : ConvexSet K) : List (ConvexSet K) → Except Err Bool
  | [] => .ok true
  | S :: sets => do
    let b ← isSubset pick shuffle S hull
    if b then allSubsets pick shuffle hull sets else pure false

/-- `HyperbolicPlane.convex_hull`, lines 1948-2100. -/
def hypConvexHull (sqrt : K → Option K) (pick : Interval K → K) (shuffle : List (Geo K) → List (Geo K)) (sets : List (ConvexSet K)) : Except Err (ConvexSet K) := do
  let vertices ← allVertices sqrt sets
  let half ← hullHalfSpaces sqrt vertices
  let polygon ← hypPolygon pick shuffle half
  let edges ← uncoveredEdges pick shuffle (halfSpacesAmong sets) polygon.halfSpaces
  let hull ← hypPolygon pick shuffle edges
  if ← allSubsets pick shuffle hull sets then pure hull else .error .assertionError

end Hyp
end Flat
