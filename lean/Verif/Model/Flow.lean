import Verif.Model.Tangent

/-!
# Model of the straight line flow

`flow_to_exit` of `flatsurf/geometry/categories/euclidean_polygons.py`, `forward_to_polygon_boundary` of
`flatsurf/geometry/tangent_bundle.py`, and `SegmentInPolygon` and `StraightLineTrajectory` of
`flatsurf/geometry/straight_line_trajectory.py`.  Warnings are not modelled; points and directions are over the base ring.
-/

namespace Flat
namespace Poly
variable {K : Type} [Field K] [LinearOrder K]

/-- The body of the loop over the sides of the polygon in `flow_to_exit`, categories/euclidean_polygons.py 1657-1698: what is appended to
`intersections`. -/
def flowHit (p : Poly K) (point direction : Vec K) (v : ℕ) : Option (Vec K × Option Position) :=
  match raySegmentIntersection point direction (p.vertex v, p.vertex ((v + 1) % p.length)) with
  | .none => none
  | .segment a b =>
    let x := if a = point then b else a
    some (x, some (.vertex (if x = p.vertex v then v else (v + 1) % p.length)))
  | .point x => if x = point then none else some (x, none)

/-- `Quotient.__lt__` for the times at which the ray hits two points, categories/euclidean_polygons.py 1708-1724. -/
def earlier (point direction : Vec K) (a b : Vec K × Option Position) : Bool :=
  let s := timeOnRay point direction a.1
  let t := timeOnRay point direction b.1
  decide (s.1 * t.2 < t.1 * s.2)

/-- Python's `min`: the first of the smallest elements of the list `a :: l`. -/
def firstMin {α : Type} (lt : α → α → Bool) (a : α) (l : List α) : α := l.foldl (fun m x => if lt x m then x else m) a

/-- `flow_to_exit(point, direction)`, categories/euclidean_polygons.py 1593-1726.  (The two `ValueError`s for an empty list of
intersections differ in their message.) -/
def flowToExit (p : Poly K) (point direction : Vec K) : Except Err (Vec K × Position) :=
  if direction = 0 then .error .valueError
  else
    match (List.range p.length).filterMap (p.flowHit point direction) with
    | [] => .error .valueError
    | h :: hs =>
      let m := firstMin (earlier point direction) h hs
      .ok (m.1, m.2.getD (p.pointPosition m.1))

end Poly

/-- `SegmentInPolygon`, straight_line_trajectory.py 87-109: its two attributes. -/
@[ext]
structure Seg (L K : Type) where
  start : TVec L K
  stop : TVec L K
  deriving DecidableEq

/-- `StraightLineTrajectory`, straight_line_trajectory.py 541-570: the attributes `_segments`, `_forward` and `_backward`. -/
@[ext]
structure Traj (L K : Type) where
  segments : List (Seg L K)
  forward : Option (TVec L K)
  backward : Option (TVec L K)
  deriving DecidableEq

namespace RSurf
variable {L K : Type} [Field K] [LinearOrder K]

/-- `forward_to_polygon_boundary()`, tangent_bundle.py 305-342. -/
def tvForward (S : RSurf L K) (t : TVec L K) : Except Err (TVec L K) := do
  let p ← S.polygon t.label
  let x ← p.flowToExit t.point t.vector
  S.tangentVector t.label x.1 (-t.vector)

/-- `is_based_at_singularity()`, tangent_bundle.py 197-201. -/
def _root_.Flat.TVec.singular (t : TVec L K) : Bool :=
  match t.position with
  | .vertex _ => true
  | _ => false

/-- `differs_by_scaling(another_tangent_vector)`, tangent_bundle.py 281-292. -/
def _root_.Flat.TVec.differsByScaling [DecidableEq L] (t t' : TVec L K) : Bool :=
  decide (t.label = t'.label) && decide (t.point = t'.point) && isParallel t.vector t'.vector

/-- `SegmentInPolygon(start)`, straight_line_trajectory.py 101-109. -/
def segment (S : RSurf L K) (t : TVec L K) : Except Err (Seg L K) := do
  let stop ← S.tvForward t
  let start ← S.tvForward stop
  return ⟨start, stop⟩

/-- `invert()` of a segment, straight_line_trajectory.py 188-189. -/
def _root_.Flat.Seg.invert (s : Seg L K) : Seg L K := ⟨s.stop, s.start⟩

/-- `next()`, straight_line_trajectory.py 191-214. -/
def segNext (S : RSurf L K) (s : Seg L K) : Except Err (Seg L K) := do
  if s.stop.singular then throw .valueError
  S.segment (← S.tvInvert s.stop)

/-- `previous()`, straight_line_trajectory.py 216-219. -/
def segPrevious (S : RSurf L K) (s : Seg L K) : Except Err (Seg L K) := do
  if s.stop.singular then throw .valueError
  return (← S.segment (← S.tvInvert s.start)).invert

/-- `_setup_forward()` and `_setup_backward()`, straight_line_trajectory.py 604-616: the tangent vector from which the trajectory goes on. -/
def setup (S : RSurf L K) (v : TVec L K) : Except Err (Option (TVec L K)) := do
  if v.singular then return none
  return some (← S.tvInvert v)

/-- `StraightLineTrajectory(tangent_vector)`, straight_line_trajectory.py 564-570. -/
def trajectory (S : RSurf L K) (t : TVec L K) : Except Err (Traj L K) := do
  let seg ← S.segment t
  let f ← S.setup seg.stop
  let b ← S.setup seg.start
  return ⟨[seg], f, b⟩

/-- `is_closed()`, straight_line_trajectory.py 627-673.  `initial_tangent_vector()` (434-435) is the start of the first segment; there is
always one. -/
def _root_.Flat.Traj.isClosed [DecidableEq L] (x : Traj L K) : Bool :=
  match x.forward, x.segments.head? with
  | some f, some s => f.differsByScaling s.start
  | _, _ => false

/-- `is_saddle_connection()`, straight_line_trajectory.py 624-625. -/
def _root_.Flat.Traj.isSaddleConnection (x : Traj L K) : Bool := x.forward.isNone && x.backward.isNone

/-- The first loop of `flow(steps)`, straight_line_trajectory.py 698-703. -/
def flowForward [DecidableEq L] (S : RSurf L K) : ℕ → Traj L K → Except Err (Traj L K)
  | 0, x => .ok x
  | n + 1, x =>
    match x.forward with
    | none => .ok x
    | some f =>
      if x.isClosed then .ok x
      else do
        let seg ← S.segment f
        let f' ← S.setup seg.stop
        S.flowForward n ⟨x.segments ++ [seg], f', x.backward⟩

/-- The second loop of `flow(steps)`, straight_line_trajectory.py 704-709. -/
def flowBackward [DecidableEq L] (S : RSurf L K) : ℕ → Traj L K → Except Err (Traj L K)
  | 0, x => .ok x
  | n + 1, x =>
    match x.backward with
    | none => .ok x
    | some b =>
      if x.isClosed then .ok x
      else do
        let seg ← S.segment b
        let b' ← S.setup seg.invert.start
        S.flowBackward n ⟨seg.invert :: x.segments, x.forward, b'⟩

/-- `flow(steps)`, straight_line_trajectory.py 675-709. -/
def flowSteps [DecidableEq L] (S : RSurf L K) (steps : ℤ) (x : Traj L K) : Except Err (Traj L K) :=
  if 0 ≤ steps then S.flowForward steps.toNat x else S.flowBackward (-steps).toNat x

/-- `is_edge()`, straight_line_trajectory.py 170-178. -/
def segIsEdge (S : RSurf L K) (s : Seg L K) : Except Err Bool :=
  match s.start.position, s.stop.position with
  | .vertex i, .vertex _ => do
    let p ← S.polygon s.start.label
    return isParallel s.start.vector (p.edge i)
  | _, _ => return false

/-- `edge()`, straight_line_trajectory.py 180-183. -/
def segEdge (S : RSurf L K) (s : Seg L K) : Except Err ℕ := do
  if ← S.segIsEdge s then
    match s.start.position with
    | .vertex i => return i
    | _ => throw .valueError
  else throw .valueError

/-- `get_edge()` of a position, polygon.py 243-246. -/
def _root_.Flat.Poly.Position.getEdge : Poly.Position → Except Err ℕ
  | .edgeInterior e => .ok e
  | _ => .error .valueError

/-- The letter for the end of a segment in `coding()`, straight_line_trajectory.py 411-418. -/
def segLetter (s : Seg L K) : Except Err (L × ℕ) := do return (s.start.label, ← s.stop.position.getEdge)

/-- The letter for the start of the trajectory in `coding()`, straight_line_trajectory.py 400-408. -/
def firstLetter (s : Seg L K) : List (L × ℕ) :=
  match s.start.position with
  | .edgeInterior e => [(s.start.label, e)]
  | _ => []

/-- The letter for the end of the trajectory in `coding()`, straight_line_trajectory.py 420-430; `start` is the start of the first segment
and tangent vectors are compared by their label, point, and vector (tangent_bundle.py 168-179). -/
def lastLetter [DecidableEq L] (S : RSurf L K) (start : TVec L K) (s : Seg L K) : Except Err (List (L × ℕ)) :=
  match s.stop.position with
  | .edgeInterior e => do
    let t ← S.tvInvert s.stop
    if t.label = start.label ∧ t.point = start.point ∧ t.vector = start.vector then return [] else return [(s.start.label, e)]
  | _ => return []

/-- `coding()` without an alphabet, straight_line_trajectory.py 337-432. -/
def coding [DecidableEq L] (S : RSurf L K) (x : Traj L K) : Except Err (List (L × ℕ)) :=
  match x.segments with
  | [] => throw .indexError
  | s :: rest => do
    let middle ← (s :: rest).dropLast.mapM segLetter
    let last ← S.lastLetter s.start ((s :: rest).getLast (by simp))
    return firstLetter s ++ middle ++ last

/-- The label and the edges from which `cylinder()` creates the cylinder, straight_line_trajectory.py 323-335. -/
def cylinderWord [DecidableEq L] (S : RSurf L K) (x : Traj L K) : Except Err (L × List ℕ) := do
  if !x.isClosed then throw .valueError
  match ← S.coding x with
  | [] => throw .indexError
  | c :: cs =>
    let o ← S.opp! c.1 c.2
    return (c.1, cs.map Prod.snd ++ [o.2])

end RSurf
end Flat
