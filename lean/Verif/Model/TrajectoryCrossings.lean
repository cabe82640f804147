import Verif.Model.Flow
import Verif.Model.Vertices

/-!
# Intersections of trajectories

`intersects` and `intersections` of `AbstractStraightLineTrajectory`, `flatsurf/geometry/straight_line_trajectory.py`.  The generator is run to
its end.  Trajectories are given by the lists of their segments.
-/

namespace Flat
variable {L K : Type} [Field K] [LinearOrder K]

/-- `is_inside()` of a position, polygon.py 215-219. -/
def Poly.Position.isInside : Poly.Position → Bool
  | .outside => false
  | _ => true

/-- `is_vertex()` of a position, polygon.py 237-238. -/
def Poly.Position.isVertex : Poly.Position → Bool
  | .vertex _ => true
  | _ => false

/-- A segment is added to the dictionary of the segments in each polygon, straight_line_trajectory.py 490-494.  Dictionaries are in the order
of insertion. -/
def addSegment [DecidableEq L] (s : Seg L K) : List (L × List (Seg L K)) → List (L × List (Seg L K))
  | [] => [(s.start.label, [s])]
  | (l, ss) :: d => if l = s.start.label then (l, ss ++ [s]) :: d else (l, ss) :: addSegment s d

/-- The segments of a trajectory by the label of their polygon, straight_line_trajectory.py 485-501. -/
def segmentsByLabel [DecidableEq L] (l : List (Seg L K)) : List (L × List (Seg L K)) := l.foldl (fun d s => addSegment s d) []

/-- The pairs of segments that the three nested loops run through, straight_line_trajectory.py 505-509. -/
def segmentPairs [DecidableEq L] (a b : List (Seg L K)) : List (Seg L K × Seg L K) :=
  (segmentsByLabel a).flatMap (fun x =>
    match (segmentsByLabel b).find? (fun y => decide (y.1 = x.1)) with
    | none => []
    | some y => x.2.flatMap (fun s => y.2.map (fun t => (s, t))))

namespace RSurf
variable [IsStrictOrderedRing K] [DecidableEq L]

/-- The body of the loops: the point of the surface in which the lines through two segments meet, if it is in the polygon,
straight_line_trajectory.py 510-527. -/
def crossing (S : RSurf L K) (fuel : ℕ) (countSingularities : Bool) (s t : Seg L K) : Except Err (Option (Finset (L × Vec K))) :=
  match lineIntersection s.start.point (s.start.point + s.start.vector) t.start.point (t.start.point + t.start.vector) with
  | none => return none
  | some x => do
    let p ← S.polygon s.start.label
    let pos := p.pointPosition x
    if pos.isInside && (countSingularities || !pos.isVertex) then
      return some (← S.surfacePoint fuel (s.start.label, x))
    else return none

/-- The loop with `include_segments=False`: what has been yielded, straight_line_trajectory.py 502-533. -/
def crossingLoop (S : RSurf L K) (fuel : ℕ) (count : Bool) : List (Seg L K × Seg L K) → List (Finset (L × Vec K)) → Except Err (List (Finset (L × Vec K)))
  | [], acc => .ok acc
  | (s, t) :: l, acc => do
    match ← S.crossing fuel count s t with
    | none => S.crossingLoop fuel count l acc
    | some x => S.crossingLoop fuel count l (if x ∈ acc then acc else acc ++ [x])

/-- `intersections(traj, count_singularities)`, straight_line_trajectory.py 450-538. -/
def intersections (S : RSurf L K) (fuel : ℕ) (count : Bool) (a b : List (Seg L K)) : Except Err (List (Finset (L × Vec K))) :=
  S.crossingLoop fuel count (segmentPairs a b) []

/-- `intersects(traj, count_singularities)`, straight_line_trajectory.py 440-448: the generator is only run until it yields a point. -/
def intersectsLoop (S : RSurf L K) (fuel : ℕ) (count : Bool) : List (Seg L K × Seg L K) → Except Err Bool
  | [] => .ok false
  | (s, t) :: l => do
    match ← S.crossing fuel count s t with
    | none => S.intersectsLoop fuel count l
    | some _ => return true

/-- `intersects(traj, count_singularities)`, straight_line_trajectory.py 440-448. -/
def intersects (S : RSurf L K) (fuel : ℕ) (count : Bool) (a b : List (Seg L K)) : Except Err Bool := S.intersectsLoop fuel count (segmentPairs a b)

/-- The dictionary `segments`: a pair of segments is added at a point, straight_line_trajectory.py 528-536. -/
def addCrossing (x : Finset (L × Vec K)) (s t : Seg L K) :
    List (Finset (L × Vec K) × Finset (Seg L K) × Finset (Seg L K)) → List (Finset (L × Vec K) × Finset (Seg L K) × Finset (Seg L K))
  | [] => [(x, {s}, {t})]
  | (y, a, b) :: d => if y = x then (y, insert s a, insert t b) :: d else (y, a, b) :: addCrossing x s t d

/-- The loop with `include_segments=True`, straight_line_trajectory.py 502-538. -/
def crossingSegmentsLoop (S : RSurf L K) (fuel : ℕ) (count : Bool) : List (Seg L K × Seg L K) →
    List (Finset (L × Vec K) × Finset (Seg L K) × Finset (Seg L K)) → Except Err (List (Finset (L × Vec K) × Finset (Seg L K) × Finset (Seg L K)))
  | [], acc => .ok acc
  | (s, t) :: l, acc => do
    match ← S.crossing fuel count s t with
    | none => S.crossingSegmentsLoop fuel count l acc
    | some x => S.crossingSegmentsLoop fuel count l (addCrossing x s t acc)

/-- `intersections(traj, count_singularities, include_segments=True)`, straight_line_trajectory.py 450-538. -/
def intersectionsWithSegments (S : RSurf L K) (fuel : ℕ) (count : Bool) (a b : List (Seg L K)) :
    Except Err (List (Finset (L × Vec K) × Finset (Seg L K) × Finset (Seg L K))) :=
  S.crossingSegmentsLoop fuel count (segmentPairs a b) []

end RSurf
end Flat
