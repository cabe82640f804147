import Verif.Model.HyperbolicPerpendicular
import Verif.Model.HyperbolicPolygon

/-!
# Midpoints and perpendicular bisectors of segments

`flatsurf/geometry/hyperbolic.py`, lines 12929-13041.
-/

namespace Flat
namespace Hyp
variable {K : Type} [Field K] [LinearOrder K]

/-- The inner loop of `HyperbolicSegment.midpoint`, lines 12974-12984; when no line meets the segment, the assertion fails. -/
def midpointLoop (sqrt : K → Option K) (pick : Interval K → K) (shuffle : List (Geo K) → List (Geo K)) (self : ConvexSet K) (p : Pt K) : List (Pt K) → Except Err (ConvexSet K)
  | [] => .error .assertionError
  | q :: qs => do
    let line ← geodesicThrough sqrt p q true
    let intersection ← intersectSets pick shuffle [self, .geodesic line]
    if intersection = .empty then midpointLoop sqrt pick shuffle self p qs else pure intersection

/-- `HyperbolicSegment.midpoint`, lines 12929-12986, of the segment on `g` from `start` to `stop` where an end point that is not given is an end point of the geodesic.  The method `vertices` sorts the end
points; `arrange` is this order. -/
def segmentMidpoint (sqrt : K → Option K) (pick : Interval K → K) (shuffle : List (Geo K) → List (Geo K)) (arrange : List (Pt K) → List (Pt K)) (g : Geo K) :
    Option (K × K) → Option (K × K) → Except Err (ConvexSet K)
  | some s, some e =>
    match arrange [.coords s.1 s.2, .coords e.1 e.2] with
    | [start, stop] => do
      let same ← start.eq stop
      if same then pure (.point s)
      else
        let P ← g.perpendicularPoint sqrt start
        match arrange [.start P, .start P.neg] with
        | [] => .error .assertionError
        | p :: _ =>
          let Q ← g.perpendicularPoint sqrt stop
          midpointLoop sqrt pick shuffle (.segment g (some s) (some e)) p (arrange [.start Q, .start Q.neg])
    | _ => .error .valueError
  | none, none => do
    let m ← g.midpoint sqrt
    let k ← m.klein sqrt
    pure (.point k)
  | _, _ => .error .notImplemented

/-- `HyperbolicSegment.perpendicular`, lines 12988-13041, with a point with coordinates. -/
def segmentPerpendicularPoint (sqrt : K → Option K) (g : Geo K) (start stop : Option (K × K)) (m : K × K) : Except Err (Geo K) :=
  if (ConvexSet.segment g start stop).containsPoint m then g.perpendicularPoint sqrt (.coords m.1 m.2)
  else .error .valueError

/-- `HyperbolicSegment.perpendicular`, lines 12988-13041, without a point; `self.parent()(point)` accepts a point only. -/
def segmentPerpendicular (sqrt : K → Option K) (pick : Interval K → K) (shuffle : List (Geo K) → List (Geo K)) (arrange : List (Pt K) → List (Pt K)) (g : Geo K) (start stop : Option (K × K)) : Except Err (Geo K) := do
  let point ← segmentMidpoint sqrt pick shuffle arrange g start stop
  match point with
  | .point m => segmentPerpendicularPoint sqrt g start stop m
  | _ => .error .valueError

end Hyp
end Flat
