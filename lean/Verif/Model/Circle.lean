import Verif.Model.Similarity
import Verif.Model.Polygon

/-!
# Circles

Model of flatsurf/geometry/circle.py.  Distances are never computed, only their squares are, so that everything takes
place over an ordered field.  A division by zero raises in Sage; here it is guarded explicitly.
-/

namespace Flat

/-- `cross_product` of vectors with three entries (Sage). -/
def cross {K : Type} [Field K] (v w : K × K × K) : K × K × K :=
  (v.2.1 * w.2.2 - v.2.2 * w.2.1, v.2.2 * w.1 - v.1 * w.2.2, v.1 * w.2.1 - v.2.1 * w.1)

/-- `Circle.__init__`, circle.py 55-71: the center and the square of the radius. -/
@[ext] structure Circle (K : Type) where
  center : Vec K
  radiusSq : K
deriving DecidableEq

/-- The point with homogeneous coordinates `v`. -/
def dehomogenize {K : Type} [Field K] [DecidableEq K] (v : K × K × K) : Except Err (Vec K) :=
  if v.2.2 = 0 then .error .valueError else .ok (v.1 / v.2.2, v.2.1 / v.2.2)

/-- `circle_from_three_points`, circle.py 32-51. -/
def circleFromThreePoints {K : Type} [Field K] [DecidableEq K] (p q r : Vec K) : Except Err (Circle K) := do
  let line1 := cross (p.1 + q.1, p.2 + q.2, 2) (p.2 - q.2, q.1 - p.1, 0)
  let line2 := cross (p.1 + r.1, p.2 + r.2, 2) (p.2 - r.2, r.1 - p.1, 0)
  let center ← dehomogenize (cross line1 line2)
  return ⟨center, (p.1 - center.1) ^ 2 + (p.2 - center.2) ^ 2⟩

namespace Circle
variable {K : Type} [Field K] [LinearOrder K]

/-- `Circle.point_position`, circle.py 85-99. -/
def pointPosition (c : Circle K) (p : Vec K) : Int :=
  let value := (p.1 - c.center.1) ^ 2 + (p.2 - c.center.2) ^ 2 - c.radiusSq
  if value > 0 then -1 else if value < 0 then 1 else 0

/-- `Circle.closest_point_on_line`, circle.py 101-133. -/
def closestPointOnLine (c : Circle K) (point direction : Vec K) : Except Err (Vec K) :=
  let l1 := cross (c.center.1, c.center.2, 1) (direction.2, -direction.1, 0)
  let l2 := cross (point.1, point.2, 1) (direction.1, direction.2, 0)
  dehomogenize (cross l1 l2)

/-- `Circle.line_position`, circle.py 135-141. -/
def linePosition (c : Circle K) (point direction : Vec K) : Except Err Int := do
  return c.pointPosition (← c.closestPointOnLine point direction)

/-- `Circle.line_segment_position`, circle.py 143-165. -/
def lineSegmentPosition (c : Circle K) (p q : Vec K) : Except Err Int := do
  if c.pointPosition p = 1 then return 1
  if c.pointPosition q = 1 then return 1
  let r ← c.closestPointOnLine p (q - p)
  let pos := c.pointPosition r
  if pos = -1 then return -1
  if p.1 = q.1 then
    if (p.2 < r.2 ∧ r.2 < q.2) ∨ (p.2 > r.2 ∧ r.2 > q.2) then return pos
  else if (p.1 < r.1 ∧ r.1 < q.1) ∨ (p.1 > r.1 ∧ r.1 > q.1) then return pos
  return -1

/-- `Circle.tangent_vector`, circle.py 167-182. -/
def tangentVector (c : Circle K) (p : Vec K) : Except Err (Vec K) :=
  if c.pointPosition p ≠ 0 then .error .valueError else .ok (c.center.2 - p.2, p.1 - c.center.1)

/-- `Circle.other_intersection`, circle.py 184-210.  (The `ZeroDivisionError` for a zero vector is modelled by the
`ValueError` of `dehomogenize`.) -/
def otherIntersection (c : Circle K) (p v : Vec K) : Except Err (Vec K) := do
  let line := cross (p.1, p.2, 1) (v.1, v.2, 0)
  let perp := cross (c.center.1, c.center.2, 1) (-v.2, v.1, 0)
  let r ← dehomogenize (cross line perp)
  return (2 * r.1 - p.1, 2 * r.2 - p.2)

omit [LinearOrder K] in
/-- `Circle.__rmul__`, circle.py 212-234. -/
def rmul (s : Similarity K) (c : Circle K) : Circle K := ⟨s.call c.center, s.det * c.radiusSq⟩

end Circle

/-- `circumscribed_circle`, categories/euclidean_polygons.py 2110-2132. -/
def Poly.circumscribedCircle {K : Type} [Field K] [LinearOrder K] (p : Poly K) : Except Err (Circle K) := do
  let c ← circleFromThreePoints (p.vertex 0) (p.vertex 1) (p.vertex 2)
  if (List.range (p.length - 3)).any (fun i => c.pointPosition (p.vertex (i + 3)) ≠ 0) then throw .valueError
  return c

end Flat
