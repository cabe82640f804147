import Verif.Model.Plane

/-!
# Model of `flatsurf/geometry/euclidean.py`
-/

namespace Flat

section
variable {K : Type*} [Field K] [LinearOrder K] [IsStrictOrderedRing K]

/-- `ccw`, euclidean.py 297-322. -/
def ccw (v w : Vec K) : K := v.1 * w.2 - v.2 * w.1

/-- `is_parallel`, euclidean.py 325-375. -/
def isParallel (v w : Vec K) : Bool :=
  if ccw v w ≠ 0 then false else decide (0 < v.1 * w.1 + v.2 * w.2)

/-- `is_anti_parallel`, euclidean.py 378-411. -/
def isAntiParallel (v w : Vec K) : Bool := isParallel v (-w)

/-- `line_intersection`, euclidean.py 414-428.  The inverse of the 2x2 matrix
`[[p2x - p1x, q1x - q2x], [p2y - p1y, q1y - q2y]]` is written out; only its first row is used. -/
def lineIntersection (p1 p2 q1 q2 : Vec K) : Option (Vec K) :=
  if ccw (p2 - p1) (q2 - q1) = 0 then none
  else
    let a := p2.1 - p1.1; let b := q1.1 - q2.1
    let c := p2.2 - p1.2; let d := q1.2 - q2.2
    let det := a * d - b * c
    let r := q1 - p1
    let t := d / det * r.1 + -b / det * r.2
    some (p1 + t • (p2 - p1))

/-- The determinant of the 3x3 matrix with rows `(p, 1), (q, 1), (r, 1)` as used in
`is_segment_intersecting`, euclidean.py 479-494. -/
def det3 (p q r : Vec K) : K :=
  p.1 * (q.2 * 1 - 1 * r.2) - p.2 * (q.1 * 1 - 1 * r.1) + 1 * (q.1 * r.2 - q.2 * r.1)

/-- The possible outcomes of `is_segment_intersecting`: the return values 0, 1, 2, the `ValueError` for
degenerate segments and a failing `assert`. -/
inductive SegResult where
  | zero | one | two | valueError | assertionError
deriving DecidableEq, Repr

/-- The end points of a segment, sorted lexicographically (euclidean.py 501-506). -/
def sortSeg (e : Vec K × Vec K) : Vec K × Vec K :=
  if e.2.1 < e.1.1 ∨ (e.2.1 = e.1.1 ∧ e.2.2 < e.1.2) then (e.2, e.1) else e

/-- The comparison of two intervals at the end of the collinear case, euclidean.py 511-524. -/
def segInterval (xs1 xt1 xs2 xt2 : K) : SegResult :=
  if ¬ (xs1 < xt1 ∧ xs2 < xt2) then .assertionError
  else if xs2 > xt1 ∨ xt2 < xs1 then .zero
  else if xs2 = xt1 ∨ xt2 = xs1 then .one
  else if ¬ ((xs1 ≤ xs2 ∧ xs2 < xt1) ∨ (xs1 < xt2 ∧ xt2 ≤ xt1) ∨ (xs2 < xs1 ∧ xt2 > xt1) ∨
          (xs2 > xs1 ∧ xt2 < xt1)) then .assertionError
  else .two

/-- The collinear case of `is_segment_intersecting`, euclidean.py 501-524. -/
def segCollinear (e1 e2 : Vec K × Vec K) : SegResult :=
  let f1 := sortSeg e1
  let f2 := sortSeg e2
  -- use the second coordinate for vertical segments (508-509)
  if f1.1.1 = f1.2.1 ∧ f1.2.1 = f2.1.1 ∧ f2.1.1 = f2.2.1
  then segInterval f1.1.2 f1.2.2 f2.1.2 f2.2.2
  else segInterval f1.1.1 f1.2.1 f2.1.1 f2.2.1

/-- `is_segment_intersecting`, euclidean.py 431-533. -/
def isSegmentIntersecting (e1 e2 : Vec K × Vec K) : SegResult :=
  if e1.1 = e1.2 ∨ e2.1 = e2.2 then .valueError
  else
    let s0 := det3 e1.1 e1.2 e2.1
    let s1 := det3 e1.1 e1.2 e2.2
    if (s0 > 0 ∧ s1 > 0) ∨ (s0 < 0 ∧ s1 < 0) then .zero
    else
      let s2 := det3 e2.1 e2.2 e1.1
      let s3 := det3 e2.1 e2.2 e1.2
      if (s2 > 0 ∧ s3 > 0) ∨ (s2 < 0 ∧ s3 < 0) then .zero
      else if s0 = 0 ∧ s1 = 0 then
        if ¬ (s2 = 0 ∧ s3 = 0) then .assertionError
        else segCollinear e1 e2
      else if s0 = 0 ∨ s1 = 0 then
        if s2 = 0 ∨ s3 = 0 then .one else .two
      else .two

/-- `is_between`, euclidean.py 536-571. -/
def isBetween (e0 e1 f : Vec K) : Bool :=
  if e0.1 * e1.2 > e1.1 * e0.2 then
    decide (e1.2 * f.1 > e1.1 * f.2 ∧ e0.1 * f.2 > e0.2 * f.1)
  else if e0.1 * e1.2 = e1.1 * e0.2 then
    if e0.1 * e1.1 ≥ 0 ∧ e0.2 * e1.2 ≥ 0 then
      decide (f.1 * e0.2 ≠ f.2 * e0.1 ∨ f.1 * e0.1 < 0 ∨ f.2 * e0.2 < 0)
    else
      decide (e0.1 * f.2 > e0.2 * f.1)
  else
    decide (e0.2 * f.1 < e0.1 * f.2 ∨ e1.1 * f.2 < e1.2 * f.1)

/-- `solve`, euclidean.py 574-609; `none` is the `ValueError` for parallel vectors. -/
def solve (x u y v : Vec K) : Option (K × K) :=
  let d := -u.1 * v.2 + u.2 * v.1
  if d = 0 then none
  else
    let a := v.2 * (x.1 - y.1) + v.1 * (y.2 - x.2)
    let b := u.2 * (x.1 - y.1) + u.1 * (y.2 - x.2)
    some (a / d, b / d)

/-- `time_on_ray`, euclidean.py 730-778. -/
def timeOnRay (p direction q : Vec K) : K × K :=
  let (delta, length) :=
    if direction.1 ≠ 0 then (q.1 - p.1, direction.1) else (q.2 - p.2, direction.2)
  if length < 0 then (-delta, -length) else (delta, length)

/-- Return values of `ray_segment_intersection`: `None`, a point, or the pair of end points of a
segment. -/
inductive RayHit (K : Type*) where
  | none
  | point (p : Vec K)
  | segment (p q : Vec K)

/-- `ray_segment_intersection`, euclidean.py 781-848. -/
def raySegmentIntersection (p direction : Vec K) (seg : Vec K × Vec K) : RayHit K :=
  match lineIntersection p (p + direction) seg.1 seg.2 with
  | none =>
    if ccw direction (seg.1 - p) ≠ 0 then .none
    else
      let (t0, length) := timeOnRay p direction seg.1
      let (t1, _) := timeOnRay p direction seg.2
      let (t0, t1) := if t1 < t0 then (t1, t0) else (t0, t1)
      if t1 < 0 then .none
      else if t1 = 0 then .point p
      else
        let t0 := t0 / length
        let t1 := t1 / length
        if t0 < 0 then .segment p (p + t1 • direction)
        else .segment (p + t0 • direction) (p + t1 • direction)
  | some x =>
    if (timeOnRay p direction x).1 < 0 then .none
    else if ccw (seg.1 - p) direction * ccw (seg.2 - p) direction > 0 then .none
    else .point x

/-- `slope`, euclidean.py 663-727; `none` is a `ValueError`. -/
def slope (a : Vec K) (rotate : Int) : Option Int :=
  let x := a.1; let y := a.2
  if x = 0 ∧ y = 0 then none
  else if (x > 0 ∧ y > 0) ∨ (x < 0 ∧ y < 0) then some 1
  else if (x > 0 ∧ y < 0) ∨ (x < 0 ∧ y > 0) then some (-1)
  else if rotate = 0 then some 0
  else if rotate = 1 then some (if x ≠ 0 then 1 else -1)
  else if rotate = -1 then some (if y ≠ 0 then 1 else -1)
  else none

end
end Flat
