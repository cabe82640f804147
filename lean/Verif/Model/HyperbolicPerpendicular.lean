import Verif.Model.Hyperbolic

/-!
# Poles, perpendicular geodesics and midpoints of geodesics

`flatsurf/geometry/hyperbolic.py`, lines 7136-7408.
-/

namespace Flat
namespace Hyp
variable {K : Type} [Field K] [LinearOrder K]

/-- `is_diameter`, lines 7394-7408. -/
def Geo.isDiameter (g : Geo K) : Bool := g.containsCoords 0 0

/-- `is_vertical`, lines 7410-7423. -/
def Geo.isVertical (g : Geo K) : Bool := g.containsCoords 0 1

/-- The helper `tangent` of `pole`, lines 7178-7182. -/
def kleinTangent (p : K × K) : Geo K := ⟨-(p.1 * p.1 + p.2 * p.2), p.1, p.2⟩

/-- `HyperbolicGeodesic.pole`, lines 7136-7190.  The two end points are taken in the order start, end; in the code they come out of a sorted set. -/
def Geo.pole (sqrt : K → Option K) (g : Geo K) : Except Err (K × K) :=
  if g.isDiameter then .error .notImplemented
  else do
    let A ← (Pt.start g).klein sqrt
    let B ← (Pt.start g.neg).klein sqrt
    match (kleinTangent A).inter (kleinTangent B) with
    | none => .error .assertionError
    | some p => pure p

/-- `HyperbolicGeodesic.perpendicular` with a point, lines 7324-7343. -/
def Geo.perpendicularPoint (sqrt : K → Option K) (g : Geo K) (p : Pt K) : Except Err (Geo K) := do
  let h ← (if g.isDiameter then do
      let k ← p.klein sqrt
      geodesic (-(-g.c * k.1 + g.b * k.2)) (-g.c) g.b .klein true
    else do
      let q ← g.pole sqrt
      geodesicThrough sqrt (.coords q.1 q.2) p true)
  let inside ← h.contains p
  if inside then pure h else .error .assertionError

/-- `HyperbolicGeodesic.perpendicular` of a diameter, with a geodesic that is not a diameter, lines 7309-7318. -/
def Geo.perpendicularDiameter (sqrt : K → Option K) (g h : Geo K) : Except Err (Geo K) := do
  let q ← h.pole sqrt
  geodesic (-(-g.c * q.1 + g.b * q.2)) (-g.c) g.b .klein true

/-- `HyperbolicGeodesic.perpendicular` with a geodesic, lines 7296-7323; the recursive call of line 7307 is written out. -/
def Geo.perpendicularGeodesic (sqrt : K → Option K) (g h : Geo K) : Except Err (Geo K) :=
  if g.eq h false then do
    let e ← g.anElement
    g.perpendicularPoint sqrt (.coords e.1 e.2)
  else if g.isDiameter && h.isDiameter then .error .valueError
  else if h.isDiameter then h.perpendicularDiameter sqrt g
  else if g.isDiameter then g.perpendicularDiameter sqrt h
  else do
    let p ← g.pole sqrt
    let q ← h.pole sqrt
    geodesicThrough sqrt (.coords p.1 p.2) (.coords q.1 q.2) true

/-- `HyperbolicGeodesic.perpendicular` without a parameter, lines 7291-7292. -/
def Geo.perpendicular (sqrt : K → Option K) (g : Geo K) : Except Err (Geo K) := do
  let e ← g.anElement
  g.perpendicularPoint sqrt (.coords e.1 e.2)

/-- `HyperbolicGeodesic.midpoint`, lines 7345-7392. -/
def Geo.midpoint (sqrt : K → Option K) (g : Geo K) : Except Err (Pt K) :=
  if g.isVertical then do
    let e ← (Pt.start g).eq infinity
    let x ← (if e then (Pt.start g.neg) else Pt.start g).coordinates sqrt .halfPlane
    point x.1 1 .halfPlane true
  else do
    let a ← (Pt.start g).coordinates sqrt .halfPlane
    let b ← (Pt.start g.neg).coordinates sqrt .halfPlane
    point ((a.1 + b.1) / 2) (|b.1 - a.1| / 2) .halfPlane true

end Hyp
end Flat
