import Verif.Model.Dict
import Mathlib.Algebra.Order.Field.Basic
import Mathlib.LinearAlgebra.Matrix.Notation
import Mathlib.LinearAlgebra.Matrix.NonsingularInverse

/-!
# The hyperbolic plane

Points, geodesics, half spaces and isometries of the hyperbolic plane, from `flatsurf/geometry/hyperbolic.py`, over a field with exact arithmetic (`HyperbolicExactGeometry`).

A point is given either by its coordinates in the Klein disk or as the starting point of an oriented geodesic, a geodesic by the coefficients of the equation `a + b x + c y = 0` in the Klein disk.
The square roots that Sage finds in the base ring are a parameter `sqrt`.
Conversions of arguments into the base ring and numerical geometries are not modelled.
-/

namespace Flat
namespace Hyp

/-- The two models that are supported by most functions. -/
inductive HModel | halfPlane | klein
  deriving DecidableEq

/-- `HyperbolicOrientedGeodesic` and `HyperbolicUnorientedGeodesic`, lines 6608-6690: the coefficients of the equation in the Klein model. -/
@[ext]
structure Geo (K : Type) where
  a : K
  b : K
  c : K
  deriving DecidableEq

/-- `HyperbolicPoint`: `HyperbolicPointFromCoordinates`, lines 9476-9529, and `HyperbolicPointFromGeodesic`, lines 9803-9863. -/
inductive Pt (K : Type)
  | coords (x y : K)
  | start (g : Geo K)
  deriving DecidableEq

variable {K : Type} [Field K] [LinearOrder K]

/-- `HyperbolicGeometry.classify_point`, lines 3817-3859. -/
def classifyPoint (_x y : K) : HModel → Except Err ℤ
  | .halfPlane => .ok (if y = 0 then 0 else if y < 0 then -1 else 1)
  | .klein => .error .notImplemented

/-- The Klein coordinates of a point of the upper half plane, lines 1163-1167. -/
def toKlein (x y : K) : K × K := (2 * x / (1 + x * x + y * y), (-1 + x * x + y * y) / (1 + x * x + y * y))

/-- `HyperbolicPoint._check` for a point with coordinates, lines 8850-8884 and 8949-8952. -/
def checkPoint (x y : K) : Except Err Unit := if x * x + y * y > 1 then .error .valueError else .ok ()

/-- `HyperbolicPlane.point`, lines 1099-1176. -/
def point (x y : K) (model : HModel) (check : Bool) : Except Err (Pt K) :=
  match model with
  | .klein => do
    if check then checkPoint x y
    pure (.coords x y)
  | .halfPlane => do
    let k ← classifyPoint x y .halfPlane
    if k < 0 then .error .valueError
    else
      let p := toKlein x y
      if check then checkPoint p.1 p.2
      pure (.coords p.1 p.2)

/-- `HyperbolicGeodesic.is_ideal`, lines 6730-6769. -/
def Geo.isIdeal (g : Geo K) : Bool := g.b * g.b + g.c * g.c = g.a * g.a
/-- `HyperbolicGeodesic.is_ultra_ideal`, lines 6771-6811. -/
def Geo.isUltraIdeal (g : Geo K) : Bool := g.b * g.b + g.c * g.c < g.a * g.a

/-- `HyperbolicGeodesic._check`, lines 6692-6728. -/
def Geo.check (g : Geo K) : Except Err Unit := if g.isUltraIdeal || g.isIdeal then .error .valueError else .ok ()

/-- `HyperbolicPlane.geodesic` from the coefficients of an equation, lines 1429-1457 (`_normalize` does nothing for geodesics, lines 4341-4361). -/
def geodesic (a b c : K) (model : HModel) (check : Bool) : Except Err (Geo K) :=
  match model with
  | .klein => do
    if check then Geo.check ⟨a, b, c⟩
    pure ⟨a, b, c⟩
  | .halfPlane => do
    if check then Geo.check ⟨a + c, b, a - c⟩
    pure ⟨a + c, b, a - c⟩

/-- `HyperbolicGeodesic.equation` of an oriented geodesic without normalization, lines 6977-6984. -/
def Geo.equation (g : Geo K) : HModel → K × K × K
  | .klein => (g.a, g.b, g.c)
  | .halfPlane => (g.a + g.c, 2 * g.b, g.a - g.c)

/-- `HyperbolicGeodesic._normalize_coefficients` with the strategy "one", lines 7069-7081. -/
def normalizeOne (v : K × K × K) : K × K × K :=
  let d := if v.1 ≠ 0 then v.1 else if v.2.1 ≠ 0 then v.2.1 else v.2.2
  let d := if d < 0 then -d else d
  (v.1 / d, v.2.1 / d, v.2.2 / d)

/-- The sign used by `HyperbolicGeodesic.equation` for unoriented geodesics, lines 6986-6995. -/
def equationSign (v : K × K × K) : K :=
  if v.1 < 0 ∨ (v.1 = 0 ∧ v.2.1 < 0) ∨ (v.1 = 0 ∧ v.2.1 = 0 ∧ v.2.2 < 0) then -1 else 1

/-- `HyperbolicGeodesic.equation` with the normalization "one", lines 6890-7014; this is what the hash of a geodesic is computed from, lines 7708-7710. -/
def Geo.equationOne (g : Geo K) (model : HModel) (oriented : Bool) : K × K × K :=
  let v := g.equation model
  let n := normalizeOne v
  if oriented then n else (n.1 * equationSign v, n.2.1 * equationSign v, n.2.2 * equationSign v)

/-- `HyperbolicOrientedGeodesic.__neg__`, lines 8163-8178. -/
def Geo.neg (g : Geo K) : Geo K := ⟨-g.a, -g.b, -g.c⟩

/-- `_sgn` of the exact geometry, lines 3596-3626. -/
def sgn (x : K) : ℤ := if x = 0 then 0 else if x < 0 then -1 else 1

/-- `HyperbolicGeodesic.__eq__` of two geodesics that are both oriented or both unoriented, lines 7426-7494. -/
def Geo.eq (g h : Geo K) (oriented : Bool) : Bool :=
  if sgn g.b ≠ 0 then (!oriented || sgn g.b == sgn h.b) && (g.a * h.b == h.a * g.b) && (g.c * h.b == h.c * g.b)
  else (!oriented || sgn g.c == sgn h.c) && (g.a * h.c == h.a * g.c) && (g.b * h.c == h.b * g.c)

/-- `HyperbolicGeometry.intersection`, lines 3861-3895, and `HyperbolicGeodesic._intersection`, lines 7712-7793: the point of intersection of two lines in the Klein model, if any. -/
def Geo.inter (f g : Geo K) : Option (K × K) :=
  let det := f.b * g.c - f.c * g.b
  if det = 0 then none
  else some ((-g.c * f.a + f.c * g.a) / det, (g.b * f.a - f.b * g.a) / det)

/-- `HyperbolicGeodesic._an_element_`, lines 7920-7945; the assertion fails if there is no intersection. -/
def Geo.anElement (g : Geo K) : Except Err (K × K) :=
  match Geo.inter (⟨0, -g.c, g.b⟩ : Geo K) g with
  | none => .error .assertionError
  | some p => .ok p

/-- `HyperbolicPointFromGeodesic._coordinates_klein` over the base ring, lines 9914-10004; `none` is the `ValueError` of a missing square root. -/
def startCoordinates (sqrt : K → Option K) (g : Geo K) : Except Err (K × K) :=
  let (a, b, c) := g.equation .halfPlane
  if a = 0 then
    if sgn b > 0 then .ok (0, 1) else .ok (toKlein (-c / b) 0)
  else
    match sqrt (b * b - 4 * a * c) with
    | none => .error .valueError
    | some s =>
      let e₁ := (-b - s) / (2 * a)
      let e₂ := (-b + s) / (2 * a)
      .ok (toKlein (if sgn a > 0 then min e₁ e₂ else max e₁ e₂) 0)

/-- `coordinates(model="klein")`, lines 9162-9169 and 9531-9563. -/
def Pt.klein (sqrt : K → Option K) : Pt K → Except Err (K × K)
  | .coords x y => .ok (x, y)
  | .start g => startCoordinates sqrt g

/-- `is_ideal`, lines 8886-8916 and 9865-9879. -/
def Pt.isIdeal : Pt K → Bool
  | .coords x y => x * x + y * y = 1
  | .start _ => true
/-- `is_ultra_ideal`, lines 8918-8952 and 9881-9896. -/
def Pt.isUltraIdeal : Pt K → Bool
  | .coords x y => x * x + y * y > 1
  | .start _ => false
/-- `is_finite`, lines 8954-8984 and 9898-9912. -/
def Pt.isFinite : Pt K → Bool
  | .coords x y => x * x + y * y < 1
  | .start _ => false

/-- `HyperbolicGeodesic.__contains__` for a point with coordinates, lines 7550-7555. -/
def Geo.containsCoords (g : Geo K) (x y : K) : Bool := g.a + g.b * x + g.c * y = 0

/-- `HyperbolicOrientedGeodesic.parametrize`, lines 8387-8449, without the check; the coordinates of the point are given. -/
def Geo.parametrize (g : Geo K) (p : K × K) : Except Err K := do
  let base ← g.anElement
  if g.c ≠ 0 then pure ((p.1 - base.1) / g.c) else pure ((p.2 - base.2) / -g.b)

/-- `HyperbolicOrientedGeodesic.unparametrize`, lines 8451-8499. -/
def Geo.unparametrize (g : Geo K) (t : K) (check : Bool) : Except Err (Pt K) := do
  let base ← g.anElement
  point (base.1 + t * g.c) (base.2 + t * -g.b) .klein check

/-- Comparison of the starting point of a geodesic with a point with coordinates, lines 10075-10083; `parametrize` checks again that the point is on the geodesic. -/
def startEqCoords (g : Geo K) (x y : K) : Except Err Bool :=
  if x * x + y * y ≠ 1 then .ok false
  else if g.containsCoords x y = false then .ok false
  else do
    let t ← g.parametrize (x, y)
    pure (decide (t < 0))

/-- Comparison of the starting points of two geodesics, lines 10062-10073; a missing intersection is not equal to any point. -/
def startEqStart (g h : Geo K) : Except Err Bool :=
  if g.eq h true then .ok true
  else if g.eq h.neg true then .ok false
  else
    match g.inter h with
    | none => .ok false
    | some p => do
      let e ← startEqCoords g p.1 p.2
      if e then startEqCoords h p.1 p.2 else pure false

/-- Equality of points, lines 9565-9632 and 10006-10085. -/
def Pt.eq : Pt K → Pt K → Except Err Bool
  | .coords x y, .coords x' y' => .ok (x == x' && y == y')
  | .coords x y, .start g => startEqCoords g x y
  | .start g, .coords x y => startEqCoords g x y
  | .start g, .start h => startEqStart g h

/-- The point at infinity, `projective(1, 0)`, lines 3738-3739. -/
def infinity : Pt K := .coords 0 1

/-- `HyperbolicPoint.coordinates`, lines 9079-9196. -/
def Pt.coordinates (sqrt : K → Option K) (p : Pt K) : HModel → Except Err (K × K)
  | .klein => p.klein sqrt
  | .halfPlane => do
    let k ← p.klein sqrt
    let atInfinity ← p.eq infinity
    if atInfinity || p.isUltraIdeal then .error .valueError
    else if !p.isFinite then pure (k.1 / (1 - k.2), 0)
    else
      match sqrt (1 - k.1 * k.1 - k.2 * k.2) with
      | none => .error .valueError
      | some s => pure (k.1 / (1 - k.2), s / (1 - k.2))

/-- `HyperbolicGeodesic.__contains__`, lines 7496-7555. -/
def Geo.contains (g : Geo K) : Pt K → Except Err Bool
  | .start h =>
    if h.eq g false then .ok true
    else
      match g.inter h with
      | none => .ok false
      | some p => if p.1 * p.1 + p.2 * p.2 > 1 then .ok false else startEqCoords h p.1 p.2
  | .coords x y => .ok (g.containsCoords x y)

/-- `HyperbolicOrientedGeodesic.ccw`, lines 8535-8619. -/
def Geo.ccw (g h : Geo K) (euclidean : Bool) : Except Err ℤ :=
  match g.inter h with
  | none => if g.eq h false then .ok 0 else .error .valueError
  | some p =>
    if p.1 * p.1 + p.2 * p.2 = 1 ∧ euclidean = false then .ok 0
    else if p.1 * p.1 + p.2 * p.2 > 1 ∧ euclidean = false then .error .valueError
    else .ok (sgn (g.c * -h.b - -g.b * h.c))

/-- `HyperbolicHalfSpace.__contains__` for a point with coordinates, lines 6307-6312; the half space is left of the geodesic. -/
def Geo.leftCoords (g : Geo K) (x y : K) : Bool := sgn (g.a + g.b * x + g.c * y) ≥ 0

/-- `HyperbolicHalfSpace.__contains__`, lines 6191-6312. -/
def Geo.left (sqrt : K → Option K) (g : Geo K) (p : Pt K) : Except Err Bool :=
  match p.klein sqrt with
  | .ok k => .ok (g.leftCoords k.1 k.2)
  | .error .valueError =>
    match p with
    | .coords _ _ => .error .notImplemented
    | .start h =>
      match g.inter h with
      | none => do
        let e ← h.anElement
        pure (g.leftCoords e.1 e.2)
      | some q =>
        if ¬ q.1 * q.1 + q.2 * q.2 < 1 then do
          let e ← h.anElement
          pure (g.leftCoords e.1 e.2)
        else do
          let k ← g.ccw h false
          if k = 0 then .error .assertionError else pure (decide (k < 0))
  | .error e => .error e

/-- `HyperbolicPlane.geodesic` through two points, lines 1406-1427. -/
def geodesicThrough (sqrt : K → Option K) (p q : Pt K) (check : Bool) : Except Err (Geo K) := do
  let e ← p.eq q
  if e then .error .valueError
  else
    match p, q with
    | .start g, .start h => if g.eq h.neg true then pure g else through p q
    | p, q => through p q
where
  /-- Lines 1420-1427. -/
  through (p q : Pt K) : Except Err (Geo K) := do
    let a ← p.klein sqrt
    let b ← q.klein sqrt
    let C := b.1 - a.1
    let B := a.2 - b.2
    geodesic (-(B * a.1 + C * a.2)) B C .klein check

/-- `HyperbolicGeometry.projective`, lines 3711-3741. -/
def projective (p q : K) : Except Err (Pt K) :=
  if p = 0 ∧ q = 0 then .error .valueError
  else if q = 0 then point 0 1 .klein false
  else point (p / q) 0 .halfPlane false

/-- `HyperbolicGeometry.half_circle`, lines 3743-3783. -/
def halfCircle (center radiusSquared : K) : Except Err (Geo K) :=
  if radiusSquared ≤ 0 then .error .valueError
  else geodesic 1 (-2 * center) (center * center - radiusSquared) .halfPlane true

/-- `HyperbolicGeometry.vertical`, lines 3785-3815. -/
def vertical (real : K) : Except Err (Geo K) := geodesic real (-1) (-real) .klein true

open Matrix in
/-- `HyperbolicPlane._isometry_gl2_to_sim12`, lines 2655-2714. -/
def sim12 (m : Matrix (Fin 2) (Fin 2) K) : Matrix (Fin 3) (Fin 3) K :=
  let a := m 0 0
  let b := m 0 1
  let c := m 1 0
  let d := m 1 1
  !![a * d + b * c, a * c - b * d, a * c + b * d;
    a * b - c * d, (a ^ 2 - b ^ 2 - c ^ 2 + d ^ 2) / 2, (a ^ 2 + b ^ 2 - c ^ 2 - d ^ 2) / 2;
    a * b + c * d, (a ^ 2 - b ^ 2 + c ^ 2 - d ^ 2) / 2, (a ^ 2 + b ^ 2 + c ^ 2 + d ^ 2) / 2]

open Matrix in
/-- The bilinear form of the hyperboloid model, lines 5083. -/
def J : Matrix (Fin 3) (Fin 3) K := !![1, 0, 0; 0, 1, 0; 0, 0, -1]

open Matrix in
/-- The check that a matrix is an isometry, in `HyperbolicConvexSet.apply_isometry`, lines 5077-5098. -/
def isIsometry (m : Matrix (Fin 3) (Fin 3) K) : Bool :=
  let D := mᵀ * J * m
  (∀ i j, ¬ (decide (i = j) = decide (D i j = 0))) ∧ D 0 0 = D 1 1 ∧ D 0 0 = - D 2 2

/-- `HyperbolicPointFromCoordinates._apply_isometry_klein`, lines 9731-9766, for the matrix that acts from the left. -/
def applyCoords (m : Matrix (Fin 3) (Fin 3) K) (x y : K) : Except Err (Pt K) :=
  let v := m.mulVec ![x, y, 1]
  point (v 0 / v 2) (v 1 / v 2) .klein true

open Matrix in
/-- `HyperbolicGeodesic._apply_isometry_klein`, lines 7795-7876: the row vector is multiplied with the inverse for an action from the left; `mi` is the matrix that is multiplied. -/
def applyGeo (mi : Matrix (Fin 3) (Fin 3) K) (g : Geo K) : Except Err (Geo K) :=
  let v := ![g.b, g.c, g.a] ᵥ* mi
  geodesic (v 2) (v 0) (v 1) .klein true

open Matrix in
/-- `apply_isometry` of a point in the Klein model, lines 5065-5102, 9731-9766 and 10232-10279. -/
noncomputable def Pt.apply (m : Matrix (Fin 3) (Fin 3) K) (onRight : Bool) : Pt K → Except Err (Pt K)
  | .coords x y => if isIsometry m then applyCoords (if onRight then m⁻¹ else m) x y else .error .valueError
  | .start g => do
    if ¬ isIsometry m then .error .valueError
    let image ← applyGeo (if onRight then m else m⁻¹) g
    pure (.start (if sgn m.det = -1 then image.neg else image))

open Matrix in
/-- `apply_isometry` of a geodesic or a half space in the Klein model, lines 5065-5102, 6502-6529 and 7795-7876. -/
noncomputable def Geo.apply (m : Matrix (Fin 3) (Fin 3) K) (onRight : Bool) (g : Geo K) : Except Err (Geo K) :=
  if isIsometry m then applyGeo (if onRight then m else m⁻¹) g else .error .valueError

/-- The sign choices of `itertools.product([1, -1], repeat=4)`, line 2785. -/
def signs : List (K × K × K × K) :=
  [1, -1].flatMap fun sa => [1, -1].flatMap fun sb => [1, -1].flatMap fun sc => [1, -1].map fun sd => (sa, sb, sc, sd)

/-- The test in the loop of `_isometry_sim12_to_gl2`, lines 2790-2797; `r` are the square roots and `t` the products that they should have. -/
def signFits (pa pb pc pd ab ac ad bc bd cd : K) (s : K × K × K × K) : Bool :=
  (s.1 * pa) * (s.2.1 * pb) = ab ∧ (s.1 * pa) * (s.2.2.1 * pc) = ac ∧ (s.1 * pa) * (s.2.2.2 * pd) = ad ∧
  (s.2.1 * pb) * (s.2.2.1 * pc) = bc ∧ (s.2.1 * pb) * (s.2.2.2 * pd) = bd ∧ (s.2.2.1 * pc) * (s.2.2.2 * pd) = cd

/-- `nth_root(3)` and `sqrt`: a missing root in the base ring is an error. -/
def root (x : Option K) : Except Err K :=
  match x with
  | some y => .ok y
  | none => .error .valueError

/-- `HyperbolicPlane._isometry_sim12_to_gl2`, lines 2716-2801. The third root and the square roots in the base ring are parameters; where Sage would continue with symbolic roots, which do not convert back to the base ring, this is an error. -/
def gl2 (sqrt cbrt : K → Option K) (m : Matrix (Fin 3) (Fin 3) K) : Except Err (Matrix (Fin 2) (Fin 2) K) := do
  let det := m.det
  let e ← root (cbrt det)
  let e := if sgn det ≠ sgn e then e * -1 else e
  let pa ← root (sqrt ((m 1 2 + m 2 2 + m 2 1 + m 1 1) / 2))
  let pb ← root (sqrt ((m 1 2 + m 2 2 - m 2 1 - m 1 1) / 2))
  let pc ← root (sqrt ((m 2 1 + m 2 2 - m 1 2 - m 1 1) / 2))
  let pd ← root (sqrt ((m 1 1 + m 2 2 - m 1 2 - m 2 1) / 2))
  match signs.find? (signFits pa pb pc pd ((m 1 0 + m 2 0) / 2) ((m 0 1 + m 0 2) / 2) ((m 0 0 + e) / 2) ((m 0 0 - e) / 2) ((m 0 2 - m 0 1) / 2) ((m 2 0 - m 1 0) / 2)) with
  | some s => pure !![s.1 * pa, s.2.1 * pb; s.2.2.1 * pc, s.2.2.2 * pd]
  | none => .error .valueError

end Hyp
end Flat
