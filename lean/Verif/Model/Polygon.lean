import Verif.Model.Euclidean
import Verif.Model.Similarity
import Verif.Model.Surface
import Mathlib.Algebra.BigOperators.Group.List.Basic

/-!
# Model of Euclidean polygons

`flatsurf/geometry/polygon.py` and `flatsurf/geometry/categories/euclidean_polygons.py`.  A polygon is the
list of its vertices `_v` (polygon.py 280-284).  Base rings and categories are not modelled.
-/

namespace Flat

/-- `EuclideanPolygon._v`, polygon.py 280-284. -/
abbrev Poly (K : Type) := List (Vec K)

namespace Poly

instance {K : Type} : NumVertices (Poly K) := ⟨List.length⟩

section
variable {K : Type} [Field K] [LinearOrder K] [IsStrictOrderedRing K]

/-- `vertex(i)`, euclidean_polygons.py 301-327, for non-negative `i` (the index wraps around). -/
def vertex (p : Poly K) (i : ℕ) : Vec K := (p[i % p.length]?).getD 0

/-- `edge(i)`, euclidean_polygons.py 344-370. -/
def edge (p : Poly K) (i : ℕ) : Vec K := p.vertex (i + 1) - p.vertex i

/-- `edges()`, euclidean_polygons.py 329-342. -/
def edges (p : Poly K) : List (Vec K) := (List.range p.length).map p.edge

/-- `area()`, euclidean_polygons.py 679-707. -/
def area (p : Poly K) : K :=
  ((List.range p.length).map
    (fun i => ((p.vertex i).1 + (p.vertex (i + 1)).1) * (p.edge i).2)).sum / 2

/-- `is_convex(strict)`, euclidean_polygons.py 372-402. -/
def isConvex (p : Poly K) (strict : Bool) : Bool :=
  (List.range p.length).all (fun i =>
    let c := ccw (p.edge i) (p.edge (i + 1))
    if strict then decide (¬ c ≤ 0) else decide (¬ c < 0))

/-- `translate(u)`, polygon.py 418-435. -/
def translate (p : Poly K) (u : Vec K) : Poly K := p.map (fun v => u + v)

/-- `_mul_` with a matrix, euclidean_polygons.py 161-208; `none` is the `ValueError`. -/
def mul (g : Mat2 K) (p : Poly K) : Option (Poly K) :=
  if g.det = 0 then none
  else if g.det < 0 then
    -- `for i in range(n - 1, 0, -1)`
    some (g.mulVec (p.vertex 0) ::
      ((List.range (p.length - 1)).map (fun i => g.mulVec (p.vertex (p.length - 1 - i)))))
  else some (p.map g.mulVec)

/-- `is_simple()`, euclidean_polygons.py 251-278.  In Python `(i - j) % n` is never -1. -/
def isSimple (p : Poly K) : Bool :=
  let n := p.length
  (List.range n).all (fun i =>
    -- `for j in range(i + 2, n + 1)`
    ((List.range (n + 1)).filter (fun j => i + 2 ≤ j)).all (fun j =>
      ((((i : Int) - j) % n = -1 ∨ ((i : Int) - j) % n = 0 ∨ ((i : Int) - j) % n = 1) : Bool) ||
      isSegmentIntersecting (p.vertex i, p.vertex (i + 1)) (p.vertex j, p.vertex (j + 1)) = .zero))

/-- `_Polygon_check`, polygon.py 1368-1440 without redundant data (edges, angles, lengths). -/
def check (p : Poly K) : Except Err Unit :=
  if p.area < 0 then .error .valueError
  else if p.area = 0 then .error .valueError
  else if p.edges.any (fun e => e = 0) then .error .valueError
  else if (List.range p.length).any (fun i => isAntiParallel (p.edge i) (p.edge (i + 1))) then
    .error .valueError
  else if ¬ p.isSimple then .error .notImplemented
  else .ok ()

/-- `Polygon(vertices=...)`, polygon.py 858-1170. -/
def ofVertices (vs : List (Vec K)) : Except Err (Poly K) :=
  if vs.length < 3 then .error .valueError
  else do
    check vs
    return vs

/-- The partial sums `v, v + e_0, v + e_0 + e_1, ...`, polygon.py 1309-1311. -/
def partialSums (v : Vec K) : List (Vec K) → List (Vec K)
  | [] => [v]
  | e :: es => v :: partialSums (v + e) es

/-- `Polygon(edges=...)`, polygon.py 858-1170 and 1307-1318. -/
def ofEdges (es : List (Vec K)) : Except Err (Poly K) :=
  if es.length < 3 then .error .valueError
  else
    let vs := partialSums 0 es
    if vs.getLast? ≠ some 0 then .error .valueError
    else do
      check vs.dropLast
      return vs.dropLast

/-- `centroid()`, euclidean_polygons.py 709-762; `x[i - 1]` wraps around for `i = 0`. -/
def centroid (p : Poly K) : Vec K :=
  let n := p.length
  let a := p.area
  let x := fun i => (p.vertex i).1
  let y := fun i => (p.vertex i).2
  let pr := fun i => i + n - 1
  ((6 * a)⁻¹ * ((List.range n).map (fun i => (x (pr i) + x i) * (x (pr i) * y i - x i * y (pr i)))).sum,
   (6 * a)⁻¹ * ((List.range n).map (fun i => (y (pr i) + y i) * (x (pr i) * y i - x i * y (pr i)))).sum)

/-- `PolygonPosition`, polygon.py 175-251. -/
inductive Position where
  | outside | interior | edgeInterior (e : ℕ) | vertex (v : ℕ)
deriving DecidableEq, Repr

/-- The winding number of `get_point_position`, euclidean_polygons.py 843-849. -/
def winding (p : Poly K) (pt : Vec K) : Int :=
  ((List.range p.length).map (fun i =>
    let v := p.vertex i
    let w := p.vertex (i + 1)
    (if v.2 < pt.2 ∧ w.2 ≥ pt.2 ∧ ccw (w - v) (pt - v) > 0 then 1 else 0) -
    (if v.2 ≥ pt.2 ∧ w.2 < pt.2 ∧ ccw (w - v) (pt - v) < 0 then 1 else 0 : Int))).sum

/-- `get_point_position(point)`, euclidean_polygons.py 764-854. -/
def pointPosition (p : Poly K) (pt : Vec K) : Position :=
  match (List.range p.length).find? (fun i => pt = p.vertex i) with
  | some i => .vertex i
  | none =>
    match (List.range p.length).find? (fun i =>
        ccw (p.edge i) (pt - p.vertex i) = 0 ∧ 0 < dot (p.edge i) (pt - p.vertex i) ∧
        dot (p.edge i) (pt - p.vertex i) < dot (p.edge i) (p.edge i)) with
    | some i => .edgeInterior i
    | none => if p.winding pt % 2 ≠ 0 then .interior else .outside

/-- `join(other, edge, other_edge)`, euclidean_polygons.py 856-922. -/
def join (p q : Poly K) (e f : ℕ) : Except Err (Poly K) :=
  if p.vertex e ≠ q.vertex (f + 1) ∨ p.vertex (e + 1) ≠ q.vertex f then .error .valueError
  else ofVertices (p.take e ++ q.drop (f + 1) ++ q.take f ++ p.drop (e + 1))

/-- `subdivide()`, euclidean_polygons.py 2134-2190. -/
def subdivide (p : Poly K) : Except Err (List (Poly K)) :=
  (List.range p.length).mapM (fun i => ofVertices [p.vertex i, p.vertex (i + 1), p.centroid])

/-- The vertex list of `subdivide_edges(parts)`, euclidean_polygons.py 2192-2220. -/
def subdivideEdges (p : Poly K) (parts : ℕ) : Except Err (Poly K) :=
  if parts < 1 then .error .valueError
  else ofEdges ((p.edges.map (fun e => List.replicate parts ((parts : K)⁻¹ • e))).flatten)

/-- `is_translate(other)`, euclidean_polygons.py 2466-2503: the smallest shift for which the edges agree.
(In Python the answer is the truth value, and `(True, (i, 1))` with `certificate`.) -/
def isTranslate (p q : Poly K) : Option ℕ :=
  if q.length ≠ p.length then none
  else (List.range p.length).find? (fun i => p.edges = q.edges.rotate i)

/-- `is_half_translate(other, certificate)`, euclidean_polygons.py 2505-2560. -/
def isHalfTranslate (p q : Poly K) : Option (ℕ × Int) :=
  if q.length ≠ p.length then none
  else match (List.range p.length).find? (fun i => p.edges = q.edges.rotate i) with
    | some i => some (i, 1)
    | none =>
      match (List.range p.length).find? (fun i => p.edges = (q.edges.map (fun e => -e)).rotate i) with
      | some i => some (if i = 0 then 0 else p.length - i, -1)
      | none => none

/-- The test for one shift in `is_isometric`, euclidean_polygons.py 2445-2456. -/
def isometricShift (se oe : List (Vec K)) : Option (Mat2 K) :=
  if se.map normSq = oe.map normSq then
    let s := (se[0]?).getD 0
    let o := (oe[0]?).getD 0
    let ns := normSq s
    -- `mo * ~ms`
    let rot : Mat2 K := ⟨(o.1 * s.1 + o.2 * s.2) / ns, -((o.2 * s.1 - o.1 * s.2) / ns),
      (o.2 * s.1 - o.1 * s.2) / ns, (o.1 * s.1 + o.2 * s.2) / ns⟩
    if se.map rot.mulVec = oe then some rot else none
  else none

/-- `is_isometric(other, certificate)`, euclidean_polygons.py 2375-2464 (the assertions in lines 2454-2455
are proved, see `C15_isometric_asserts`). -/
def isIsometric (p q : Poly K) : Option (ℕ × Mat2 K) :=
  if q.length ≠ p.length then none
  else (List.range p.length).findSome? (fun i =>
    (isometricShift p.edges (q.edges.rotate i)).map (fun r => (if i = 0 then 0 else p.length - i, r)))

/-- `cmp`, polygon.py 383-416: the loop over the vertices starts at 1. -/
def cmp (p q : Poly K) : Int :=
  if p.length > q.length then 1
  else if p.length < q.length then -1
  else if p.area - q.area > 0 then 1
  else if p.area - q.area < 0 then -1
  else
    let rec loop : List ℕ → Int
      | [] => 0
      | v :: vs =>
        let a := p.vertex v
        let b := q.vertex v
        if a.1 - b.1 > 0 then 1
        else if a.1 - b.1 < 0 then -1
        else if a.2 - b.2 > 0 then 1
        else if a.2 - b.2 < 0 then -1
        else loop vs
    loop ((List.range p.length).drop 1)

end
end Poly
end Flat
