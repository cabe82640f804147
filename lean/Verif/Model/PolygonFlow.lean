import Verif.Model.Polygon

/-!
# Flowing in a convex polygon, and separatrices

`flow` and `find_separatrix` of `flatsurf/geometry/categories/euclidean_polygons.py`.
-/

namespace Flat
namespace Poly
variable {K : Type} [Field K] [LinearOrder K]

/-- The body of the loop of `flow`, categories/euclidean_polygons.py 2039-2091: the edge from `v0` to `v0 + e`; `none` when the loop goes on. -/
def flowEdge (p : Poly K) (point holonomy v0 : Vec K) (i : ℕ) : Option (Vec K × Vec K × Position) :=
  let e := p.edge i
  let det := e.1 * (-holonomy.2) - (-holonomy.1) * e.2
  if det = 0 then none
  else
    let d := point - v0
    let s := ((-holonomy.2) * d.1 + holonomy.1 * d.2) / det
    let t := ((-e.2) * d.1 + e.1 * d.2) / det
    if 0 < t ∧ 0 ≤ s ∧ s ≤ 1 then
      if 1 < t then some (point + holonomy, 0, .interior)
      else if s = 1 then some (v0 + e, point + holonomy - (v0 + e), .vertex ((i + 1) % p.length))
      else if s = 0 then some (v0, point + holonomy - v0, .vertex i)
      else some (point + t • holonomy, holonomy - t • holonomy, .edgeInterior i)
    else none

/-- The loop of `flow`, categories/euclidean_polygons.py 2038-2099.  (The two `ValueError`s differ in their message.) -/
def flowLoop (p : Poly K) (point holonomy : Vec K) : List ℕ → Vec K → Except Err (Vec K × Vec K × Position)
  | [], _ => .error .valueError
  | i :: is, v0 =>
    match p.flowEdge point holonomy v0 i with
    | some r => .ok r
    | none => p.flowLoop point holonomy is (v0 + p.edge i)

/-- `flow(point, holonomy, translation)`, categories/euclidean_polygons.py 2024-2099. -/
def flow (p : Poly K) (point holonomy : Vec K) (translation : Option (Vec K)) : Except Err (Vec K × Vec K × Position) :=
  if holonomy = 0 then .ok (point, 0, p.pointPosition (match translation with | none => point | some τ => point - τ))
  else p.flowLoop point holonomy (List.range p.length) (match translation with | none => p.vertex 0 | some τ => p.vertex 0 + τ)

/-- The loop of `find_separatrix`, categories/euclidean_polygons.py 1870-1882.  The statement `v = v + 1 % n` does not reduce `v + 1`. -/
def separatrixLoop (p : Poly K) (direction : Vec K) : ℕ → ℕ → Except Err (ℕ × Bool)
  | 0, _ => .error .attributeError
  | k + 1, v =>
    if 0 ≤ ccw (p.edge v) direction ∧ 0 < ccw (p.edge (v + p.length - 1)) direction then .ok (v, true)
    else if ccw (p.edge v) direction ≤ 0 ∧ ccw (p.edge (v + p.length - 1)) direction < 0 then .ok (v, false)
    else p.separatrixLoop direction k (v + 1)

/-- `find_separatrix(direction, start_vertex)`, categories/euclidean_polygons.py 1862-1882.  The `RuntimeError` at the end is written
as `attributeError` here (it is not raised). -/
def findSeparatrix (p : Poly K) (direction : Vec K) (start : ℕ) : Except Err (ℕ × Bool) :=
  if direction = 0 then .error .assertionError else p.separatrixLoop direction p.length start

end Poly
end Flat
