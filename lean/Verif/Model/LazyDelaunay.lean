import Verif.Model.Lazy

/-!
# Model of `LazyDelaunaySurface`

`flatsurf/geometry/lazy.py` 1522-1885: the Delaunay cell decomposition of a Delaunay triangulation.
-/

namespace Flat
namespace RSurf
variable {L K : Type} [DecidableEq L] [Field K] [LinearOrder K] [IsStrictOrderedRing K]

/-- `_delaunay_edge_needs_join(p1, e1)`, categories/similarity_surfaces.py 2577-2596. -/
def needsJoin (S : RSurf L K) (l1 : L) (e1 : ℕ) : Except Err Bool := do
  let c ← S.opp! l1 e1
  let p1 ← S.polygon l1
  let p2 ← S.polygon c.1
  let sim1 ← MSurf.simFromVectors (p1.vertex e1 - p1.vertex (e1 + 2)) (-p1.edge (e1 + 1))
  let sim2 ← MSurf.simFromVectors (p2.vertex c.2 - p2.vertex (c.2 + 2)) (-p2.edge (c.2 + 1))
  return decide ((sim1.mul sim2).c = 0)

/-- The loop of `_cell`, lazy.py 1692-1713, for at most `fuel` rounds: `explore` is the stack (its end first), `edges` the
boundary edges found, `cell` the triangles. -/
def cellLoop (S : RSurf L K) : ℕ → List (L × ℕ) → List (L × ℕ) → List L → Except Err (List L × List (L × ℕ))
  | _, [], edges, cell => .ok (cell, edges)
  | 0, _ :: _, _, _ => .error .outOfFuel
  | fuel + 1, (t, e) :: explore, edges, cell => do
    let j ← S.needsJoin t e
    if ¬ j then cellLoop S fuel explore (edges ++ [(t, e)]) (cell ++ [t])
    else
      let c ← S.opp! t e
      let n2 := (c.1, (c.2 + 2) % 3)
      let n1 := (c.1, (c.2 + 1) % 3)
      if n2 ∈ edges then throw .notImplemented
      if n2 ∈ explore then throw .notImplemented
      if n1 ∈ edges then throw .notImplemented
      if n1 ∈ n2 :: explore then throw .notImplemented
      cellLoop S fuel (n1 :: n2 :: explore) edges (cell ++ [t])

/-- `_label(cell)`, lazy.py 1627-1647; `labs` is `self._reference.labels()`. -/
def cellLabel (labs : List L) (cell : List L) : Except Err L :=
  match labs.find? (fun l => l ∈ cell) with
  | none => .error .assertionError
  | some l => .ok l

/-- `_cell(label)`, lazy.py 1668-1720; the first argument bounds the recursion, `fuel` the number of rounds of the loop. -/
def cell (S : RSurf L K) (labs : List L) (fuel : ℕ) : ℕ → L → Except Err (List L × List (L × ℕ))
  | 0, _ => .error .outOfFuel
  | d + 1, l => do
    let c ← S.cellLoop fuel [(l, 0), (l, 1), (l, 2)] [] []
    let n ← cellLabel labs c.1
    if n ≠ l then cell S labs fuel d n
    else return c

/-- `LazyDelaunaySurface`, lazy.py 1522-1885: `polygon` 1597-1625 and `opposite_edge` 1722-1753. -/
def delaunayCells (S : RSurf L K) (labs : List L) (fuel depth : ℕ) : RSurf L K where
  polygon l := do
    if l ∉ labs then throw .valueError
    let c ← S.cell labs fuel depth l
    let n ← cellLabel labs c.1
    if l ≠ n then throw .valueError
    let es ← c.2.mapM (fun x => do
      let p ← S.polygon x.1
      return p.edge x.2)
    Poly.ofEdges es
  opp l e := do
    if l ∉ labs then throw .valueError
    let c ← S.cell labs fuel depth l
    let n ← cellLabel labs c.1
    if l ≠ n then throw .valueError
    let x ← pyGet c.2 (e : Int)
    let y ← S.opp! x.1 x.2
    let c' ← S.cell labs fuel depth y.1
    let n' ← cellLabel labs c'.1
    if y ∈ c'.2 then return some (n', c'.2.idxOf y)
    else throw .valueError

end RSurf
end Flat
