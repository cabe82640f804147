import Verif.Model.Vertices
import Mathlib.Algebra.BigOperators.Pi
import Mathlib.Data.Finset.Card

/-!
# Model of the Euler characteristic, of chains and of intersection numbers

`flatsurf/geometry/categories/polygonal_surfaces.py` (`edges`, `euler_characteristic`, `genus`), `flatsurf/geometry/homology.py` and
`edges_ccw` of `flatsurf/geometry/categories/similarity_surfaces.py`.  The labels of the finite surface are a list.
-/

namespace Flat
namespace RSurf
variable {L K : Type} [Field K] [LinearOrder K] [IsStrictOrderedRing K]

/-- The edges of one polygon. -/
def edgesAt (S : RSurf L K) (l : L) : Except Err (List (L × ℕ)) := do
  let p ← S.polygon l
  return (List.range p.length).map (fun e => (l, e))

/-- `edges()`, surface.py 3048-3074. -/
def edges (S : RSurf L K) (ls : List L) : Except Err (List (L × ℕ)) := do
  let es ← ls.mapM S.edgesAt
  return es.flatten

section
variable {D : Type} [DecidableEq D]

/-- `find(node)` with path compression, polygonal_surfaces.py 1175-1180.  The dictionary `union_find` has all edges as keys and is a
function; the result is the root and the modified dictionary. -/
def findRoot : ℕ → (D → D) → D → Except Err (D × (D → D))
  | 0, _, _ => .error .outOfFuel
  | fuel + 1, uf, x => do
    if uf x = x then return (x, uf)
    let q ← findRoot fuel uf (uf x)
    return (q.1, Function.update q.2 x q.1)

/-- The body of the first loop, polygonal_surfaces.py 1182-1188, where `cross d` is the edge opposite to the edge before `d`.  Python
evaluates the right hand side first. -/
def unionStep (cross : D → Except Err (Option D)) (fuel : ℕ) (uf : D → D) (d : D) : Except Err (D → D) := do
  match ← cross d with
  | none => return uf
  | some c => do
    let b ← findRoot fuel uf c
    let a ← findRoot fuel b.2 d
    return Function.update a.2 a.1 b.1

/-- The set of all roots, polygonal_surfaces.py 1190. -/
def rootsStep (fuel : ℕ) (acc : Finset D × (D → D)) (d : D) : Except Err (Finset D × (D → D)) := do
  let q ← findRoot fuel acc.2 d
  return (insert q.1 acc.1, q.2)

/-- The body of the second loop, polygonal_surfaces.py 1196-1203. -/
def countStep (opp : D → Except Err (Option D)) (acc : ℚ × ℤ) (d : D) : Except Err (ℚ × ℤ) := do
  match ← opp d with
  | none => return (acc.1 + 1, acc.2)
  | some c => if c = d then return (acc.1 + 1, acc.2 + 1) else return (acc.1 + 1 / 2, acc.2)

end

/-- `euler_characteristic()`, polygonal_surfaces.py 1160-1209. -/
def eulerCharacteristic [DecidableEq L] (S : RSurf L K) (fuel : ℕ) (ls : List L) : Except Err ℤ := do
  let es ← S.edges ls
  let uf ← es.foldlM (unionStep S.rotateCcw fuel) id
  let rs ← es.foldlM (rootsStep fuel) (∅, uf)
  let ev ← es.foldlM (countStep (fun d => S.opp d.1 d.2)) (0, rs.1.card)
  if ev.1.den ≠ 1 then throw .assertionError
  return ev.2 - ev.1.num + ls.length

/-- `genus()`, polygonal_surfaces.py 1434-1458. -/
def genus [DecidableEq L] (S : RSurf L K) (fuel : ℕ) (ls : List L) : Except Err ℚ := do
  let χ ← S.eulerCharacteristic fuel ls
  return 1 - χ / 2

/-! ### Homology

Chains are functions: an element of the free module on the simplices is given by its coefficients, the iteration over a chain by a list
of simplices with their coefficients. -/

variable {R : Type} [CommRing R]

/-- The loop that chooses one of each pair of glued edges, homology.py 690-695.  (Python then has the edges in the order of the set.) -/
def pickEdges [DecidableEq L] (S : RSurf L K) : List (L × ℕ) → List (L × ℕ) → Except Err (List (L × ℕ))
  | acc, [] => .ok acc
  | acc, d :: ds => do
    match ← S.opp d.1 d.2 with
    | none => pickEdges S (if d ∈ acc then acc else acc ++ [d]) ds
    | some c => pickEdges S (if c ∈ acc then acc else if d ∈ acc then acc else acc ++ [d]) ds

/-- `simplices()` in degree 1, homology.py 690-695. -/
def simplices1 [DecidableEq L] (S : RSurf L K) (ls : List L) : Except Err (List (L × ℕ)) := do
  S.pickEdges [] (← S.edges ls)

/-- `to_C0(point)`, homology.py 771-774: a basis vector, or zero for points in the set `relative`. -/
def toC0 [DecidableEq L] (rel : Finset (Finset (L × Vec K))) (x : Finset (L × Vec K)) (r : R) : Finset (L × Vec K) → R :=
  if x ∈ rel then 0 else Pi.single x r

/-- `boundary(chain)` in degree 1, homology.py 768-782. -/
def boundary1 [DecidableEq L] (S : RSurf L K) (fuel : ℕ) (rel : Finset (Finset (L × Vec K))) :
    List ((L × ℕ) × R) → Except Err (Finset (L × Vec K) → R)
  | [] => .ok 0
  | (d, r) :: chain => do
    let c ← S.opp! d.1 d.2
    let x ← S.surfaceVertex fuel c
    let y ← S.surfaceVertex fuel d
    let b ← boundary1 S fuel rel chain
    return b + toC0 rel x r - toC0 rel y r

/-- The contribution of an edge to the boundary of a polygon, homology.py 789-794. -/
def faceEdge [DecidableEq L] (S : RSurf L K) (simplices : List (L × ℕ)) (r : R) (d : L × ℕ) : Except Err (L × ℕ → R) :=
  if d ∈ simplices then .ok (Pi.single d r)
  else do
    let c ← S.opp! d.1 d.2
    return -Pi.single c r

/-- The loop over the edges of a polygon, homology.py 788-794. -/
def faceLoop [DecidableEq L] (S : RSurf L K) (simplices : List (L × ℕ)) (r : R) : List (L × ℕ) → Except Err (L × ℕ → R)
  | [] => .ok 0
  | d :: ds => do
    let f ← S.faceEdge simplices r d
    let g ← S.faceLoop simplices r ds
    return f + g

/-- `boundary(chain)` in degree 2, homology.py 784-795. -/
def boundary2 [DecidableEq L] (S : RSurf L K) (simplices : List (L × ℕ)) : List (L × R) → Except Err (L × ℕ → R)
  | [] => .ok 0
  | (l, r) :: chain => do
    let es ← S.edgesAt l
    let f ← S.faceLoop simplices r es
    let g ← S.boundary2 simplices chain
    return f + g

/-- A chain as a list of simplices with their coefficients. -/
def items {D : Type} (simplices : List D) (f : D → R) : List (D × R) := simplices.map (fun d => (d, f d))

/-- The loop of `_edges_ccw_vertex` that collects the edges that leave a vertex, categories/similarity_surfaces.py 1089-1116.  The edges
entering the vertex and the holonomies are left out.  `last` is the last edge collected. -/
def ccwLoop [DecidableEq L] (S : RSurf L K) (start : L × ℕ) : ℕ → L × ℕ → Except Err (List (L × ℕ))
  | 0, _ => .error .outOfFuel
  | fuel + 1, last => do
    match ← S.rotateCcw last with
    | none => if (← S.opp start.1 start.2).isSome then throw .valueError else return [last]
    | some enter => if enter = start then return [last] else return last :: (← S.ccwLoop start fuel enter)

/-- `edges_ccw(start_edge)[::2]` at a vertex, categories/similarity_surfaces.py 1033-1118. -/
def edgesCcw [DecidableEq L] (S : RSurf L K) (fuel : ℕ) (start : L × ℕ) : Except Err (List (L × ℕ)) := S.ccwLoop start fuel start

/-- The loop over the edges at a vertex, homology.py 209-218.  The state is `(intersection, counter, other_counter)`. -/
def crossLoop (S : RSurf L K) (m o : L × ℕ → R) : R × R × R → List (L × ℕ) → Except Err (R × R × R)
  | st, [] => .ok st
  | (i, c, oc), d :: ds => do
    let opp ← S.opp! d.1 d.2
    let c' := c + m d
    S.crossLoop m o (i + c' * o d - c' * o opp, c' - m opp, oc + o d - o opp) ds

/-- The loop over the vertices, homology.py 205-223.  The vertices form a set, so they come in any order, and each starts with any of its
edges: `starts` are these edges. -/
def intersectionLoop [DecidableEq L] [DecidableEq R] (S : RSurf L K) (fuel : ℕ) (m o : L × ℕ → R) : R → List (L × ℕ) → Except Err R
  | i, [] => .ok i
  | i, d :: ds => do
    let es ← S.edgesCcw fuel d
    let st ← S.crossLoop m o (i, 0, 0) es
    if st.2.1 ≠ 0 then throw .typeError
    if st.2.2 ≠ 0 then throw .valueError
    S.intersectionLoop fuel m o st.1 ds

/-- `algebraic_intersection(other)`, homology.py 147-225, for chains given by their coefficients. -/
def algebraicIntersection [DecidableEq L] [DecidableEq R] (S : RSurf L K) (fuel : ℕ) (starts : List (L × ℕ)) (m o : L × ℕ → R) :
    Except Err R := S.intersectionLoop fuel m o 0 starts

end RSurf
end Flat
