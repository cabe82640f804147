import Verif.Model.Dict
import Mathlib.Data.Int.Basic
import Mathlib.Logic.Function.Basic

/-!
# The spanning tree and the projection of `GL2ROrbitClosure`

`flatsurf/geometry/gl2r_orbit_closure.py`, lines 153-200, 336-344, 377-439, 503-589 and 657-701.  The triangulation of `libflatsurf` is given by the number of its edges and
the function `nextInFace`; half-edges are their indices, so that the half-edges of the edge `i` are `2 i` and `2 i + 1`.
-/

namespace Flat

/-- A triangulation: the number of edges (`size`) and `nextInFace` on half-edges. -/
structure FlatTri where
  size : ℕ
  next : ℕ → ℕ

namespace FlatTri

/-- `-h` for a half-edge. -/
def neg (h : ℕ) : ℕ := if h % 2 = 0 then h + 1 else h - 1

/-- `h.edge().index()`. -/
def edge (h : ℕ) : ℕ := h / 2

/-- The signs `s1`, `s2`, `s3`, lines 574-581. -/
def sgn (h : ℕ) : ℤ := if h % 2 ≠ 0 then -1 else 1

/-- `_half_edge_to_face`, lines 336-344. -/
def face (T : FlatTri) (h : ℕ) : ℕ := min h (min (T.next h) (T.next (T.next h)))

/-- The dictionary `t`, the list `todo` (written from its end) and the list `edges`, lines 554-556. -/
structure Search where
  t : Dict ℕ (Option ℕ)
  todo : List ℕ
  edges : List ℕ

/-- The body of the loop over the half-edges of a face, lines 560-565. -/
def visit (T : FlatTri) (f : ℕ) (s : Search) : Search :=
  if s.t.has (T.face (neg f)) = false then
    ⟨s.t.set (T.face (neg f)) (some (neg f)), T.face (neg f) :: s.todo, s.edges ++ [neg f]⟩
  else s

/-- The loop `while todo`, lines 557-567. -/
def search (T : FlatTri) : ℕ → Search → Except Err Search
  | 0, _ => .error .outOfFuel
  | k + 1, s =>
    match s.todo with
    | [] => .ok s
    | f :: todo => search T k (T.visit (T.next (T.next f)) (T.visit (T.next f) (T.visit f ⟨s.t, todo, s.edges⟩)))

/-- The rows of the matrix `proj`. -/
abbrev Rows := ℕ → ℕ → ℤ

/-- The body of the reduction, lines 573-587. -/
def reduceRow (T : FlatTri) (proj : Rows) (f1 : ℕ) : Except Err Rows :=
  let f2 := T.next f1
  let f3 := T.next f2
  if T.next f3 ≠ f1 then .error .assertionError
  else
    let proj := Function.update proj (edge f1) (fun k => -sgn f1 * (sgn f2 * proj (edge f2) k + sgn f3 * proj (edge f3) k))
    if (List.range T.size).all (fun j => decide (proj j (edge f1) = 0)) then .ok proj else .error .assertionError

/-- The reduction, lines 572-587. -/
def reduceRows (T : FlatTri) : List ℕ → Rows → Except Err Rows
  | [], proj => .ok proj
  | f :: fs, proj => do
    let proj ← T.reduceRow proj f
    reduceRows T fs proj

/-- `_spanning_tree` for the default root, the positive half-edge of the first edge, lines 550-589. -/
def spanningTree (T : FlatTri) (fuel : ℕ) : Except Err (Dict ℕ (Option ℕ) × Rows) := do
  let root := T.face 0
  let s ← T.search fuel ⟨[(root, none)], [root], []⟩
  let proj ← T.reduceRows s.edges.reverse (fun i j => if i = j then 1 else 0)
  pure (s.t, proj)

/-- The beginning of `__init__`, lines 177-195: the indices of the edges in `spanning_set`, and the rows of `proj`.  The assertions about the names of the faces in
`libflatsurf` and about the rank of the matrix are left out. -/
def spanningSet (T : FlatTri) (fuel : ℕ) : Except Err (List ℕ × List (ℕ → ℤ)) := do
  let (t, m) ← T.spanningTree fuel
  let v := t.map Prod.snd
  let set := (List.range T.size).filter (fun e => decide (some (2 * e) ∉ v ∧ some (2 * e + 1) ∉ v))
  if (3 * set.length : ℤ) - 3 ≠ T.size then .error .assertionError
  else
    let rows := (List.range T.size).filter (fun i => (List.range T.size).any (fun j => decide (m j i ≠ 0)))
    pure (set, rows.map (fun i j => m j i))

/-- An entry of `boundaries`, lines 684-699, for the face with the half-edges `f1`, `f2`, `f3`. -/
def boundary (f1 f2 f3 : ℕ) : ℕ → ℤ :=
  Function.update (Function.update (Function.update (fun _ => 0) (edge f1) 1) (edge f2) (sgn f1 * sgn f2)) (edge f3) (sgn f1 * sgn f3)

/-- `boundaries()`, lines 657-701; the faces are given by one half-edge each. -/
def boundaries (T : FlatTri) (faces : List ℕ) : List (ℕ → ℤ) := faces.map (fun f => boundary f (T.next f) (T.next (T.next f)))

/-- `lift`, lines 418-439; `solve` is `solve_right` of matrices, given by their rows. -/
def lift {K : Type} [Zero K] (T : FlatTri) (set faces : List ℕ) (solve : List (ℕ → ℤ) → List K → Option (ℕ → K)) (v : List K) : Except Err (ℕ → K) :=
  let bdry := T.boundaries faces
  if set.length + bdry.length ≠ T.size + 1 then .error .assertionError
  else if v.length ≠ set.length then .error .valueError
  else
    match solve (set.map (fun e j => if e = j then 1 else 0) ++ bdry) (v ++ List.replicate bdry.length 0) with
    | some x => .ok x
    | none => .error .valueError

end FlatTri
end Flat
