import Verif.Model.Lazy

/-!
# Model of `flatsurf/geometry/fundamental_group.py`
-/

namespace Flat

/-- A `Path`, lines 71-85: the polygons that are run through, the edges through which they are left and the edges through which the next ones are entered.
(The parent, that is the surface and the base polygon, is an argument of the functions below.) -/
structure FPath (L : Type) where
  polys : List L
  edges : List ℕ
  rev : List ℕ
deriving DecidableEq

namespace FPath
variable {L K : Type} [DecidableEq L]

/-- `__init__` and `_check`, lines 76-85 and 148-155, of an element of the group with base polygon `b`.  (`_reduce` does nothing.) -/
def make (b : L) (P : FPath L) : Except Err (FPath L) :=
  if ¬ (P.polys.length = P.edges.length + 1 ∧ P.edges.length = P.rev.length) then .error .valueError
  else if P.polys.head? = some b ∧ P.polys.getLast? = some b then .ok P
  else .error .assertionError

/-- `__eq__`, lines 106-125. -/
def eq (P Q : FPath L) : Bool := P.polys = Q.polys ∧ P.edges = Q.edges

/-- `is_one`, lines 157-158. -/
def isOne (P : FPath L) : Bool := P.edges.isEmpty

/-- The number of cancellations, lines 186-188; the first argument is `self._edges` in reversed order. -/
def cancel : List ℕ → List ℕ → ℕ
  | a :: as, b :: bs => if a = b then cancel as bs + 1 else 0
  | _, _ => 0

/-- `_mul_`, lines 165-196. -/
def mul (b : L) (P Q : FPath L) : Except Err (Option (FPath L)) :=
  if P.polys.getLast? ≠ Q.polys.head? then .ok none
  else
    let i := cancel P.edges.reverse Q.rev
    match make b ⟨P.polys.take (P.polys.length - i) ++ Q.polys.drop (i + 1), P.edges.take (P.edges.length - i) ++ Q.edges.drop i,
      P.rev.take (P.rev.length - i) ++ Q.rev.drop i⟩ with
    | .error e => .error e
    | .ok R => .ok (some R)

/-- `__invert__`, lines 198-214. -/
def invert (b : L) (P : FPath L) : Except Err (FPath L) := make b ⟨P.polys.reverse, P.rev.reverse, P.edges.reverse⟩

/-- `one`, lines 347-349. -/
def one (b : L) : Except Err (FPath L) := make b ⟨[b], [], []⟩

/-- The loop of `_element_constructor_`, lines 335-341; the result are the entries that are appended to the lists. -/
def follow (S : RSurf L K) : L → List Int → Except Err (List L × List ℕ × List ℕ)
  | _, [] => .ok ([], [], [])
  | p, a :: as => do
    let P ← S.polygon p
    let i := (a % P.length).toNat
    let (q, j) ← S.opp! p i
    let (ps, es, rs) ← follow S q as
    pure (q :: ps, i :: es, j :: rs)

/-- `_element_constructor_`, lines 310-342. -/
def ofEdges (S : RSurf L K) (b : L) (as : List Int) : Except Err (FPath L) := do
  let (ps, es, rs) ← follow S b as
  make b ⟨b :: ps, es, rs⟩

/-- The function `intersection`, lines 31-68. -/
def cross (i0 j0 i1 j1 : ℕ) : ℤ :=
  if i0 ≤ j0 then (if i0 ≤ i1 ∧ i1 ≤ j0 then 1 else 0) - (if i0 ≤ j1 ∧ j1 ≤ j0 then 1 else 0)
  else (if j0 < j1 ∧ j1 < i0 then 1 else 0) - (if j0 < i1 ∧ i1 < i0 then 1 else 0)

/-- The loop of `_poly_cross_dict`, lines 96-100, as a list of triples (polygon, edge where it is entered, edge where it is left). -/
def innerCross : List L → List ℕ → List ℕ → List (L × ℕ × ℕ)
  | p :: ps, r :: rs, e :: es => (p, r, e) :: innerCross ps rs es
  | _, _, _ => []

/-- `_poly_cross_dict`, lines 93-101. -/
def crossings (P : FPath L) : Except Err (List (L × ℕ × ℕ)) :=
  match P.polys, P.rev.getLast?, P.edges with
  | p :: ps, some r, e :: es => .ok ((p, r, e) :: innerCross ps P.rev es)
  | _, _, _ => .error .indexError

/-- The sum over the crossings of one polygon, lines 284-287. -/
def crossSum (xs ys : List (L × ℕ × ℕ)) (p : L) : ℤ :=
  ((xs.filter (fun x => x.1 = p)).map (fun x => ((ys.filter (fun y => y.1 = p)).map (fun y => cross x.2.1 x.2.2 y.2.1 y.2.2)).sum)).sum

/-- `intersection`, lines 216-288; `labels` are the labels of the surface. -/
def intersection (labels : List L) (P Q : FPath L) : Except Err ℤ := do
  let xs ← P.crossings
  let ys ← Q.crossings
  pure ((labels.map (crossSum xs ys)).sum)

end FPath
end Flat
