import Verif.Model.FundamentalGroup

/-!
# Generators of the fundamental group

`FundamentalGroup.gens`, `flatsurf/geometry/fundamental_group.py`, lines 351-418.
-/

namespace Flat
namespace FPath
variable {L K : Type} [LinearOrder L] [Field K] [LinearOrder K] [IsStrictOrderedRing K]

/-- The dictionary `tree`, line 367: the parent of a polygon, the edge to the parent, and the edge of the parent; the root has no parent. -/
abbrev Tree (L : Type) := Dict L (Option (L × ℕ × ℕ))

/-- An entry `(p1, e1, p2, e2)` of the list `wait`, lines 372-375. -/
abbrev Waiting (L : Type) := L × ℕ × L × ℕ

/-- The entries that are appended to `wait` for the given edges of a polygon, lines 373-375 and 413-416. -/
def waitFor (S : RSurf L K) (p : L) : List ℕ → Except Err (List (Waiting L))
  | [] => .ok []
  | e :: es => do
    let (pp, ee) ← S.opp! p e
    let rest ← waitFor S p es
    pure ((pp, ee, p, e) :: rest)

/-- The loops that follow the tree to its root, lines 386-391 and 401-406: the polygons, the edges towards the root, and the edges away from the root. -/
def climb (tree : Tree L) : ℕ → L → Except Err (List L × List ℕ × List ℕ)
  | 0, _ => .error .outOfFuel
  | k + 1, p =>
    match tree.get p with
    | none => .error .keyError
    | some none => .ok ([], [], [])
    | some (some (q, e, back)) => do
      let (ps, es, bs) ← climb tree k q
      pure (q :: ps, e :: es, back :: bs)

/-- Comparison of pairs `(p1, e1) > (p2, e2)`, line 380. -/
def pairGt (p1 : L) (e1 : ℕ) (p2 : L) (e2 : ℕ) : Bool := decide (p2 < p1) || (decide (p1 = p2) && decide (e2 < e1))

/-- The path that is added to `basis`, lines 382-408. -/
def treeCycle (tree : Tree L) (p1 : L) (e1 : ℕ) (p2 : L) (e2 : ℕ) : Except Err (FPath L) := do
  let (ps, es, bs) ← climb tree tree.length p1
  let (ps', es', bs') ← climb tree tree.length p2
  pure ⟨(p1 :: ps).reverse ++ p2 :: ps', bs.reverse ++ e1 :: es', es.reverse ++ e2 :: bs'⟩

/-- The loop of `gens`, lines 376-416.  The list `wait` is written from its end, since this is where `pop` takes from and `append` adds to. -/
def gensLoop (S : RSurf L K) : ℕ → Tree L → List (FPath L) → List (Waiting L) → Except Err (List (FPath L))
  | 0, _, _, _ => .error .outOfFuel
  | _ + 1, _, basis, [] => .ok basis
  | k + 1, tree, basis, (p1, e1, p2, e2) :: wait =>
    if tree.has p2 = false then .error .assertionError
    else if tree.has p1 then
      if pairGt p1 e1 p2 e2 then gensLoop S k tree basis wait
      else do
        let c ← treeCycle tree p1 e1 p2 e2
        gensLoop S k tree (basis ++ [c]) wait
    else do
      let P ← S.polygon p1
      let new ← waitFor S p1 ((List.range P.length).filter (fun e => decide (e ≠ e1)))
      gensLoop S k (tree.set p1 (some (p2, e1, e2))) basis (new.reverse ++ wait)

/-- `gens()`, lines 351-418; `sort` is the order of the sorted list. -/
def gens (S : RSurf L K) (b : L) (sort : List (FPath L) → List (FPath L)) (fuel : ℕ) : Except Err (List (FPath L)) := do
  let P ← S.polygon b
  let wait ← waitFor S b (List.range P.length)
  let basis ← gensLoop S fuel [(b, none)] [] wait.reverse
  (sort basis).mapM (make b)

end FPath
end Flat
