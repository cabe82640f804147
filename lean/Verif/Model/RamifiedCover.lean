import Mathlib.Algebra.Group.End
import Mathlib.Data.Fintype.Basic
import Verif.Model.Lazy

/-!
# Model of `ramified_cover` of `flatsurf/geometry/categories/similarity_surfaces.py`

The sheets `1, ..., d` are the elements of `Fin d`.  Not modelled: the conversion of the permutations, lines 3312-3314 (which also writes them into the dictionary of the
caller).
-/

namespace Flat
namespace RSurf
variable {L K : Type} [DecidableEq L] [Field K] [LinearOrder K] [IsStrictOrderedRing K] {d : ℕ}

/-- `cover_labels[x]` -/
def coverLabel (D : Dict (L × Fin d) ℕ) (x : L × Fin d) : Except Err ℕ :=
  match D.get x with
  | none => .error .keyError
  | some n => .ok n

/-- The copies of the polygons are added to the cover, lines 3319-3322. -/
def coverAdd (S : RSurf L K) : List (L × Fin d) → Act ℕ (Poly K) (Dict (L × Fin d) ℕ)
  | [] => pure []
  | x :: xs => do
    let p ← liftE (S.polygon x.1)
    let n ← MSurf.addPolygon p none
    let D ← coverAdd S xs
    pure ((x, n) :: D)

/-- The permutation for an edge, lines 3327-3335. -/
def coverPerm (data : Dict (L × ℕ) (Equiv.Perm (Fin d))) (x y : L × ℕ) : Except Err (Equiv.Perm (Fin d)) :=
  match data.get x, data.get y with
  | some s, some t => if s * t = 1 then .ok s else .error .valueError
  | some s, none => .ok s
  | none, some t => .ok t⁻¹
  | none, none => .ok 1

/-- Gluing the copies of an edge, lines 3337-3340; both labels are labels of copies of the polygon `lab`. -/
def coverGlue (D : Dict (L × Fin d) ℕ) (lab : L) (e ee : ℕ) (s : Equiv.Perm (Fin d)) : List (Fin d) → Act ℕ (Poly K) Unit
  | [] => pure ()
  | i :: is => do
    let p0 ← liftE (coverLabel D (lab, i))
    let p1 ← liftE (coverLabel D (lab, s i))
    MSurf.glue (p0, (e : Int)) (p1, (ee : Int))
    coverGlue D lab e ee s is

/-- The loop over the edges, lines 3323-3340; the set `edges` is the list of the edges in the order in which `pop()` returns them.  (`fuel` is the number of edges.) -/
def coverLoop (S : RSurf L K) (D : Dict (L × Fin d) ℕ) (data : Dict (L × ℕ) (Equiv.Perm (Fin d))) : ℕ → List (L × ℕ) → Act ℕ (Poly K) Unit
  | _, [] => pure ()
  | 0, _ :: _ => throw .outOfFuel
  | fuel + 1, x :: edges => do
    let y ← liftE (S.opp! x.1 x.2)
    if y ∉ edges then throw .keyError
    else
      let s ← liftE (coverPerm data x y)
      coverGlue D x.1 x.2 y.2 s (List.finRange d)
      coverLoop S D data fuel (edges.erase y)

/-- `(lab, i)` in the order in which the copies are added, lines 3320-3321. -/
def coverSheets (labels : List L) : List (L × Fin d) := (List.finRange d).flatMap (fun i => labels.map (fun l => (l, i)))

/-- `ramified_cover(d, data)`, lines 3277-3342, run on a new surface; the result is the dictionary `cover_labels`. -/
def ramifiedCover (S : RSurf L K) (labels : List L) (edges : List (L × ℕ)) (data : Dict (L × ℕ) (Equiv.Perm (Fin d))) :
    Act ℕ (Poly K) (Dict (L × Fin d) ℕ) := do
  let D ← coverAdd S (coverSheets labels)
  coverLoop S D data edges.length edges
  MSurf.setImmutable
  pure D

end RSurf
end Flat
