import Verif.Model.Lazy

/-!
# Model of the checks that determine the category of a surface

`_is_translation_surface`, `_is_dilation_surface` and `_is_cone_surface` of `flatsurf/geometry/categories/{translation,dilation,cone}_surfaces.py`, and
`is_translation_surface`, `is_dilation_surface`, `is_cone_surface` and `refined_category` of `flatsurf/geometry/categories/similarity_surfaces.py`.  Not
modelled: the deprecated keyword `limit`, the check that the surface is oriented, the check for rational angles, and the overrides in surfaces whose category is known
already.
-/

namespace Flat
namespace RSurf
variable {L K : Type} [DecidableEq L] [Field K] [LinearOrder K] [IsStrictOrderedRing K]

/-- The inner loop over the edges of a polygon, translation_surfaces.py 186-217, dilation_surfaces.py 268-294, cone_surfaces.py 193-215.  The result is `none` if the
method returns `False` and the set of edges that have been checked otherwise. -/
def checkEdges (S : RSurf L K) (test : Mat2 K → Bool) (l : L) : List ℕ → List (L × ℕ) → Except Err (Option (List (L × ℕ)))
  | [], checked => .ok (some checked)
  | e :: es, checked =>
    match S.opp l e with
    | .error x => .error x
    | .ok none => checkEdges S test l es checked
    | .ok (some cross) =>
      if cross ∈ checked then checkEdges S test l es checked
      else
        match S.edgeMatrix l e with
        | .error x => .error x
        | .ok m => if test m then checkEdges S test l es ((l, e) :: checked) else .ok none

/-- The outer loop over the labels, translation_surfaces.py 185-219, dilation_surfaces.py 267-296, cone_surfaces.py 192-217. -/
def checkLabels (S : RSurf L K) (test : Mat2 K → Bool) : List L → List (L × ℕ) → Except Err Bool
  | [], _ => .ok true
  | l :: ls, checked =>
    match S.polygon l with
    | .error x => .error x
    | .ok p =>
      match checkEdges S test l (List.range p.length) checked with
      | .error x => .error x
      | .ok none => .ok false
      | .ok (some checked') => checkLabels S test ls checked'

/-- `matrix.is_diagonal()` -/
def isDiagonal (m : Mat2 K) : Bool := decide (m.b = 0 ∧ m.c = 0)

/-- The conditions in translation_surfaces.py 207-217. -/
def translationTest (positive : Bool) (m : Mat2 K) : Bool :=
  if !isDiagonal m then false
  else if m.a = 1 ∧ m.d = 1 then true
  else if m.a = -1 ∧ m.d = -1 ∧ !positive then true
  else false

/-- The conditions in dilation_surfaces.py 289-294. -/
def dilationTest (positive : Bool) (m : Mat2 K) : Bool :=
  if !isDiagonal m then false
  else if positive && decide (m.a < 0 ∨ m.d < 0) then false
  else true

/-- The condition in cone_surfaces.py 214-215: the matrix times its transpose is the identity. -/
def coneTest (m : Mat2 K) : Bool :=
  decide (m.mul ⟨m.a, m.c, m.b, m.d⟩ = Mat2.one)

/-- `is_translation_surface(positive)`, similarity_surfaces.py 363-367. -/
def isTranslationSurface (S : RSurf L K) (labels : List L) (positive : Bool) : Except Err Bool :=
  S.checkLabels (translationTest positive) labels []

/-- `is_dilation_surface(positive)`, similarity_surfaces.py 312-319. -/
def isDilationSurface (S : RSurf L K) (labels : List L) (positive : Bool) : Except Err Bool := do
  if ← S.isTranslationSurface labels positive then pure true
  else S.checkLabels (dilationTest positive) labels []

/-- `is_cone_surface()`, similarity_surfaces.py 273-278. -/
def isConeSurface (S : RSurf L K) (labels : List L) : Except Err Bool := do
  if ← S.isTranslationSurface labels true then pure true
  else S.checkLabels coneTest labels []

/-- The categories that `refined_category()` may add. -/
structure Cats where
  cone : Bool
  dilation : Bool
  positiveDilation : Bool
  translation : Bool
  halfTranslation : Bool
deriving DecidableEq

/-- `refined_category()`, similarity_surfaces.py 211-237. -/
def refinedCategory (S : RSurf L K) (labels : List L) : Except Err Cats := do
  let cone ← S.isConeSurface labels
  if ← S.isDilationSurface labels false then
    if ← S.isDilationSurface labels true then
      if ← S.isTranslationSurface labels true then pure ⟨cone, true, true, true, false⟩
      else pure ⟨cone, true, true, false, false⟩
    else if ← S.isTranslationSurface labels false then pure ⟨cone, true, false, false, true⟩
    else pure ⟨cone, true, false, false, false⟩
  else pure ⟨cone, false, false, false, false⟩

end RSurf
end Flat
