import Verif.Model.HomologyGroup
import Mathlib.LinearAlgebra.Matrix.NonsingularInverse

/-!
# Model of symplectic bases of homology
-/

namespace Flat
namespace RSurf
variable {L K : Type} [Field K] [LinearOrder K] [IsStrictOrderedRing K] [DecidableEq L] {R : Type} [CommRing R] [DecidableEq R]

/-- The matrix of the intersections of generators, homology.py 1143-1146, by rows. -/
def intersectionRows (S : RSurf L K) (fuel : ℕ) (starts : List (L × ℕ)) (gens : List (L × ℕ → R)) : Except Err (List (List R)) :=
  gens.mapM fun g => gens.mapM fun h => S.algebraicIntersection fuel starts g h

/-- `symplectic_basis()`, homology.py 1119-1165.  The function `sage` is the call of `symplectic_basis_over_field` or of
`symplectic_basis_over_ZZ`, which returns the matrices `F` and `C` by rows. -/
def symplecticBasis (S : RSurf L K) (fuel : ℕ) (starts : List (L × ℕ)) (sage : List (List R) → List (List R) × List (List R)) (gens : List (L × ℕ → R)) :
    Except Err (List (L × ℕ → R)) := do
  let E ← S.intersectionRows fuel starts gens
  let FC := sage E
  if FC.1.any fun row => row.any fun entry => entry ∉ [-1, 0, 1] then throw .notImplemented
  return FC.2.map fun row => ((row.zip gens).map fun cg => cg.1 • cg.2).sum

/-- The matrix with the given rows. -/
def ofRows (n : ℕ) (M : List (List R)) : Matrix (Fin n) (Fin n) R := Matrix.of fun i j => (M.getD i []).getD j 0

/-- What the documentation of Sage says about the matrices that `symplectic_basis_over_field` and `symplectic_basis_over_ZZ` return for a matrix `E`
that is alternating: the rows of `C` are a basis `e_1, …, e_k, f_1, …, f_k, z_1, …, z_l` of all vectors, and `F = C E C^t` is the matrix of the form `E` in this
basis; all entries are zero except for `e_i·f_i = d_i = - f_i·e_i`.  Over fields, `d_i = 1`, over the integers, `d_i > 0`. -/
structure IsSymplecticForm (normal : R → Prop) (n : ℕ) (E F C : List (List R)) : Prop where
  rowsF : F.length = n ∧ ∀ row ∈ F, row.length = n
  rowsC : C.length = n ∧ ∀ row ∈ C, row.length = n
  basis : IsUnit (ofRows n C)
  form : ofRows n F = ofRows n C * ofRows n E * (ofRows n C).transpose
  symplectic : ∃ (k : ℕ) (d : ℕ → R), (∀ a, a < k → d a ≠ 0 ∧ normal (d a)) ∧ ∀ a b : Fin n, ofRows n F a b =
    if a.1 < k ∧ b.1 = a.1 + k then d a.1 else if b.1 < k ∧ a.1 = b.1 + k then - d b.1 else 0

end RSurf
end Flat
