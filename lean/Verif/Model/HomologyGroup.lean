import Verif.Model.Topology
import Mathlib.LinearAlgebra.Matrix.ToLin
import Mathlib.LinearAlgebra.Quotient.Basic

/-!
# Model of homology groups

`SimplicialHomologyGroup` of `flatsurf/geometry/homology.py`.  The matrices of the boundary maps are computed as in the code; kernels, images
and quotients, for which the code calls the linear algebra of Sage, are those of Mathlib.
-/

namespace Flat
namespace RSurf
variable {L K : Type} [Field K] [LinearOrder K] [IsStrictOrderedRing K] [DecidableEq L] {R : Type} [CommRing R]

/-- `vertices()`, categories/polygonal_surfaces.py 1282-1306.  Python returns a set. -/
def vertices (S : RSurf L K) (fuel : ℕ) (ls : List L) : Except Err (List (Finset (L × Vec K))) := do
  let es ← S.edges ls
  return (← es.mapM (S.surfaceVertex fuel)).dedup

/-- `simplices()` in degree 0, homology.py 682-687. -/
def simplices0 (S : RSurf L K) (fuel : ℕ) (rel : Finset (Finset (L × Vec K))) (ls : List L) : Except Err (List (Finset (L × Vec K))) := do
  return (← S.vertices fuel ls).filter (· ∉ rel)

/-- The rows of the matrix of the boundary in degree 1, homology.py 821-844. -/
def chainRows1 (S : RSurf L K) (R : Type) [CommRing R] (fuel : ℕ) (rel : Finset (Finset (L × Vec K))) (sx : List (L × ℕ)) (vx : List (Finset (L × Vec K))) :
    Except Err (List (List R)) :=
  sx.mapM fun d => do
    let b ← S.boundary1 fuel rel [(d, (1 : R))]
    return vx.map b

/-- The rows of the matrix of the boundary in degree 2, homology.py 821-844. -/
def chainRows2 (S : RSurf L K) (R : Type) [CommRing R] (ls : List L) (sx : List (L × ℕ)) : Except Err (List (List R)) :=
  ls.mapM fun l => do
    let b ← S.boundary2 sx [(l, (1 : R))]
    return sx.map b

/-- Multiplication of row vectors with a matrix that is given by its rows. -/
def rowMap (M : List (List R)) (n m : ℕ) : (Fin n → R) →ₗ[R] (Fin m → R) :=
  (Matrix.of fun (i : Fin n) (j : Fin m) => (M.getD i []).getD j 0).vecMulLinear

/-- `cycles.quotient(boundaries)` in degree 1, homology.py 881-885, for matrices with `n₂`, `n₁`, `n₀` simplices. -/
abbrev Homology1 (M1 M2 : List (List R)) (n₂ n₁ n₀ : ℕ) : Type :=
  LinearMap.ker (rowMap M1 n₁ n₀) ⧸ (LinearMap.range (rowMap M2 n₂ n₁)).submoduleOf (LinearMap.ker (rowMap M1 n₁ n₀))

/-- `cycles.quotient(boundaries)` in degree 0, homology.py 881-885: the boundary in degree 0 is zero. -/
abbrev Homology0 (M1 : List (List R)) (n₁ n₀ : ℕ) : Type := (Fin n₀ → R) ⧸ LinearMap.range (rowMap M1 n₁ n₀)

/-- `cycles.quotient(boundaries)` in degree 2, homology.py 881-885: the boundary in degree 3 is zero. -/
abbrev Homology2 (M2 : List (List R)) (n₂ n₁ : ℕ) : Type := LinearMap.ker (rowMap M2 n₂ n₁)

/-- `dict(self._chain)`, homology.py 205-206, of the chain with the given vector of coefficients, i.e., `F.from_vector`, homology.py 900. -/
def chainOf (sx : List (L × ℕ)) (x : Fin sx.length → R) (d : L × ℕ) : R := ∑ i : Fin sx.length, if sx[i] = d then x i else 0

end RSurf
end Flat
