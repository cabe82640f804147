import Verif.Model.Doubles

/-!
# Model of the Thurston-Veech construction

`flatsurf/geometry/thurston_veech.py`.  The rectangles are numbered from 0 to `n - 1`, as the squares of the origami of the library
`surface_dynamics`.  The cycles of permutations (`perm_dense_cycles` of that library) are parameters: `hcycles[i]` is the number of the cycle of
the `i`-th square, there are `numH` of them.  The largest root of the characteristic polynomial and the only row of the kernel matrix
are parameters `pf` and `kernel` as well, since they come from Sage.
-/

namespace Flat
namespace MSurf
variable {K : Type} [Field K] [LinearOrder K]

/-- The matrix `E`, thurston_veech.py 86-88: the number of squares in the horizontal cylinder `i` and in the vertical cylinder `j`. -/
def tvE (n : ℕ) (hcycles vcycles : ℕ → ℕ) (i j : ℕ) : ℕ := (List.range n).countP fun k => hcycles k = i ∧ vcycles k = j

/-- The matrix `H = E * diagonal_matrix(vmult)`, thurston_veech.py 118. -/
def tvH (n : ℕ) (hcycles vcycles : ℕ → ℕ) (vmult : ℕ → K) (i j : ℕ) : K := tvE n hcycles vcycles i j * vmult j

/-- The matrix `V = E.transpose() * diagonal_matrix(hmult)`, thurston_veech.py 119. -/
def tvV (n : ℕ) (hcycles vcycles : ℕ → ℕ) (hmult : ℕ → K) (j i : ℕ) : K := tvE n hcycles vcycles i j * hmult i

/-- The product of a matrix and a vector. -/
def tvMulVec (m : ℕ) (A : ℕ → ℕ → K) (x : ℕ → K) (i : ℕ) : K := ((List.range m).map fun j => A i j * x j).sum

/-- The product of matrices. -/
def tvMul (m : ℕ) (A B : ℕ → ℕ → K) (i j : ℕ) : K := ((List.range m).map fun k => A i k * B k j).sum

/-- The matrix `F`, thurston_veech.py 121-124. -/
def tvF (n numH numV : ℕ) (hcycles vcycles : ℕ → ℕ) (hmult vmult : ℕ → K) : ℕ → ℕ → K :=
  if numH < numV then tvMul numV (tvH n hcycles vcycles vmult) (tvV n hcycles vcycles hmult)
  else tvMul numH (tvV n hcycles vcycles hmult) (tvH n hcycles vcycles vmult)

/-- The heights `h` of the horizontal cylinders, the widths `v` of the vertical cylinders, and the numbers `c` and `d`,
thurston_veech.py 114-115 and 140-161.  A division by zero raises. -/
def tvDims (n numH numV : ℕ) (hcycles vcycles : ℕ → ℕ) (hmult vmult : List K) (pf : K) (kernel : ℕ → K) : Except Err ((ℕ → K) × (ℕ → K) × K × K) :=
  if hmult.length ≠ numH ∨ vmult.length ≠ numV then .error .valueError
  else
    let hm := fun i => hmult.getD i 0
    let vm := fun j => vmult.getD j 0
    if numH < numV then
      if ¬ ∀ i < numH, 0 < kernel i then .error .assertionError
      else
        let vcirc := tvMulVec numH (tvV n hcycles vcycles hm) kernel
        if pf = 0 then .error .valueError
        else .ok (fun i => kernel i * hm i / 1, fun j => vcirc j * vm j / pf, 1, pf)
    else
      if ¬ ∀ j < numV, 0 < kernel j then .error .assertionError
      else
        let hcirc := tvMulVec numV (tvH n hcycles vcycles vm) kernel
        if pf = 0 then .error .valueError
        else .ok (fun i => hcirc i * hm i / pf, fun j => kernel j * vm j / 1, pf, 1)

/-- The polygons `P`, thurston_veech.py 165-169. -/
def tvPolygons (n : ℕ) (hcycles vcycles : ℕ → ℕ) (h v : ℕ → K) : Except Err (List (Poly K)) :=
  (List.range n).mapM fun i => Poly.ofEdges [(v (vcycles i), 0), (0, h (hcycles i)), (-v (vcycles i), 0), (0, -h (hcycles i))]

/-- Adding polygons to a surface, which picks the labels, thurston_veech.py 173-175. -/
def addPolys : List (Poly K) → Act ℕ (Poly K) Unit
  | [] => pure ()
  | p :: ps => do
    let _ ← addPolygon p none
    addPolys ps

/-- The pairs of edges that are glued, thurston_veech.py 176-180. -/
def tvPairs (n : ℕ) (r u : ℕ → ℕ) : List ((ℕ × Int) × (ℕ × Int)) :=
  (List.range n).flatMap fun i => [((i, 1), (r i, 3)), ((i, 0), (u i, 2))]

/-- `ThurstonVeech(hp, vp)(hmult, vmult)`, thurston_veech.py 106-182: an action on an empty surface. -/
def thurstonVeech (n numH numV : ℕ) (r u hcycles vcycles : ℕ → ℕ) (hmult vmult : List K) (pf : K) (kernel : ℕ → K) : Act ℕ (Poly K) Unit := do
  let dims ← liftE (tvDims n numH numV hcycles vcycles hmult vmult pf kernel)
  let ps ← liftE (tvPolygons n hcycles vcycles dims.1 dims.2.1)
  addPolys ps
  gluePairs (tvPairs n r u)
  setImmutable

end MSurf
end Flat
