import Verif.Model.SurfaceOps
import Mathlib.Algebra.Group.Pi.Basic
import Mathlib.Algebra.Group.Prod
import Mathlib.Data.Rat.Defs

/-!
# The Kenyon-Smillie J-invariant

`j_invariant` of polygons, categories/euclidean_polygons.py 2222-2373, and of translation surfaces, categories/translation_surfaces.py 479-504.
Vectors and matrices are functions of their indices; the entry of a wedge product for the pair `i < j` has the index `(i, j)`.
-/

namespace Flat

/-- What is used of the number field: whether it is `QQ`, its degree, and `to_V`, the coordinates of its elements; euclidean_polygons.py
2275-2288. -/
structure Coords (K : Type) where
  isQQ : Bool
  degree : ℕ
  toV : K → ℕ → ℚ

/-- The triples `(Jxx, Jyy, Jxy)`. -/
abbrev JInv := (ℕ → ℕ → ℚ) × (ℕ → ℕ → ℚ) × (ℕ → ℕ → ℚ)

/-- `_wedge_product(v, w)`, euclidean_polygons.py 2306-2342. -/
def wedgeProduct (d : ℕ) (v w : ℕ → ℚ) : ℕ → ℕ → ℚ := fun i j => if i < j ∧ j < d then v i * w j - v j * w i else 0

/-- `_tensor_product(u, v)`, euclidean_polygons.py 2344-2373, the entry in row `j` and column `i`. -/
def tensorProduct (d : ℕ) (u v : ℕ → ℚ) : ℕ → ℕ → ℚ := fun j i => if j < d ∧ i < d then u i * v j else 0

namespace Poly
variable {K : Type} [Field K] [LinearOrder K]

/-- The body of the loop over the edges, euclidean_polygons.py 2294-2302. -/
def jStep (N : Coords K) (p : Poly K) (J : JInv) (i : ℕ) : JInv :=
  let a := N.toV (p.vertex i).1
  let b := N.toV (p.vertex i).2
  let c := N.toV (p.vertex (i + 1)).1
  let d := N.toV (p.vertex (i + 1)).2
  (J.1 + wedgeProduct N.degree a c, J.2.1 + wedgeProduct N.degree b d,
    J.2.2 + tensorProduct N.degree a d - tensorProduct N.degree c b)

/-- `j_invariant()`, euclidean_polygons.py 2222-2304.  The method is defined in the category of convex polygons only, other polygons do not
have it. -/
def jInvariant (N : Coords K) (p : Poly K) : Except Err JInv :=
  if p.isConvex false = false then .error .attributeError
  else if N.isQQ then .error .notImplemented
  else .ok ((List.range p.length).foldl (p.jStep N) 0)

end Poly

namespace MSurf
variable {L K : Type} [LinearOrder L] [Field K] [LinearOrder K]

/-- The loop over the remaining labels, translation_surfaces.py 499-503. -/
def jLoop (N : Coords K) (s : MSurf L (Poly K)) : List L → JInv → Except Err JInv
  | [], J => .ok J
  | l :: ls, J => do
    let p ← s.polygon l
    let x ← p.jInvariant N
    jLoop N s ls (J.1 + x.1, J.2.1 + x.2.1, J.2.2 + x.2.2)

/-- `j_invariant()`, translation_surfaces.py 479-504.  (For a surface without polygons `next` raises `StopIteration`.) -/
def jInvariant (N : Coords K) (s : MSurf L (Poly K)) : Except Err JInv := do
  match ← s.labels with
  | [] => .error .indexError
  | l :: ls =>
    let p ← s.polygon l
    let x ← p.jInvariant N
    jLoop N s ls x

end MSurf
end Flat
