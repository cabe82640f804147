import Verif.Model.HomologyGroup
import Mathlib.LinearAlgebra.Basis.Basic

/-!
# Model of homology classes, cohomology classes and morphisms of homology groups

`SimplicialHomologyClass`, `SimplicialHomologyGroup.hom` and `SimplicialHomologyMorphism_base` with its subclasses of `flatsurf/geometry/homology.py`,
`SimplicialCohomologyClass` and `SimplicialCohomologyGroup` of `flatsurf/geometry/cohomology.py`, and the action of a morphism of surfaces on homology of
`flatsurf/geometry/morphism.py`.

A chain is the vector of its coefficients with respect to `simplices()`.  The quotient of the cycles by the boundaries, its generators and a lift are the
ones of Sage; the model takes any such choice.
-/

namespace Flat
open Module

/-- `_homology()`, homology.py 860-926: the cycles, the boundaries, the generators of the quotient (in Sage a basis, see C70) and the representatives that
Sage picks in `lift`, homology.py 889-897. -/
structure HGroup (R : Type) [CommRing R] where
  /-- The number of simplices, homology.py 640-644. -/
  n : ℕ
  /-- `cycles`, homology.py 883. -/
  Z : Submodule R (Fin n → R)
  /-- `boundaries`, homology.py 884. -/
  B : Submodule R (Fin n → R)
  /-- `ngens()`, homology.py 1087-1101. -/
  m : ℕ
  /-- `homology.gens()`. -/
  basis : Basis (Fin m) R (Z ⧸ B.submoduleOf Z)
  /-- `lift(x)`, homology.py 889-897. -/
  lift : (Z ⧸ B.submoduleOf Z) → Z
  lift_mk : ∀ x, (Submodule.Quotient.mk (lift x) : Z ⧸ B.submoduleOf Z) = x

namespace HGroup
variable {R : Type} [CommRing R] (G : HGroup R)

/-- The chain of a homology class. -/
abbrev Chain : Type := Fin G.n → R

open Classical in
/-- `coefficients()`, homology.py 250-266, with `_to_homology`, homology.py 904-915. -/
noncomputable def coefficients (x : G.Chain) : Except Err (Fin G.m → R) :=
  if h : x ∈ G.Z then .ok (G.basis.repr (Submodule.Quotient.mk ⟨x, h⟩)) else .error .valueError

open Classical in
/-- `_richcmp_` for `==`, homology.py 283-296, of two classes in the same group that are not the same object. -/
noncomputable def eq (x y : G.Chain) : Except Err Bool := do
  let a ← G.coefficients x
  let b ← G.coefficients y
  return decide (a = b)

open Classical in
/-- `__bool__`, homology.py 460-476. -/
noncomputable def bool (x : G.Chain) : Bool := decide (x ≠ 0)

/-- `_add_`, homology.py 394-408. -/
def add (x y : G.Chain) : G.Chain := x + y

/-- `_sub_`, homology.py 410-424. -/
def sub (x y : G.Chain) : G.Chain := x - y

/-- `_neg_`, homology.py 426-442. -/
def neg (x : G.Chain) : G.Chain := -x

/-- `_acted_upon_`, homology.py 227-247. -/
def scale (c : R) (x : G.Chain) : G.Chain := c • x

open Classical in
/-- `coefficient(gen)`, homology.py 361-392. -/
noncomputable def coefficient (x gen : G.Chain) : Except Err R := do
  let c ← G.coefficients gen
  match (List.finRange G.m).filter (fun i => c i ≠ 0) with
  | [i] => if c i ≠ 1 then throw .valueError else return (← G.coefficients x) i
  | _ => throw .valueError

/-- `from_homology`, homology.py 899-902, as a chain. -/
def fromHomology (x : G.Z ⧸ G.B.submoduleOf G.Z) : G.Chain := (G.lift x).1

/-- `gens()`, homology.py 1053-1085, for a degree between 0 and 2. -/
noncomputable def gens : List G.Chain := (List.finRange G.m).map fun i => G.fromHomology (G.basis i)

end HGroup

/-- The homology group in degree 1 with the given matrices of the boundary maps, homology.py 881-926. -/
def RSurf.homologyGroup {R : Type} [CommRing R] (M1 M2 : List (List R)) (n₂ n₁ n₀ : ℕ) {m : ℕ} (basis : Basis (Fin m) R (RSurf.Homology1 M1 M2 n₂ n₁ n₀))
    (lift : RSurf.Homology1 M1 M2 n₂ n₁ n₀ → LinearMap.ker (RSurf.rowMap M1 n₁ n₀)) (lift_mk : ∀ x, Submodule.Quotient.mk (lift x) = x) : HGroup R :=
  ⟨n₁, LinearMap.ker (RSurf.rowMap M1 n₁ n₀), LinearMap.range (RSurf.rowMap M2 n₂ n₁), m, basis, lift, lift_mk⟩

/-! ### Cohomology -/

/-- `_values`, cohomology.py 84-87: a dictionary whose keys are homology classes.  Classes are the same key if their coefficients are the same,
homology.py 296 and 314, so the model uses the coefficients as the keys. -/
abbrev Cochain (G : HGroup ℤ) (A : Type) := Dict (Fin G.m → ℤ) A

namespace Cochain
variable {G : HGroup ℤ} {A : Type} [CommRing A] [DecidableEq A]

/-- The loop of `_element_constructor_`, cohomology.py 361; the hash of a key that is not a cycle is a `ValueError`. -/
noncomputable def makeLoop (d : Cochain G A) : List (G.Chain × A) → Except Err (Cochain G A)
  | [] => .ok d
  | (gen, value) :: x =>
    if value = 0 then makeLoop d x
    else do makeLoop (Dict.set d (← G.coefficients gen) value) x

/-- `_element_constructor_`, cohomology.py 340-364, for a dictionary. -/
noncomputable def make (G : HGroup ℤ) (x : List (G.Chain × A)) : Except Err (Cochain G A) := makeLoop [] x

/-- The loop of `__call__`, cohomology.py 123-126. -/
noncomputable def evalLoop (f : Cochain G A) (h : G.Chain) : List G.Chain → Except Err A
  | [] => .ok 0
  | gen :: gens => do
    let v := (Dict.get f (← G.coefficients gen)).getD 0
    let c ← G.coefficient h gen
    return v * (c : A) + (← evalLoop f h gens)

/-- `__call__(homology)`, cohomology.py 107-126. -/
noncomputable def eval (f : Cochain G A) (h : G.Chain) : Except Err A := f.evalLoop h G.gens

/-- The loop of `_add_`, cohomology.py 146-150. -/
noncomputable def addLoop (f g : Cochain G A) : List G.Chain → Except Err (List (G.Chain × A))
  | [] => .ok []
  | gen :: gens => do
    let value := (← f.eval gen) + (← g.eval gen)
    let rest ← addLoop f g gens
    return if value = 0 then rest else (gen, value) :: rest

/-- `_add_`, cohomology.py 128-152. -/
noncomputable def add (f g : Cochain G A) : Except Err (Cochain G A) := do make G (← addLoop f g G.gens)

/-- `_richcmp_` for `==`, cohomology.py 183, of two classes in the same group that are not the same object: the two dictionaries are equal. -/
def Eq (f g : Cochain G A) : Prop := ∀ c, Dict.get f c = Dict.get g c

/-- `gens()`, cohomology.py 385-398. -/
noncomputable def gens (G : HGroup ℤ) (A : Type) [CommRing A] [DecidableEq A] : Except Err (List (Cochain G A)) :=
  G.gens.mapM fun gen => make G [(gen, (1 : A))]

end Cochain

/-! ### Morphisms of homology groups -/

/-- A matrix of Sage: its number of rows and columns and its entries. -/
structure PMat (R : Type) where
  rows : ℕ
  cols : ℕ
  entry : ℕ → ℕ → R

namespace PMat
variable {R : Type} [CommRing R]

/-- The sum of two matrices. -/
def add (A B : PMat R) : PMat R := ⟨A.rows, A.cols, fun i j => A.entry i j + B.entry i j⟩

/-- The negative of a matrix. -/
def neg (A : PMat R) : PMat R := ⟨A.rows, A.cols, fun i j => -A.entry i j⟩

/-- A multiple of a matrix. -/
def scale (c : R) (A : PMat R) : PMat R := ⟨A.rows, A.cols, fun i j => c * A.entry i j⟩

/-- The product of two matrices. -/
def mul (A B : PMat R) : PMat R := ⟨A.rows, B.cols, fun i j => ∑ k ∈ Finset.range A.cols, A.entry i k * B.entry k j⟩

/-- The identity matrix. -/
def one (n : ℕ) : PMat R := ⟨n, n, fun i j => if i = j then 1 else 0⟩

end PMat

/-- A morphism of homology groups: given by a matrix or induced by a morphism of surfaces, homology.py 1731-1769 and 1875-1904.  A morphism of surfaces is
given by the images of the classes of simplices, `_image_homology_edge`, as chains. -/
inductive HMor {R : Type} [CommRing R] (G H : HGroup R) : Type where
  | ofMatrix (A : PMat R)
  | induced (E : Fin G.n → Except Err H.Chain)

namespace HGroup
variable {R : Type} [CommRing R]

/-- `hom(f, codomain)` for a matrix, homology.py 1248-1268. -/
def hom (G : HGroup R) (f : PMat R) (codomain : Option (HGroup R)) : Except Err (Σ H, HMor G H) := do
  let H ← match codomain with
    | some H => pure H
    | none => if f.rows = f.cols then pure G else throw .notImplemented
  if f.cols ≠ G.m then throw .valueError
  if f.rows ≠ H.m then throw .valueError
  return ⟨H, .ofMatrix f⟩

/-- `_call_(g)` of a morphism given by a matrix, homology.py 1771-1799. -/
noncomputable def callMatrix {G H : HGroup R} (A : PMat R) (g : G.Chain) : Except Err H.Chain := do
  let c ← G.coefficients g
  return H.fromHomology (∑ i : Fin H.m, (∑ j : Fin G.m, A.entry i j * c j) • H.basis i)

open Classical in
/-- The loop of `_image_homology_gen(gen, codomain)`, morphism.py 1413-1418, over the support of a chain. -/
noncomputable def imageLoop {G H : HGroup R} (E : Fin G.n → Except Err H.Chain) (chain : G.Chain) : List (Fin G.n) → Except Err H.Chain
  | [] => .ok 0
  | e :: es =>
    if chain e = 0 then imageLoop E chain es
    else do
      let image ← E e
      let rest ← imageLoop E chain es
      return chain e • image + rest

/-- `_image_homology_gen(gen, codomain)`, morphism.py 1377-1420. -/
noncomputable def imageGen {G H : HGroup R} (E : Fin G.n → Except Err H.Chain) (gen : G.Chain) : Except Err H.Chain :=
  imageLoop E gen (List.finRange G.n)

/-- `_image_homology_matrix(domain, codomain)`, morphism.py 1297-1346.  (The code converts the entries to integers.) -/
noncomputable def imageMatrix {G H : HGroup R} (E : Fin G.n → Except Err H.Chain) : Except Err (PMat R) := do
  let columns ← G.gens.mapM fun gen => do
    let image ← imageGen E gen
    H.gens.mapM fun codomainGen => H.coefficient image codomainGen
  return ⟨H.m, G.m, fun y x => (columns.getD x []).getD y 0⟩

/-- `_call_` of a morphism of homology groups, homology.py 1771-1799, 1906-1928 and morphism.py 1185-1234. -/
noncomputable def call {G H : HGroup R} (f : HMor G H) (g : G.Chain) : Except Err H.Chain :=
  match f with
  | .ofMatrix A => callMatrix A g
  | .induced E => do
    let A ← imageMatrix E
    if A.cols ≠ G.m then throw .valueError
    if A.rows ≠ H.m then throw .valueError
    callMatrix A g

/-- `matrix()`, homology.py 1568-1598. -/
noncomputable def matrix {G H : HGroup R} (f : HMor G H) : Except Err (PMat R) := do
  let columns ← G.gens.mapM fun gen => do H.coefficients (← call f gen)
  return ⟨H.m, G.m, fun y x => if h : y < H.m then (columns.getD x 0) ⟨y, h⟩ else 0⟩

/-- `_add_`, homology.py 1600-1627. -/
noncomputable def addMor {G H : HGroup R} (f g : HMor G H) : Except Err (Σ H, HMor G H) := do
  G.hom ((← matrix f).add (← matrix g)) (some H)

/-- `_neg_`, homology.py 1651-1675. -/
noncomputable def negMor {G H : HGroup R} (f : HMor G H) : Except Err (Σ H, HMor G H) := do
  G.hom (← matrix f).neg (some H)

/-- `_acted_upon_(x, self_on_left)`, homology.py 1629-1649. -/
noncomputable def scaleMor {G H : HGroup R} (x : R) (f : HMor G H) : Except Err (Σ H, HMor G H) := do
  G.hom ((← matrix f).scale x) none

/-- `_composition(other)`, homology.py 1677-1703: `g` after `f`. -/
noncomputable def compMor {G H J : HGroup R} (g : HMor H J) (f : HMor G H) : Except Err (Σ H, HMor G H) := do
  G.hom ((← matrix g).mul (← matrix f)) (some J)

/-- `identity()`, homology.py 1430-1455. -/
def identity (G : HGroup R) : HMor G G := .ofMatrix (PMat.one G.m)

open Classical in
/-- `__bool__`, homology.py 1705-1728: whether the matrix is not zero. -/
noncomputable def boolMor {G H : HGroup R} (f : HMor G H) : Except Err Bool := do
  let A ← matrix f
  return decide (∃ i < A.rows, ∃ j < A.cols, A.entry i j ≠ 0)

end HGroup
end Flat
