import Verif.Model.HomologyClass
import Verif.Model.FlipHomology
import Verif.Model.LazyTriangulate

/-!
# Model of the images of edges under morphisms of surfaces

`_image_homology_edge` of the identity, of `GL2RMorphism`, of `SubdivideEdgesMorphism` and of triangulations, `flatsurf/geometry/morphism.py`.
-/

namespace Flat
namespace RSurf
open Module
variable {L L' K : Type} [DecidableEq L] [DecidableEq L'] [Field K] [LinearOrder K] [IsStrictOrderedRing K] {R : Type} [CommRing R]

/-- A sum `sum(codomain((label, edge)) for ...)` of classes of edges, morphism.py 4081-4083. -/
def pathChain (T : RSurf L' K) (sx : List (L' × ℕ)) : List (L' × ℕ) → Except Err (L' × ℕ → R)
  | [] => .ok 0
  | d :: ds => do
    let c ← T.toChain sx d
    let r ← T.pathChain sx ds
    return c + r

/-- `_image_homology_edge` of the identity, morphism.py 2230-2246, and of `GL2RMorphism`, morphism.py 3911-3926; `sx` are the simplices of the codomain. -/
def sameEdge (T : RSurf L K) (sx : List (L × ℕ)) (d : L × ℕ) : Except Err (L × ℕ → R) := T.toChain sx d

/-- `_image_homology_edge` of `SubdivideEdgesMorphism`, morphism.py 4068-4083. -/
def subdividedEdge (T : RSurf L K) (sx : List (L × ℕ)) (parts : ℕ) (d : L × ℕ) : Except Err (L × ℕ → R) :=
  T.pathChain sx ((List.range parts).map fun p => (d.1, d.2 * parts + p))

/-- `_image_homology_edge` of a triangulation, morphism.py 2955-2971 with `_image_edge`, 3093-3106. -/
def triangulatedEdge {L : Type} [LinearOrder L] [LabelNum L] [TupleLabel L] (S : RSurf L K) (has sel : L → Bool) (sx : List (L × ℕ)) (d : L × ℕ) :
    Except Err (L × ℕ → R) := do
  let i ← S.triImage sel d.1
  match i.2.get d.2 with
  | none => throw .keyError
  | some z => (S.lazyTriangulated has sel).toChain sx (z.1, z.2.toNat)

/-- The images of the simplices of the domain as vectors of coefficients with respect to the simplices of the codomain. -/
def edgeClasses (sx : List (L × ℕ)) (sx' : List (L' × ℕ)) (E : L × ℕ → Except Err (L' × ℕ → R)) (i : Fin sx.length) : Except Err (Fin sx'.length → R) := do
  let c ← E sx[i]
  return fun j => c sx'[j]

/-- `surface.homology(coefficients=R)` in degree 1: the simplices and the matrices that the code computes with any choice of generators and lifts. -/
structure HData (S : RSurf L K) (valid : L → Prop) (R : Type) [CommRing R] where
  ls : List L
  es : List (L × ℕ)
  fuel : ℕ
  vx : List (Finset (L × Vec K))
  sx : List (L × ℕ)
  M1 : List (List R)
  M2 : List (List R)
  m : ℕ
  basis : Basis (Fin m) R (Homology1 M1 M2 ls.length sx.length vx.length)
  lift : Homology1 M1 M2 ls.length sx.length vx.length → LinearMap.ker (rowMap M1 sx.length vx.length)
  lift_mk : ∀ x, Submodule.Quotient.mk (lift x) = x
  nodup : ls.Nodup
  labels : ∀ l, l ∈ ls ↔ valid l
  edges_eq : S.edges ls = .ok es
  fuel_lt : es.length + 1 < fuel
  vx_eq : S.simplices0 fuel ∅ ls = .ok vx
  sx_eq : S.simplices1 ls = .ok sx
  M1_eq : S.chainRows1 R fuel ∅ sx vx = .ok M1
  M2_eq : S.chainRows2 R ls sx = .ok M2

/-- The homology group. -/
def HData.group {S : RSurf L K} {valid : L → Prop} (X : HData S valid R) : HGroup R :=
  homologyGroup X.M1 X.M2 X.ls.length X.sx.length X.vx.length X.basis X.lift X.lift_mk

end RSurf
end Flat
