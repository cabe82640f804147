import Mathlib.Algebra.Group.Defs
import Verif.Model.Dict

/-!
# Model of composition and sections of morphisms of surfaces

`SurfaceMorphism`, `SectionMorphism`, `CompositionMorphism`, `IdentityMorphism` and `SurfaceMorphism_factorization` of `flatsurf/geometry/morphism.py`.
The morphisms that are not built from other morphisms (triangulations, linear maps, Delaunay triangulations, ...) are given by a type `A`; what they do
with points is arbitrary.  Surfaces are compared with `is`; points know the surface that they belong to.
-/

namespace Flat
variable {A Surf Pt : Type}

/-- The morphisms that are not built from others. -/
structure MorphSys (A Surf Pt : Type) where
  dom : A → Surf
  cod : A → Surf
  /-- `_image_point` -/
  img : A → Pt → Except Err Pt
  /-- `_section_point` -/
  sct : A → Pt → Except Err Pt
  /-- The result of `section()` if the class has its own method; `GL2RMorphism` morphism.py 3873-3890 has. -/
  sec : A → Option A

/-- Objects of class `SurfaceMorphism`. -/
inductive Morph (A Surf : Type) where
  | atom (a : A)
  /-- `IdentityMorphism`, morphism.py 2145-2315 -/
  | ident (s : Surf)
  /-- `SectionMorphism`, morphism.py 1598-1838 -/
  | sect (m : Morph A Surf)
  /-- `CompositionMorphism` with its domain, codomain and `_morphisms`, morphism.py 1841-2142 -/
  | comp (d c : Surf) (ms : List (Morph A Surf))
  /-- `NamedFactorizationMorphism` with its `_factorization()`, morphism.py 2318-2590, 2732-2872 -/
  | named (m : Morph A Surf)

namespace MorphSys
variable (Y : MorphSys A Surf Pt)

/-- `(domain(), codomain())`; for sections morphism.py 1667-1669, for factorizations 2780-2783. -/
def ends : Morph A Surf → Surf × Surf
  | .atom a => (Y.dom a, Y.cod a)
  | .ident s => (s, s)
  | .sect m => ((ends m).2, (ends m).1)
  | .comp d c _ => (d, c)
  | .named m => ends m

/-- The morphisms to put into `_morphisms`, morphism.py 1880-1884. -/
def parts : Morph A Surf → List (Morph A Surf)
  | .comp _ _ ms => ms
  | m => [m]

/-- `f * g`, i.e., `f._composition(g)`, morphism.py 1548-1559, with `CompositionMorphism._create_morphism` 1910 and `__init__` 1875-1888. -/
def composition [DecidableEq Surf] (f g : Morph A Surf) : Except Err (Morph A Surf) :=
  if (Y.ends g).2 ≠ (Y.ends f).1 then .error .valueError
  else match g with
    | .ident _ => .ok f
    | _ => match f with
      | .ident _ => .ok g
      | _ => .ok (.comp (Y.ends g).1 (Y.ends f).2 (parts g ++ parts f))

mutual
/-- `_image_point(p)`: identity 2228, section 1676, composition 1933-1935, factorization 2528. -/
def image : Morph A Surf → Pt → Except Err Pt
  | .atom a, p => Y.img a p
  | .ident _, p => .ok p
  | .sect m, p => sectionPoint m p
  | .comp _ _ ms, p => imageAll ms p
  | .named m, p => image m p
/-- The loop in 1933-1935. -/
def imageAll : List (Morph A Surf) → Pt → Except Err Pt
  | [], p => .ok p
  | m :: ms, p =>
    match image m p with
    | .error x => .error x
    | .ok q => imageAll ms q
/-- `_section_point(q)`: not implemented for the identity (1161-1163), section 1683, composition 1958-1960, factorization 2544. -/
def sectionPoint : Morph A Surf → Pt → Except Err Pt
  | .atom a, q => Y.sct a q
  | .ident _, _ => .error .notImplemented
  | .sect m, q => image m q
  | .comp _ _ ms, q => sectionAll ms q
  | .named m, q => sectionPoint m q
/-- The loop in 1958-1960: the last morphism first. -/
def sectionAll : List (Morph A Surf) → Pt → Except Err Pt
  | [], q => .ok q
  | m :: ms, q =>
    match sectionAll ms q with
    | .error x => .error x
    | .ok p => sectionPoint m p
end

mutual
/-- `section()`: in general 1061, identity 2213, section 1644, composition 2101-2103. -/
def section' [DecidableEq Surf] : Morph A Surf → Except Err (Morph A Surf)
  | .atom a =>
    match Y.sec a with
    | some b => .ok (.atom b)
    | none => .ok (.sect (.atom a))
  | .ident s => .ok (.ident s)
  | .sect m => .ok m
  | .comp _ _ ms => sectionProd ms
  | .named m => .ok (.sect (.named m))
/-- The product of the sections, 2103.  (The function `prod` of SageMath may put the brackets differently.) -/
def sectionProd [DecidableEq Surf] : List (Morph A Surf) → Except Err (Morph A Surf)
  | [] => .error .typeError
  | m :: ms =>
    match section' m with
    | .error x => .error x
    | .ok s =>
      match ms with
      | [] => .ok s
      | _ :: _ =>
        match sectionProd ms with
        | .error x => .error x
        | .ok t => Y.composition s t
end

/-- `morphism(p)`, morphism.py 1105-1112, with `par` the surface of a point. -/
def call [DecidableEq Surf] (par : Pt → Surf) (m : Morph A Surf) (p : Pt) : Except Err Pt :=
  if par p ≠ (Y.ends m).1 then .error .valueError
  else match Y.image m p with
    | .error x => .error x
    | .ok q => if par q ≠ (Y.ends m).2 then .error .assertionError else .ok q

/-- `_image_homology_matrix`, morphism.py 1962-2007 for compositions, in terms of the matrices of the other morphisms: the identity times the matrices of the
morphisms, the last one first. -/
def homologyMatrix {M : Type} [Monoid M] (mat : Morph A Surf → M) : Morph A Surf → M
  | .comp _ _ ms => ms.reverse.foldl (fun x m => x * mat m) 1
  | m => mat m

end MorphSys
end Flat
