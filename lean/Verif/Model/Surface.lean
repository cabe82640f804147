import Verif.Model.Dict
import Mathlib.Order.Basic
import Mathlib.Data.List.MinMax
import Mathlib.Logic.Function.Basic

/-!
# Model of `MutableOrientedSimilaritySurface` (flatsurf/geometry/surface.py): primitive operations

A mutating method is an `EStateM Err (MSurf L P)` action: when it raises, the state keeps the mutations
made before the exception.  Polygons are kept abstract here, only their number of vertices matters.
-/

namespace Flat

/-- `len(polygon.vertices())`. -/
class NumVertices (P : Type) where
  nv : P → ℕ

export NumVertices (nv)

/-- The labels that `add_polygon` picks: `ZZ(0), ZZ(1), ...`, surface.py 156 and 223-225. -/
class LabelNum (L : Type) where
  num : ℕ → L
  num_inj : Function.Injective num

export LabelNum (num)

instance : LabelNum Int := ⟨fun n => (n : Int), fun _ _ h => Int.ofNat.inj h⟩
instance : LabelNum ℕ := ⟨fun n => n, fun _ _ h => h⟩

/-- The attributes `_polygons`, `_gluings`, `_roots`, `_mutable`, `_next_label`
(surface.py 153-163, 1193-1203). -/
structure MSurf (L P : Type) where
  polygons : Dict L P
  gluings : Dict L (List (Option (L × Int)))
  roots : List L
  mutable : Bool
  nextLabel : ℕ
deriving DecidableEq

namespace MSurf
variable {L P : Type} [LinearOrder L] [NumVertices P]

/-- `MutableOrientedSimilaritySurface(base)`, surface.py 153-163 and 1193-1203. -/
def empty : MSurf L P := ⟨[], [], [], true, 0⟩

/-- `polygon(label)`, surface.py 379-404. -/
def polygon (s : MSurf L P) (l : L) : Except Err P :=
  match s.polygons.get l with
  | none => .error .keyError
  | some p => .ok p

/-- `opposite_edge(label, edge)`, surface.py 1630-1676. -/
def oppositeEdge (s : MSurf L P) (l : L) (e : Int) : Except Err (Option (L × Int)) :=
  match s.gluings.get l with
  | none => .error .keyError
  | some g => pyGet g e

/-- The labels pushed to the queue when visiting `label`: surface.py 2861-2864. -/
def crossLabels (s : MSurf L P) (l : L) : Except Err (List L) :=
  match s.polygons.get l with
  | none => .error .keyError
  | some p => do
    let cs ← (List.range (nv p)).mapM (fun (e : ℕ) => s.oppositeEdge l e)
    return cs.filterMap (fun c => c.map Prod.fst)

/-- The loop of `ComponentLabels.__iter__`, surface.py 2850-2864, with a bound on the number of
iterations; the labels yielded, in order. -/
def bfs (s : MSurf L P) : ℕ → List L → List L → Except Err (List L)
  | _, _, [] => .ok []
  | 0, _, _ :: _ => .error .outOfFuel
  | n + 1, seen, label :: pending =>
    if label ∈ seen then bfs s n seen pending
    else
      match s.crossLabels label with
      | .error e => .error e
      | .ok cs =>
        match bfs s n (label :: seen) (pending ++ cs) with
        | .error e => .error e
        | .ok ls => .ok (label :: ls)

/-- A bound for the number of iterations of `ComponentLabels.__iter__`. -/
def fuel (s : MSurf L P) : ℕ := 1 + (s.polygons.map (fun x => nv x.2)).sum

/-- `component(root)`, categories/polygonal_surfaces.py 793-830 and surface.py 2802-2864. -/
def component (s : MSurf L P) (root : L) : Except Err (List L) := s.bfs s.fuel [] [root]

/-- `for label in component: labels.remove(label)`, surface.py 2525-2526 and 2534-2535. -/
def removeLabels : List L → List L → Except Err (List L)
  | labels, [] => .ok labels
  | labels, l :: ls => if l ∈ labels then removeLabels (labels.erase l) ls else .error .keyError

/-- The loop surface.py 2524-2526. -/
def removeComponents (s : MSurf L P) : List L → List L → Except Err (List L)
  | labels, [] => .ok labels
  | labels, r :: rs => do
    let c ← s.component r
    let labels ← removeLabels labels c
    removeComponents s labels rs

/-- `LabeledView.min`, surface.py 2744-2799 (with `LinearOrder L` standing for the order of the labels
or of their `repr`). -/
def minLabel : List L → Except Err L
  | [] => .error .valueError
  | x :: xs => .ok (xs.foldl min x)

/-- The loop surface.py 2528-2535. -/
def remainingRoots (s : MSurf L P) : ℕ → List L → Except Err (List L)
  | _, [] => .ok []
  | 0, _ :: _ => .error .outOfFuel
  | n + 1, labels => do
    let root ← minLabel labels
    let c ← s.component root
    let labels ← removeLabels labels c
    let rs ← remainingRoots s n labels
    return root :: rs

/-- `roots()`, surface.py 302-341 and `RootedComponents_MutablePolygonalSurface.__iter__` 2492-2535
(the shortcut for surfaces in a category with axiom "Connected" is not modelled). -/
def rootsList (s : MSurf L P) : Except Err (List L) := do
  let labels ← s.removeComponents s.polygons.keys s.roots
  let rs ← s.remainingRoots labels.length labels
  return s.roots ++ rs

/-- `components()`, surface.py 343-377. -/
def components (s : MSurf L P) : Except Err (List (List L)) := do
  let rs ← s.rootsList
  rs.mapM s.component

/-- `labels()` as an iterable, surface.py 2904-2906. -/
def labels (s : MSurf L P) : Except Err (List L) := do
  let cs ← s.components
  return cs.flatten

end MSurf

variable {L P : Type} [LinearOrder L] [NumVertices P]

/-- Mutating methods: the state survives an exception. -/
abbrev Act (L P : Type) (α : Type) := EStateM Err (MSurf L P) α

/-- Use a non-mutating computation in a method. -/
def liftE {α : Type} (x : Except Err α) : Act L P α :=
  match x with
  | .ok a => pure a
  | .error e => throw e

namespace MSurf

/-- `self._gluings[l][e] = v`. -/
def setGluing (l : L) (e : Int) (v : Option (L × Int)) : Act L P Unit := do
  let s ← get
  match s.gluings.get l with
  | none => throw .keyError
  | some g =>
    match pySet g e v with
    | .error x => throw x
    | .ok g' => set { s with gluings := s.gluings.set l g' }

/-- The mutability check, e.g. surface.py 219-220, 296-297, 1334-1337. -/
def checkMutable : Act L P Unit := do
  let s ← get
  if s.mutable then pure () else throw .immutable

/-- The search for an unused integer label, surface.py 223-225; bounded by the number of polygons. -/
def freshFrom [LabelNum L] (d : Dict L P) : ℕ → ℕ → ℕ
  | 0, n => n
  | f + 1, n => if num n ∈ d.keys then freshFrom d f (n + 1) else n

/-- The label used by `add_polygon`, surface.py 222-225. -/
def pickLabel [LabelNum L] (label : Option L) : Act L P L :=
  match label with
  | some l => pure l
  | none => do
    let s ← get
    let n := freshFrom s.polygons (s.polygons.length + 1) s.nextLabel
    set { s with nextLabel := n }
    pure (num n)

/-- surface.py 227-231 (`change_ring` not modelled). -/
def insertPolygon (p : P) (label : L) : Act L P L := do
  let s ← get
  if label ∈ s.polygons.keys then throw .valueError
  else
    set { s with polygons := s.polygons.set label p }
    return label

/-- `MutablePolygonalSurface.add_polygon`, surface.py 190-231. -/
def addPolygonBase [LabelNum L] (p : P) (label : Option L) : Act L P L := do
  checkMutable
  let label ← pickLabel label
  insertPolygon p label

/-- surface.py 1280-1286. -/
def insertGluings (p : P) (label : L) : Act L P L := do
  let s ← get
  if label ∈ s.gluings.keys then throw .assertionError
  else
    set { s with
      gluings := s.gluings.set label (List.replicate (nv p) none)
      roots := if s.roots ≠ [] then s.roots ++ [label] else s.roots }
    return label

/-- `add_polygon`, surface.py 1277-1286. -/
def addPolygon [LabelNum L] (p : P) (label : Option L) : Act L P L := do
  let label ← addPolygonBase p label
  insertGluings p label

/-- The end of `unglue`, surface.py 1396-1418: a new root if a component was split. -/
def splitRoots (l l' : L) : Act L P Unit := do
  let s ← get
  if s.roots ≠ [] then
    let component ← liftE (s.component l)
    if l' ∉ component then
      let crossComponent ← liftE (s.component l')
      if l ∈ crossComponent then throw .assertionError
      match s.roots.find? (fun r => r ∈ component ∨ r ∈ crossComponent) with
      | none => throw .assertionError
      | some r =>
        let m ← liftE (minLabel (if r ∈ component then crossComponent else component))
        set { s with roots := s.roots ++ [m] }

/-- `unglue(label, edge)`, surface.py 1363-1418. -/
def unglue (l : L) (e : Int) : Act L P Unit := do
  checkMutable
  let s ← get
  let cross ← liftE (s.oppositeEdge l e)
  match cross with
  | none => setGluing l e none
  | some c => do
    setGluing c.1 c.2 none
    setGluing l e none
    splitRoots l c.1

/-- The part of `glue` that removes a root when two components are joined, surface.py 1348-1358. -/
def joinRoots (l l' : L) : Act L P Unit := do
  let s ← get
  if s.roots ≠ [] then
    let component ← liftE (s.component l)
    if l' ∉ component then
      let crossComponent ← liftE (s.component l')
      match s.roots.reverse.find? (fun r => r ∈ component ∨ r ∈ crossComponent) with
      | none => throw .assertionError
      | some r => set { s with roots := s.roots.filter (fun r' => r' ≠ r) }

/-- `glue(x, y)`, surface.py 1295-1361. -/
def glue (x y : L × Int) : Act L P Unit := do
  checkMutable
  let s ← get
  if x.1 ∉ s.polygons.keys then throw .valueError
  if y.1 ∉ s.polygons.keys then throw .valueError
  unglue x.1 x.2
  unglue y.1 y.2
  joinRoots x.1 y.1
  setGluing x.1 x.2 (some y)
  setGluing y.1 y.2 (some x)

/-- The loop of `_unglue_polygon`, surface.py 1439-1443; `enumerate` looks at the list while it is being
modified. -/
def unglueLoop (l : L) : List ℕ → Act L P Unit
  | [] => pure ()
  | e :: es => do
    let s ← get
    let cross ← liftE (s.oppositeEdge l e)
    match cross with
    | none => pure ()
    | some c => setGluing c.1 c.2 none
    unglueLoop l es

/-- `_unglue_polygon`, surface.py 1420-1444. -/
def ungluePolygon (l : L) : Act L P Unit := do
  let s ← get
  match s.gluings.get l with
  | none => throw .keyError
  | some g =>
    unglueLoop l (List.range g.length)
    let s ← get
    let p ← liftE (s.polygon l)
    set { s with gluings := s.gluings.set l (List.replicate (nv p) none) }

/-- `MutablePolygonalSurface.remove_polygon`, surface.py 276-300. -/
def removePolygonBase (l : L) : Act L P Unit := do
  checkMutable
  let s ← get
  if l ∉ s.polygons.keys then throw .keyError
  else
    set { s with polygons := s.polygons.erase l, roots := s.roots.filter (fun r => r ≠ l) }

/-- `remove_polygon`, surface.py 1288-1293: the mutability is only checked by the inherited method at
the end. -/
def removePolygon (l : L) : Act L P Unit := do
  ungluePolygon l
  let s ← get
  set { s with gluings := s.gluings.erase l }
  removePolygonBase l

/-- `replace_polygon`, surface.py 1583-1628 (no mutability check). -/
def replacePolygon (l : L) (p : P) : Act L P Unit := do
  let s ← get
  let old ← liftE (s.polygon l)
  if nv old ≠ nv p then throw .valueError
  else set { s with polygons := s.polygons.set l p }

/-- `set_root`, surface.py 661-739. -/
def setRoot (root : L) : Act L P Unit := do
  checkMutable
  let s ← get
  let labels ← liftE s.labels
  let found := labels.filter (fun l => l = root)
  if found = [] then throw .valueError
  if found.length ≠ 1 then throw .assertionError
  let cs ← liftE s.components
  let component := cs.filter (fun c => root ∈ c)
  match component with
  | [c] => set { s with roots := s.roots.filter (fun r => r ∉ c) ++ [root] }
  | _ => throw .assertionError

/-- `set_roots`, surface.py 741-808. -/
def setRoots (roots : List L) : Act L P Unit := do
  checkMutable
  let s ← get
  if roots ≠ [] then
    -- `self.labels()` is iterated once for each root, always with the same result
    let labels ← liftE s.labels
    let rs := roots.map (fun r => labels.filter (fun l => l = r))
    if rs.any (fun r => r.length = 0) then throw .valueError
    if ¬ rs.all (fun r => r.length = 1) then throw .assertionError
  let cs ← liftE s.components
  if cs.any (fun c => (roots.filter (fun r => r ∈ c)).length > 1) then throw .valueError
  set { s with roots := roots }

/-- `set_immutable`, surface.py 406-468 (the refinement of the category is not modelled). -/
def setImmutable : Act L P Unit := do
  let s ← get
  if s.mutable then
    let rs ← liftE s.rootsList
    setRoots rs
    let s ← get
    set { s with mutable := false }

/-- `change_polygon_gluings`, surface.py 1496-1523. -/
def changePolygonGluings (l : L) : ℕ → List (Option (L × Int)) → Act L P Unit
  | _, [] => pure ()
  | e, none :: cs => do unglue l e; changePolygonGluings l (e + 1) cs
  | e, some c :: cs => do glue (l, e) c; changePolygonGluings l (e + 1) cs

/-- `for i, cross in enumerate(gluing_list): self.glue((label, i), cross)`, e.g. surface.py
1562-1563. -/
def glueAll (l : L) : ℕ → List (L × Int) → Act L P Unit
  | _, [] => pure ()
  | e, c :: cs => do glue (l, e) c; glueAll l (e + 1) cs

/-- `change_polygon`, surface.py 1525-1563. -/
def changePolygon (l : L) (p : P) (gl : List (L × Int)) : Act L P Unit := do
  checkMutable
  let s ← get
  let old ← liftE (s.polygon l)
  if nv p ≠ nv old then
    ungluePolygon l
    let s ← get
    set { s with gluings := s.gluings.set l (List.replicate (nv p) none) }
  let s ← get
  set { s with polygons := s.polygons.set l p }
  glueAll l 0 gl

end MSurf
end Flat
