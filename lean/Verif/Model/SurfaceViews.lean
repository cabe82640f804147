import Verif.Model.SurfaceOps

/-!
# Model of equality, hash, views, comparison and copies of surfaces (flatsurf/geometry/surface.py)
-/

namespace Flat

/-- `d == d'` for Python dictionaries: as many keys, and each key of `d` has an equal value in `d'`. -/
def Dict.pyEq {L V : Type*} [DecidableEq L] [DecidableEq V] (d d' : Dict L V) : Bool :=
  d.length = d'.length && d.all (fun x => d'.get x.1 = some x.2)

namespace MSurf
variable {L P : Type} [LinearOrder L] [NumVertices P] [DecidableEq P]

/-- `__eq__`, surface.py 492-547 and 2172-2203 (all surfaces of the model have the same base ring). -/
def eq (s t : MSurf L P) : Bool :=
  s.polygons.pyEq t.polygons && s.roots = t.roots && s.mutable = t.mutable && s.gluings.pyEq t.gluings

omit [DecidableEq P] in
/-- `polygons()` as an iterable, surface.py 2983-3003. -/
def polygonList (s : MSurf L P) : Except Err (List P) := do
  let ls ← s.labels
  ls.mapM s.polygon

omit [DecidableEq P] in
/-- What `__hash__` hashes, surface.py 549-573 and 2205-2231: labels, polygons, roots and gluings; a
`TypeError` for mutable surfaces. -/
def hashKey (s : MSurf L P) : Except Err (List L × List P × List L × List ((L × Int) × (L × Int))) := do
  if s.mutable then throw .typeError
  let ls ← s.labels
  let ps ← s.polygonList
  let gs ← s.gluingPairs
  return (ls, ps, s.roots, gs)

omit [DecidableEq P] in
/-- `edges()` as an iterable, surface.py 3071-3074. -/
def edgeList (s : MSurf L P) : Except Err (List (L × Int)) := do
  let ls ← s.labels
  let ps ← s.polygonList
  return ((ls.zip ps).map (fun x => (List.range (nv x.2)).map (fun (e : ℕ) => (x.1, (e : Int))))).flatten

omit [DecidableEq P] in
/-- `label in labels()`, surface.py 868 and 2738-2739: looks at the keys of `_polygons`. -/
def labelsContains (s : MSurf L P) (l : L) : Bool := l ∈ s.polygons.keys

omit [DecidableEq P] in
/-- `len(labels())`, surface.py 868 and 2741-2742. -/
def labelsLen (s : MSurf L P) : ℕ := s.polygons.length

omit [DecidableEq P] in
/-- `x in edges()`, surface.py 3076-3082; note the order of the comparison in the last line. -/
def edgesContains (s : MSurf L P) (x : L × Int) : Except Err Bool :=
  if ¬ s.labelsContains x.1 then .ok false
  else do
    let p ← s.polygon x.1
    return decide (0 ≤ nv p) && decide ((nv p : Int) < x.2)

omit [DecidableEq P] in
/-- `(x, y) in gluings()`, surface.py 3117-3127. -/
def gluingsContains (s : MSurf L P) (x y : L × Int) : Except Err Bool := do
  if ¬ (← s.edgesContains x) then return false
  let cross ← s.oppositeEdge x.1 x.2
  match cross with
  | none => return false
  | some c => return decide (y = c)

omit [DecidableEq P] in
/-- `len(polygons())`, surface.py 3044-3045. -/
def polygonsLen (s : MSurf L P) : ℕ := s.polygons.length

end MSurf

namespace MSurf
variable {L K : Type} [LinearOrder L] [LabelNum L] [Field K] [LinearOrder K] [IsStrictOrderedRing K]

/-- The gluing made by `from_surface` for an edge, surface.py 1264-1266. -/
def copyPair (labels : List L) (l : L) (c : Option (L × Int) × ℕ) : Option ((L × Int) × (L × Int)) :=
  match c.1 with
  | some c' => if c'.1 ∈ labels then some ((l, (c.2 : Int)), c') else none
  | none => none

/-- The gluings made by `from_surface`, surface.py 1262-1266, in the order in which they are made. -/
def copyPairs (surface : MSurf L (Poly K)) (ls labels : List L) :
    Except Err (List ((L × Int) × (L × Int))) := do
  let gs ← ls.mapM (fun l => do
    let p ← surface.polygon l
    let cs ← surface.oppositeEdges l (nv p)
    return cs.zipIdx.filterMap (copyPair labels l))
  return gs.flatten

/-- `MutableOrientedSimilaritySurface.from_surface(surface, labels)`, surface.py 1205-1275, of a mutable
surface (the lookup of the gluings is moved before the loop that uses them). -/
def fromSurface (surface : MSurf L (Poly K)) (labels : Option (List L)) : Act L (Poly K) Unit := do
  let labels ← match labels with
    | some ls => pure ls
    | none => liftE surface.labels
  set (MSurf.empty : MSurf L (Poly K))
  let ps ← liftE (labels.mapM (fun l => do return (l, ← surface.polygon l)))
  addAll ps
  let gs ← liftE (copyPairs surface labels labels)
  gluePairs gs
  if surface.roots ≠ [] then
    setRoots (surface.roots.filter (fun r => r ∈ labels))

/-- `labels.index(l)`. -/
def indexOf (ls : List L) (l : L) : Except Err ℕ :=
  match ls.findIdx? (fun x => x = l) with
  | none => .error .valueError
  | some i => .ok i

/-- `(a > b) - (a < b)`. -/
def sgnCmp {α : Type} [LinearOrder α] (a b : α) : Int := if a > b then 1 else if a < b then -1 else 0

/-- The loop over the edges in `cmp`, surface.py 2117-2128. -/
def cmpEdges (s t : MSurf L (Poly K)) (ls ls' : List L) (l l' : L) : List ℕ → Except Err Int
  | [] => .ok 0
  | e :: es => do
    let c ← s.oppositeEdge! l e
    let c' ← t.oppositeEdge! l' e
    let n ← indexOf ls c.1
    let n' ← indexOf ls' c'.1
    if sgnCmp n n' ≠ 0 then return sgnCmp n n'
    if sgnCmp c.2 c'.2 ≠ 0 then return sgnCmp c.2 c'.2
    cmpEdges s t ls ls' l l' es

/-- The loop over the labels in `cmp`, surface.py 2112-2129; in line 2113 both polygons are taken from
`self`. -/
def cmpLabels (s t : MSurf L (Poly K)) (ls ls' : List L) : List (L × L) → Except Err Int
  | [] => .ok 0
  | (l, l') :: r => do
    let p ← s.polygon l
    let p' ← s.polygon l'
    if p.cmp p' ≠ 0 then return p.cmp p'
    let x ← cmpEdges s t ls ls' l l' (List.range (nv p))
    if x ≠ 0 then return x
    cmpLabels s t ls ls' r

/-- `cmp(s2)` of finite surfaces, surface.py 2078-2129. -/
def cmp (s t : MSurf L (Poly K)) : Except Err Int :=
  if s.polygons.length > t.polygons.length then .ok 1
  else if s.polygons.length < t.polygons.length then .ok (-1)
  else do
    let ls ← s.labels
    let ls' ← t.labels
    cmpLabels s t ls ls' (ls.zip ls')

end MSurf
end Flat
