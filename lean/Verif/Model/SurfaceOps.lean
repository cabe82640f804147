import Verif.Model.Polygon

/-!
# Model of the composite operations of `MutableOrientedSimilaritySurface` (flatsurf/geometry/surface.py)

Operations on surfaces made of Euclidean polygons, built on the primitive operations of `Model/Surface.lean`.
-/

namespace Flat
namespace MSurf
variable {L K : Type} [LinearOrder L] [Field K] [LinearOrder K] [IsStrictOrderedRing K]

/-- `ll, ee = self.opposite_edge(l, e)`: unpacking `None` is a `TypeError`. -/
def oppositeEdge! {P : Type} [NumVertices P] (s : MSurf L P) (l : L) (e : Int) : Except Err (L × Int) :=
  match s.oppositeEdge l e with
  | .error x => .error x
  | .ok none => .error .typeError
  | .ok (some c) => .ok c

/-- The list `[self.opposite_edge(l, e) for e in range(n)]`. -/
def oppositeEdges {P : Type} [NumVertices P] (s : MSurf L P) (l : L) (n : ℕ) :
    Except Err (List (Option (L × Int))) :=
  (List.range n).mapM (fun (e : ℕ) => s.oppositeEdge l e)

/-- `gluings()` as an iterable, surface.py 3085-3127 (for all labels in the order of `labels()`). -/
def gluingPairs {P : Type} [NumVertices P] (s : MSurf L P) :
    Except Err (List ((L × Int) × (L × Int))) := do
  let ls ← s.labels
  let gs ← ls.mapM (fun l => do
    let p ← s.polygon l
    let cs ← s.oppositeEdges l (nv p)
    return cs.zipIdx.filterMap (fun (c : Option (L × Int) × ℕ) => c.1.map (fun c' => ((l, (c.2 : Int)), c'))))
  return gs.flatten

/-- `edge_transformation(p, e)`, categories/similarity_surfaces.py 1392-1431; the `ValueError` is the one
of the constructor of the similarity group. -/
def edgeTransformation (s : MSurf L (Poly K)) (l : L) (e : ℕ) : Except Err (Similarity K) := do
  let q ← s.polygon l
  let c ← s.oppositeEdge! l e
  let qq ← s.polygon c.1
  match edgeTransformationPts (q.vertex e) (q.vertex (e + 1)) (qq.vertex (c.2.toNat + 1))
      (qq.vertex c.2.toNat) with
  | none => .error .valueError
  | some g => return g

/-- `is_convex(label, edge, strict)`, categories/similarity_surfaces.py 2001-2043. -/
def isConvexEdge (s : MSurf L (Poly K)) (l : L) (e : ℕ) (strict : Bool) : Except Err Bool := do
  let c ← s.oppositeEdge! l e
  let p1 ← s.polygon l
  let sim ← s.edgeTransformation c.1 c.2.toNat
  let p2 ← s.polygon c.1
  let p2 ← Poly.ofVertices (p2.map sim.call)
  let p ← p1.join p2 e c.2.toNat
  return p.isConvex strict

/-- `set_vertex_zero(label, v, in_place=True)`, surface.py 1678-1715. -/
def setVertexZero [LabelNum L] (l : L) (v : ℕ) : Act L (Poly K) Unit := do
  let s ← get
  if ¬ s.mutable then throw .valueError
  let p ← liftE (s.polygon l)
  let n := nv p
  if ¬ v < n then throw .valueError
  let pp ← liftE (Poly.ofEdges ((List.range n).map (fun i => p.edge ((i + v) % n))))
  let glue ← liftE ((List.range n).mapM (fun i => do
    let c ← s.oppositeEdge! l (((v + i) % n : ℕ) : Int)
    return (c.1, if c.1 = l then (c.2 + n - v) % n else c.2)))
  removePolygon l
  let _ ← addPolygon pp (some l)
  glueAll l 0 glue

/-- `for label in labels: self.remove_polygon(label)`. -/
def removeAll : List L → Act L (Poly K) Unit
  | [] => pure ()
  | l :: ls => do removePolygon l; removeAll ls

/-- `for label in ...: self.add_polygon(polygon, label=label)`. -/
def addAll [LabelNum L] : List (L × Poly K) → Act L (Poly K) Unit
  | [] => pure ()
  | x :: xs => do
    let _ ← addPolygon x.2 (some x.1)
    addAll xs

/-- `for a, b in ...: self.glue(a, b)`. -/
def gluePairs : List ((L × Int) × (L × Int)) → Act L (Poly K) Unit
  | [] => pure ()
  | x :: xs => do glue x.1 x.2; gluePairs xs

/-- `relabeling.get(label, label)`. -/
def applyRelabeling (f : Dict L L) (l : L) : L := (f.get l).getD l

/-- `relabel(relabeling, in_place=True)`, surface.py 1717-1765, with a dictionary (for a callable, the
dictionary of its values on the labels; for `None` the numbers of the labels). -/
def relabel [LabelNum L] (f : Dict L L) : Act L (Poly K) Unit := do
  let s ← get
  let ls ← liftE s.labels
  let polygons ← liftE (ls.mapM (fun l => do return (applyRelabeling f l, ← s.polygon l)))
  let gluings ← liftE s.gluingPairs
  let roots ← liftE s.rootsList
  removeAll ls
  addAll polygons
  gluePairs (gluings.map (fun x =>
    ((applyRelabeling f x.1.1, x.1.2), (applyRelabeling f x.2.1, x.2.2))))
  setRoots (roots.map (applyRelabeling f))

/-- The `edge_map` of `join_polygons`, surface.py 1786-1798: the old edge for each new edge. -/
def joinEdgeMap (p1 : L) (e1 n1 : ℕ) (p2 : L) (e2 n2 : ℕ) : List (L × ℕ) :=
  (List.range e1).map (fun i => (p1, i)) ++
  (List.range (n2 - 1)).map (fun i => (p2, (e2 + (i + 1)) % n2)) ++
  (List.range (n1 - (e1 + 1))).map (fun i => (p1, e1 + 1 + i))

/-- `inv_edge_map[(p, e)]`, surface.py 1808-1810: a `KeyError` if the edge is not in the map. -/
def invEdgeMap (m : List (L × ℕ)) (p1 : L) (c : L × Int) : Except Err (L × Int) :=
  match m.findIdx? (fun x => x.1 = c.1 ∧ (x.2 : Int) = c.2) with
  | none => .error .keyError
  | some i => .ok (p1, i)

/-- `join_polygons(p1, e1, in_place=True)`, surface.py 1767-1831. -/
def joinPolygons [LabelNum L] (p1 : L) (e1 : ℕ) : Act L (Poly K) Unit := do
  let s ← get
  let poly1 ← liftE (s.polygon p1)
  let c ← liftE (s.oppositeEdge! p1 e1)
  let p2 := c.1
  let e2 := c.2.toNat
  let poly2 ← liftE (s.polygon p2)
  if p1 = p2 then throw .valueError
  let t ← liftE (s.edgeTransformation p2 e2)
  let m := joinEdgeMap p1 e1 (nv poly1) p2 e2 (nv poly2)
  let es := m.map (fun x => if x.1 = p1 then poly1.edge x.2 else t.derivative.mulVec (poly2.edge x.2))
  let newPolygon ← liftE (Poly.ofEdges es)
  let glueList ← liftE (m.mapM (fun x => do
    let c ← s.oppositeEdge! x.1 x.2
    if c.1 = p1 ∨ c.1 = p2 then invEdgeMap m p1 c else return c))
  let roots ← liftE s.rootsList
  if p2 ∈ roots then setRoots (roots.map (fun l => if l = p2 then p1 else l))
  removePolygon p2
  removePolygon p1
  let _ ← addPolygon newPolygon (some p1)
  glueAll p1 0 glueList

/-- `old_to_new_labels` applied to a pair if it is in the dictionary, surface.py 1880-1896; `v2` is already
the shifted one, i.e. `v1 < v2`. -/
def subdivideOldToNew (p newLabel : L) (ne v1 v2 : ℕ) (c : L × Int) : L × Int :=
  if c.1 = p then
    match (List.range (v2 - v1)).find? (fun i => (((v1 + i) % ne : ℕ) : Int) = c.2) with
    | some i => (newLabel, (i : Int) + 1)
    | none =>
      match (List.range (ne + v1 - v2)).find? (fun i => (((v2 + i) % ne : ℕ) : Int) = c.2) with
      | some i => (p, (i : Int) + 1)
      | none => c
  else c

/-- `for e in range(1, ...): ... self.glue((label, e), pair)`, surface.py 1887-1897. -/
def glueOptions (l : L) : ℕ → List (Option (L × Int)) → Act L (Poly K) Unit
  | _, [] => pure ()
  | _, none :: _ => throw .typeError
  | e, some c :: cs => do glue (l, e) c; glueOptions l (e + 1) cs

/-- `subdivide_polygon(p, v1, v2, new_label=...)`, surface.py 1833-1897. -/
def subdividePolygon [LabelNum L] (p : L) (v1 v2 : ℕ) (newLabel : Option L) : Act L (Poly K) Unit := do
  let s ← get
  let poly ← liftE (s.polygon p)
  let ne := nv poly
  if v1 ≥ ne ∨ v2 ≥ ne then throw .valueError
  if ((v1 : Int) - v2).natAbs ≤ 1 ∨ ((v1 : Int) - v2).natAbs ≥ ne - 1 then throw .valueError
  let v2 := if v2 < v1 then v2 + ne else v2
  let newpoly1 ← liftE (Poly.ofEdges ((poly.vertex v2 - poly.vertex v1) ::
    (List.range (v1 + ne - v2)).map (fun i => poly.edge (v2 + i))))
  let newpoly2 ← liftE (Poly.ofEdges ((poly.vertex v1 - poly.vertex v2) ::
    (List.range (v2 - v1)).map (fun i => poly.edge (v1 + i))))
  let old1 ← liftE ((List.range (v1 + ne - v2)).mapM (fun i => s.oppositeEdge p (((v2 + i) % ne : ℕ) : Int)))
  let old2 ← liftE ((List.range (v2 - v1)).mapM (fun i => s.oppositeEdge p (((v1 + i) % ne : ℕ) : Int)))
  removePolygon p
  let _ ← addPolygon newpoly1 (some p)
  let newLabel ← addPolygon newpoly2 newLabel
  glue (p, 0) (newLabel, 0)
  glueOptions p 1 (old1.map (fun c => c.map (subdivideOldToNew p newLabel ne v1 v2)))
  glueOptions newLabel 1 (old2.map (fun c => c.map (subdivideOldToNew p newLabel ne v1 v2)))

/-- `refine_polygon(label, surface, gluings)`, surface.py 1565-1581. -/
def refinePolygon [LabelNum L] (l : L) (surface : MSurf L (Poly K)) (gl : List (ℕ × (L × Int))) :
    Act L (Poly K) Unit := do
  let s ← get
  let old ← liftE (s.polygon l)
  let oldGluings ← liftE (s.oppositeEdges l (nv old))
  removePolygon l
  let ls ← liftE surface.labels
  let ps ← liftE (ls.mapM (fun x => do return (x, ← surface.polygon x)))
  addAll ps
  let gs ← liftE surface.gluingPairs
  gluePairs gs
  let rec loop : List (ℕ × (L × Int)) → Act L (Poly K) Unit
    | [] => pure ()
    | (e, o) :: xs => do
      match oldGluings[e]? with
      | none => throw .indexError
      | some none => throw .typeError
      | some (some c) =>
        if c.1 = l then
          match gl.find? (fun y => (y.1 : Int) = c.2) with
          | none => throw .keyError
          | some y => glue y.2 o
        else glue c o
        loop xs
  loop gl

/-- `to_new` in `triangle_flip`, surface.py 1090-1098. -/
def flipToNew (l0 : L) (d0 : ℕ) (l1 : L) (d1 : ℕ) (c : L × Int) : Except Err (L × Int) :=
  if c.1 = l0 then
    if c.2 = d0 then .error .assertionError
    else if c.2 = ((d0 + 1) % 3 : ℕ) then .ok (l1, ((d1 + 2) % 3 : ℕ))
    else if c.2 = ((d0 + 2) % 3 : ℕ) then .ok (l0, ((d0 + 1) % 3 : ℕ))
    else .error .assertionError
  else if c.1 = l1 then
    if c.2 = d1 then .error .assertionError
    else if c.2 = ((d1 + 1) % 3 : ℕ) then .ok (l0, ((d0 + 2) % 3 : ℕ))
    else if c.2 = ((d1 + 2) % 3 : ℕ) then .ok (l1, ((d1 + 1) % 3 : ℕ))
    else .error .assertionError
  else .ok c

/-- `self.glue(x, to_new(*c))`. -/
def glueToNew (l0 : L) (d0 : ℕ) (l1 : L) (d1 : ℕ) (x : L × Int) (c : Option (L × Int)) :
    Act L (Poly K) Unit := do
  match c with
  | none => throw .typeError
  | some c =>
    let y ← liftE (flipToNew l0 d0 l1 d1 c)
    glue x y

/-- The new triangle `Q[i]`, surface.py 1069-1083: `a` is the apex of the other triangle, `b` the apex of
this one and `c` the start of the diagonal, rotated such that the diagonal has index `d`. -/
def flipTriangle (a b c : Vec K) (d : ℕ) : Except Err (Poly K) := do
  let q ← Poly.ofVertices ([a, b, c].drop (3 - d) ++ [a, b, c].take (3 - d))
  return q.translate (-q.vertex 0)

/-- `triangle_flip(label, edge, in_place=True)`, surface.py 1000-1104. -/
def triangleFlip (l0 : L) (d0 : ℕ) : Act L (Poly K) Unit := do
  let s ← get
  let c ← liftE (s.oppositeEdge! l0 d0)
  let l1 := c.1
  let d1 := c.2.toNat
  let P0 ← liftE (s.polygon l0)
  let P1 ← liftE (s.polygon l1)
  if nv P0 ≠ 3 ∨ nv P1 ≠ 3 then throw .valueError
  let conv ← liftE (s.isConvexEdge l0 d0 true)
  if ¬ conv then throw .valueError
  let T ← liftE (s.edgeTransformation l1 d1)
  let P1 ← liftE (Poly.ofVertices (P1.map T.call))
  let g0 ← liftE ((List.range 3).mapM (fun i => s.oppositeEdge l0 (((d0 + i) % 3 : ℕ) : Int)))
  let g1 ← liftE ((List.range 3).mapM (fun i => s.oppositeEdge l1 (((d1 + i) % 3 : ℕ) : Int)))
  if P0.vertex d0 ≠ P1.vertex (d1 + 1) then throw .assertionError
  if P0.vertex (d0 + 1) ≠ P1.vertex d1 then throw .assertionError
  let Q0 ← liftE (flipTriangle (P1.vertex (d1 + 2)) (P0.vertex (d0 + 2)) (P0.vertex d0) d0)
  let Q1 ← liftE (flipTriangle (P0.vertex (d0 + 2)) (P1.vertex (d1 + 2)) (P1.vertex d1) d1)
  replacePolygon l0 Q0
  replacePolygon l1 Q1
  glue (l0, d0) (l1, d1)
  glueToNew l0 d0 l1 d1 (l0, ((d0 + 1) % 3 : ℕ)) (g0[2]?).join
  glueToNew l0 d0 l1 d1 (l0, ((d0 + 2) % 3 : ℕ)) (g1[1]?).join
  glueToNew l0 d0 l1 d1 (l1, ((d1 + 1) % 3 : ℕ)) (g1[2]?).join
  glueToNew l0 d0 l1 d1 (l1, ((d1 + 2) % 3 : ℕ)) (g0[1]?).join

end MSurf
end Flat
