import Verif.Model.SurfaceOps
import Mathlib.Data.Prod.Lex

/-!
# Surfaces built from polygons: doubles, billiards and subdivisions

`polygon_double`, `billiard` (of a convex polygon), `subdivide` and `subdivide_edges`.  Each of them is an action that
is run on an empty surface.
-/

namespace Flat

namespace Poly
variable {K : Type} [Field K] [LinearOrder K]

/-- `Polygon(edges=[(-x, y) for x, y in reversed(p.edges())])`, similarity_surface_generators.py 862-864 and 932-933. -/
def mirror (p : Poly K) : Except Err (Poly K) := ofEdges (p.edges.reverse.map (fun e => (-e.1, e.2)))

end Poly

namespace MSurf
section
variable {K : Type} [Field K] [LinearOrder K]

/-- `polygon_double(P)`, similarity_surface_generators.py 922-941. -/
def polygonDouble (p : Poly K) : Act ℕ (Poly K) Unit := do
  let n := p.length
  let q ← liftE p.mirror
  let _ ← addPolygon p (some 0)
  let _ ← addPolygon q (some 1)
  gluePairs ((List.range n).map (fun (i : ℕ) => (((0, (i : Int)), (1, (n : Int) - i - 1)) : (ℕ × Int) × (ℕ × Int))))
  setImmutable

/-- `billiard(P)`, similarity_surface_generators.py 719-876, the branch 849-853 for a convex polygon: there are no internal
edges and `m = 1`.  The labels are chosen by `add_polygon`.  The category and the deprecated keyword `rational` are not
modelled; nor is the branch 811-848 that triangulates polygons that are not convex. -/
def billiard (p : Poly K) : Act ℕ (Poly K) Unit :=
  if ¬ p.isConvex false then throw .notImplemented
  else do
    let external := (List.range p.length).map (fun (i : ℕ) => ((0, (i : Int)) : ℕ × Int))
    let m := 1
    let _ ← addPolygon p none
    let q ← liftE p.mirror
    let _ ← addPolygon q none
    let s ← get
    let gs ← liftE (external.mapM (fun x => do
      let ne ← s.polygon x.1
      return (x, ((m + x.1, (nv ne : Int) - x.2 - 1) : ℕ × Int))))
    gluePairs gs
    setImmutable

end

section
variable {L K : Type} [LinearOrder L] [Field K] [LinearOrder K]

/-- Labels of pieces are pairs.  Python compares pairs lexicographically.  (Integers that are not pairs are never used
as labels by `subdivide`; the instance is only needed because `add_polygon` can pick labels.) -/
instance instLabelNumLex [LabelNum L] : LabelNum (Lex (L × ℕ)) :=
  ⟨fun n => toLex (num 0, n), fun _ _ h => (Prod.mk.inj (toLex.injective h)).2⟩

/-- The gluings made for the piece `p` of the polygon `l` which is cut into `n` pieces, similarity_surfaces.py
3432-3439. -/
def subdividePieceGluings (s : MSurf L (Poly K)) (l : L) (n p : ℕ) :
    Except Err (List ((Lex (L × ℕ) × Int) × (Lex (L × ℕ) × Int))) := do
  let opposite ← s.oppositeEdge l p
  return ((toLex (l, p), 1), (toLex (l, (p + 1) % n), 2)) ::
    match opposite with
    | none => []
    | some c => [((toLex (l, p), 0), (toLex (c.1, c.2.toNat), 0))]

/-- `subdivide()`, similarity_surfaces.py 3344-3443.  (The calls of `opposite_edge` on `self` are made before the calls
of `glue` on the new surface, they do not depend on each other.) -/
def subdivide [LabelNum L] (s : MSurf L (Poly K)) : Act (Lex (L × ℕ)) (Poly K) Unit := do
  let labels ← liftE s.labels
  let polygons ← liftE (labels.mapM s.polygon)
  let subdivisions ← liftE (polygons.mapM Poly.subdivide)
  addAll ((labels.zip subdivisions).map (fun x => x.2.zipIdx.map (fun y => (toLex (x.1, y.2), y.1)))).flatten
  let roots ← liftE s.rootsList
  setRoots (roots.map (fun l => toLex (l, 0)))
  let gs ← liftE ((labels.zip subdivisions).mapM (fun x => do
    let g ← (List.range x.2.length).mapM (subdividePieceGluings s x.1 x.2.length)
    return g.flatten))
  gluePairs gs.flatten
  setImmutable

/-- The gluings made for the edge `e` of the polygon `l`, similarity_surfaces.py 3509-3518. -/
def subdivideEdgeGluings (s : MSurf L (Poly K)) (parts : ℕ) (l : L) (e : ℕ) :
    Except Err (List ((L × Int) × (L × Int))) := do
  let opposite ← s.oppositeEdge l e
  match opposite with
  | none => return []
  | some c => return (List.range parts).map (fun (p : ℕ) =>
      ((l, (e : Int) * parts + p), (c.1, c.2 * parts + ((parts : Int) - p - 1))))

/-- `subdivide_edges(parts)`, similarity_surfaces.py 3445-3524, without the morphism. -/
def subdivideEdges [LabelNum L] (s : MSurf L (Poly K)) (parts : ℕ) : Act L (Poly K) Unit := do
  let labels ← liftE s.labels
  let polygons ← liftE (labels.mapM s.polygon)
  let subdivideds ← liftE (polygons.mapM (fun p => p.subdivideEdges parts))
  addAll (labels.zip subdivideds)
  let roots ← liftE s.rootsList
  setRoots roots
  let gs ← liftE ((labels.zip polygons).mapM (fun x => do
    let g ← (List.range x.2.length).mapM (subdivideEdgeGluings s parts x.1)
    return g.flatten))
  gluePairs gs.flatten
  setImmutable

/-- `area()` of a surface, the sum of the areas of the polygons, cone_surfaces.py 244-257. -/
def totalArea (s : MSurf L (Poly K)) : Except Err K := do
  let labels ← s.labels
  let polygons ← labels.mapM s.polygon
  return (polygons.map Poly.area).sum

end
end MSurf
end Flat
