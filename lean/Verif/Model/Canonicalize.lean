import Verif.Model.SurfaceViews

/-!
# Model of `standardize_polygons` and `canonicalize`

`standardize_polygons` of `flatsurf/geometry/surface.py` and `flatsurf/geometry/categories/similarity_surfaces.py`, and `canonicalize` of
`flatsurf/geometry/categories/translation_surfaces.py` after its first step, i.e., as a function of the Delaunay decomposition of the surface.
-/

namespace Flat
namespace Poly
variable {K : Type} [Field K] [LinearOrder K]

/-- The loop over the vertices in `standardize_polygons`, surface.py 1145-1149: the lowest vertex, the leftmost one of the lowest ones. -/
def bestVertex (p : Poly K) : ℕ :=
  ((List.range p.length).drop 1).foldl (fun best v =>
    if (p.vertex v).2 < (p.vertex best).2 ∨ (p.vertex v).2 = (p.vertex best).2 ∧ (p.vertex v).1 < (p.vertex best).1 then v else best) 0

end Poly

namespace MSurf
variable {L K : Type} [LinearOrder L] [LabelNum L] [Field K] [LinearOrder K] [IsStrictOrderedRing K]

/-- The entry of `cv` for a polygon, surface.py 1150-1153. -/
def canonicalVertex (x : L × Poly K) : Option (L × ℕ) :=
  let best := x.2.bestVertex
  if ¬ (best = 0 ∧ x.2.vertex best = 0) then some (x.1, best) else none

/-- The loop surface.py 1154-1155. -/
def setVertexZeros : List (L × ℕ) → Act L (Poly K) Unit
  | [] => pure ()
  | x :: xs => do
    setVertexZero x.1 x.2
    setVertexZeros xs

/-- `standardize_polygons(in_place=True)`, surface.py 1106-1157. -/
def standardizePolygons : Act L (Poly K) Unit := do
  let s ← get
  let ls ← liftE s.labels
  let ps ← liftE s.polygonList
  setVertexZeros ((ls.zip ps).filterMap canonicalVertex)

/-- The state after a method that succeeds. -/
def exec (m : Act L (Poly K) Unit) (s : MSurf L (Poly K)) : Except Err (MSurf L (Poly K)) :=
  match m s with
  | .ok _ t => .ok t
  | .error e _ => .error e

/-- `standardize_polygons()` of a surface that is not mutable, categories/similarity_surfaces.py 3855-3893. -/
def standardized (D : MSurf L (Poly K)) : Except Err (MSurf L (Poly K)) := do
  let s ← exec (fromSurface D none) empty
  let s ← exec standardizePolygons s
  exec setImmutable s

/-- The loop translation_surfaces.py 466-469; the roots of `ss` are changed while `ss.labels()` is being iterated, but on a connected surface the
iterator goes on with the component from which it started. -/
def chooseRoot (ss s : MSurf L (Poly K)) : List L → Except Err (MSurf L (Poly K))
  | [] => .ok s
  | label :: labels => do
    let ss ← exec (setRoots [label]) ss
    let c ← ss.cmp s
    let s ← if c > 0 then exec (setRoots [label]) s else .ok s
    chooseRoot ss s labels

/-- `canonicalize()`, translation_surfaces.py 400-477, where `D` is `self.delaunay_decompose().codomain()` in line 452. -/
def canonicalize (D : MSurf L (Poly K)) : Except Err (MSurf L (Poly K)) := do
  let s ← standardized D
  let s ← exec (fromSurface s none) empty
  let ss ← exec (fromSurface s none) empty
  let labels ← ss.labels
  let s ← chooseRoot ss s labels
  let labels ← s.labels
  let s ← exec (relabel (labels.zipIdx.map (fun x => (x.1, num x.2)))) s
  exec setImmutable s

end MSurf
end Flat
