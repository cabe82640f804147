import Verif.Model.ThurstonVeech

/-!
# Normalized coordinates

`normalized_coordinates` of half-translation surfaces, categories/half_translation_surfaces.py 324-463.  The coordinates of the new surface
are kept in the base field: the change to the subfield which they generate (`subfield_from_elements`, 418-428) is not modelled, nor is the
category of the new surface (461).
-/

namespace Flat
namespace MSurf
variable {L K : Type} [LinearOrder L] [Field K] [LinearOrder K]

/-- The loop over the corners of a polygon, half_translation_surfaces.py 404-413: the vectors `u`, `v` at the first corner `i`, `i + 1`, ...
that is not straight. -/
def findCorner (p : Poly K) : ℕ → ℕ → Except Err (Vec K × Vec K)
  | 0, _ => .error .outOfFuel
  | fuel + 1, i =>
    let u := p.edge i
    let v := -p.edge (i - 1)
    if ccw u v = 0 then findCorner p fuel (i + 1) else .ok (u, v)

/-- `matrix(2, [u, v]).transpose().inverse()`, half_translation_surfaces.py 414. -/
def cornerMatrix (u v : Vec K) : Mat2 K :=
  let d := u.1 * v.2 - v.1 * u.2
  ⟨v.2 / d, -v.1 / d, -u.2 / d, u.1 / d⟩

/-- The choice of the matrix, half_translation_surfaces.py 402-415.  (For a surface without polygons `next` raises `StopIteration`.) -/
def normalizingMatrix (s : MSurf L (Poly K)) : Except Err (Mat2 K) := do
  match ← s.labels with
  | [] => .error .indexError
  | lab :: _ =>
    let p ← s.polygon lab
    let c ← findCorner p p.length 1
    let M := cornerMatrix c.1 c.2
    if 0 < M.det then return M else .error .assertionError

/-- `normalized_coordinates()`, half_translation_surfaces.py 324-463, run on an empty surface.  `relabelling[lab]` is the position of `lab`
in `labels()` since `add_polygon` picks the labels 0, 1, ... -/
def normalizedCoordinates (s : MSurf L (Poly K)) : Act ℕ (Poly K) (Mat2 K) := do
  let M ← liftE s.normalizingMatrix
  let labels ← liftE s.labels
  let polygons ← liftE (labels.mapM (fun l => do
    let p ← s.polygon l
    Poly.ofEdges (p.edges.map M.mulVec)))
  addPolys polygons
  let gs ← liftE s.gluingPairs
  gluePairs (gs.map (fun x => ((labels.idxOf x.1.1, x.1.2), (labels.idxOf x.2.1, x.2.2))))
  return M

end MSurf
end Flat
