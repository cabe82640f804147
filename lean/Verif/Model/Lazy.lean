import Verif.Model.SurfaceOps
import Verif.Model.Delaunay

/-!
# Model of surfaces computed from another surface

`flatsurf/geometry/lazy.py` (`GL2RImageSurface`, `LazyRelabeledSurface`) and `flatsurf/geometry/minimal_cover.py`.  What these
classes use of the surface they refer to are the results of `polygon(label)` and `opposite_edge(label, edge)`, so a surface is
a pair of functions.  The reference is immutable, so these functions do not change.  Caches, categories and base rings are not
modelled; edges are natural numbers.
-/

namespace Flat

/-- `polygon(label)` and `opposite_edge(label, edge)` of an immutable surface. -/
structure RSurf (L K : Type) where
  polygon : L → Except Err (Poly K)
  opp : L → ℕ → Except Err (Option (L × ℕ))

namespace RSurf
variable {L K : Type} [Field K] [LinearOrder K] [IsStrictOrderedRing K]

/-- `l, e = surface.opposite_edge(label, edge)`; unpacking `None` is a `TypeError`. -/
def opp! (S : RSurf L K) (l : L) (e : ℕ) : Except Err (L × ℕ) := do
  match ← S.opp l e with
  | none => throw .typeError
  | some c => return c

/-- A surface of `surface.py` with these two methods; edges are non-negative. -/
def ofMSurf [LinearOrder L] (s : MSurf L (Poly K)) : RSurf L K where
  polygon := s.polygon
  opp l e := do
    match ← s.oppositeEdge l e with
    | none => return none
    | some c => return some (c.1, c.2.toNat)

/-- `matrix * polygon`, categories/euclidean_polygons.py 161-208. -/
def mulE (m : Mat2 K) (p : Poly K) : Except Err (Poly K) :=
  match p.mul m with
  | none => .error .valueError
  | some q => .ok q

/-- `similarity(polygon)`, similarity.py 285-334: a polygon that is not convex is taken for a vector and
`w[0]` raises a `TypeError`. -/
def callPoly (g : Similarity K) (p : Poly K) : Except Err (Poly K) :=
  if p.isConvex false then Poly.ofVertices (p.map g.call) else .error .typeError

/-- `edge_matrix(p, e)`, categories/similarity_surfaces.py 1324-1367. -/
def edgeMatrix (S : RSurf L K) (l : L) (e : ℕ) : Except Err (Mat2 K) := do
  let p ← S.polygon l
  let c ← S.opp! l e
  let pp ← S.polygon c.1
  MSurf.simFromVectors (p.edge e) (-pp.edge c.2)

/-- `edge_transformation(p, e)`, categories/similarity_surfaces.py 1392-1431. -/
def edgeTransformation (S : RSurf L K) (l : L) (e : ℕ) : Except Err (Similarity K) := do
  let q ← S.polygon l
  let c ← S.opp! l e
  let qq ← S.polygon c.1
  match edgeTransformationPts (q.vertex e) (q.vertex (e + 1)) (qq.vertex (c.2 + 1)) (qq.vertex c.2) with
  | none => .error .valueError
  | some g => return g

/-- `GL2RImageSurface`, lazy.py 635-870: `polygon` 704-722 and `opposite_edge` 724-756.  An edge that the polygon does not have
leads to a negative index if the orientation is reversed; this is modelled by an exception. -/
def gl2r (m : Mat2 K) (S : RSurf L K) : RSurf L K where
  polygon l := do mulE m (← S.polygon l)
  opp l e :=
    if m.det < 0 then do
      let q ← mulE m (← S.polygon l)
      if q.length ≤ e then throw .indexError
      let c ← S.opp! l (q.length - 1 - e)
      let pp ← S.polygon c.1
      return some (c.1, pp.length - 1 - c.2)
    else do
      let c ← S.opp! l e
      return some c

/-- The matrix of a label of a minimal cover, minimal_cover.py 243. -/
def labelMatrix (l : L × K × K) : Mat2 K := ⟨l.2.1, -l.2.2, l.2.2, l.2.1⟩

/-- `MinimalTranslationCover`, minimal_cover.py 73-330: `polygon` 225-245 and `opposite_edge` 248-270. -/
def translationCover (S : RSurf L K) : RSurf (L × K × K) K where
  polygon l := do mulE (labelMatrix l) (← S.polygon l.1)
  opp l e := do
    let c ← S.opp! l.1 e
    let m ← S.edgeMatrix c.1 c.2
    let aa := l.2.1 * m.a - l.2.2 * m.c
    let bb := l.2.2 * m.a + l.2.1 * m.c
    return some ((c.1, aa, bb), c.2)

/-- `MinimalHalfTranslationCover`, minimal_cover.py 333-561: `polygon` 469-489 and `opposite_edge` 491-516. -/
def halfTranslationCover (S : RSurf L K) : RSurf (L × K × K) K where
  polygon l := do mulE (labelMatrix l) (← S.polygon l.1)
  opp l e := do
    let c ← S.opp! l.1 e
    let m ← S.edgeMatrix l.1 e
    let aa := l.2.1 * m.a + l.2.2 * m.c
    let bb := l.2.2 * m.a - l.2.1 * m.c
    if aa > 0 ∨ aa = 0 ∧ bb > 0 then return some ((c.1, aa, bb), c.2)
    else return some ((c.1, -aa, -bb), c.2)

/-- `MinimalPlanarCover`, minimal_cover.py 564-794: `polygon` 716-734 and `opposite_edge` 736-758. -/
def planarCover (S : RSurf L K) : RSurf (L × Similarity K) K where
  polygon l := do callPoly l.2 (← S.polygon l.1)
  opp l e := do
    let c ← S.opp! l.1 e
    let me ← S.edgeTransformation l.1 e
    return some ((c.1, l.2.mul me.inv), c.2)

end RSurf

/-! ### Relabeling by integers -/

/-- The labels of a surface in the order of the iteration: position `n` has a label, or the iteration is over before. -/
abbrev LabelSeq (L : Type) := ℕ → Option L

namespace LabelSeq
variable {L : Type} [DecidableEq L]

/-- `_to_reference_label(label)`, lazy.py 1917-1929: `labels()[label]`. -/
def toRef (labs : LabelSeq L) (n : ℕ) : Except Err L :=
  match labs n with
  | none => .error .indexError
  | some l => .ok l

/-- The loop of `_from_reference_label`, lazy.py 1931-1949, from position `n` on, for at most `fuel` rounds. -/
def search (labs : LabelSeq L) (l : L) : ℕ → ℕ → Except Err ℕ
  | 0, _ => .error .outOfFuel
  | fuel + 1, n =>
    match labs n with
    | none => .error .valueError
    | some l' => if l' = l then .ok n else search labs l fuel (n + 1)

end LabelSeq

namespace RSurf
variable {L K : Type} [DecidableEq L] [Field K] [LinearOrder K] [IsStrictOrderedRing K]

/-- `LazyRelabeledSurface`, lazy.py 1888-2110: `polygon` 2003-2015 and `opposite_edge` 2017-2043.  The parameter `fuel` bounds
the number of rounds of the search for a label. -/
def relabeled (S : RSurf L K) (labs : LabelSeq L) (fuel : ℕ) : RSurf ℕ K where
  polygon n := do S.polygon (← labs.toRef n)
  opp n e := do
    let l ← labs.toRef n
    match ← S.opp l e with
    | none => return none
    | some c => return some (← labs.search c.1 fuel 0, c.2)

end RSurf
end Flat
