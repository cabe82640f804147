import Verif.Model.SurfaceOps
import Verif.Model.Euclidean

/-!
# Veering triangulations

`is_veering_triangulated`, `_delaunay_edge_needs_flip_Linfinity` and `veering_triangulation` of dilation surfaces,
categories/dilation_surfaces.py 298-453 and 686-791.
-/

namespace Flat
variable {K : Type} [Field K] [LinearOrder K]

/-- `slope(a)` with the default `rotate=1`, euclidean.py 663-727. -/
def slope1 (a : Vec K) : Except Err Int :=
  match slope a 1 with
  | some s => .ok s
  | none => .error .valueError

/-- The decision of `_delaunay_edge_needs_flip_Linfinity`, dilation_surfaces.py 400-453, from the vectors `edge1`, `edge1L`, `edge1R`,
`edge2L`, `edge2R`, with those of the second triangle carried to the first one. -/
def linfCode (v a b c d : Vec K) : Except Err ℕ :=
  if ccw c b ≤ 0 ∨ ccw a d ≤ 0 then .ok 0
  else do
    let s ← slope1 v
    let s1L ← slope1 a
    let s1R ← slope1 b
    let s2L ← slope1 c
    let s2R ← slope1 d
    let x := |v.1|
    let y := |v.2|
    let new := c + b
    let xnew := |new.1|
    let ynew := |new.2|
    if (s = s1L ∧ s1L = s1R) ∧ (s = s2L ∧ s2L = s2R) then
      let snew ← slope1 new
      return if snew ≠ s ∨ max xnew ynew < max x y then 2 else 0
    else if s = s1L ∧ s1L = s1R then
      return if x = |a.1| + |b.1| ∧ y = |a.2| + |b.2| then 2 else 0
    else if s = s2L ∧ s2L = s2R then
      return if x = |c.1| + |d.1| ∧ y = |c.2| + |d.2| then 2 else 0
    else if (s1L = s2L ∧ s2L = 1) ∧ (s1R = s2R ∧ s2R = -1) then
      if x ≠ |a.1| + |b.1| then .error .assertionError
      else if x ≠ |c.1| + |d.1| then .error .assertionError
      else return if ynew < x then 1 else 0
    else if (s1L = s2L ∧ s2L = -1) ∧ (s1R = s2R ∧ s2R = 1) then
      if y ≠ |a.2| + |b.2| then .error .assertionError
      else if y ≠ |c.2| + |d.2| then .error .assertionError
      else return if xnew < y then 1 else 0
    else return 0

namespace MSurf
variable {L : Type} [LinearOrder L] [LabelNum L]

/-- `_delaunay_edge_needs_flip_Linfinity(p1, e1, p2, e2)`, dilation_surfaces.py 338-453.  (`False` is `0`.) -/
def needsFlipLinf (s : MSurf L (Poly K)) (l1 : L) (e1 : ℕ) (l2 : L) (e2 : ℕ) : Except Err ℕ := do
  let c ← s.oppositeEdge l1 e1
  if c ≠ some (l2, (e2 : Int)) then throw .assertionError
  let p1 ← s.polygon l1
  let p2 ← s.polygon l2
  if nv p1 ≠ 3 ∨ nv p2 ≠ 3 then throw .valueError
  let sim ← s.edgeTransformation l2 e2
  let m := sim.derivative
  linfCode (p1.edge e1) (p1.edge (e1 + 2)) (p1.edge (e1 + 1)) (m.mulVec (p2.edge (e2 + 2))) (m.mulVec (p2.edge (e2 + 1)))

/-- The loop of `is_veering_triangulated(certificate=True)`, dilation_surfaces.py 328-336. -/
def veeringTest (s : MSurf L (Poly K)) : List L → Except Err (Bool × Option L)
  | [] => .ok (true, none)
  | l :: ls => do
    let p ← s.polygon l
    if nv p ≠ 3 then return (false, some l)
    let s0 ← slope1 (p.edge 0)
    let s1 ← slope1 (p.edge 1)
    let s2 ← slope1 (p.edge 2)
    if s0 = s1 ∧ s1 = s2 then return (false, some l)
    veeringTest s ls

/-- `is_veering_triangulated(certificate=True)`, dilation_surfaces.py 298-336. -/
def isVeeringTriangulated (s : MSurf L (Poly K)) : Except Err (Bool × Option L) := do
  veeringTest s (← s.labels)

/-- `triangles.add(p)` for a set. -/
def setAdd (ts : List L) (p : L) : List L := if p ∈ ts then ts else p :: ts

/-- The loop over the edges of `p1`, dilation_surfaces.py 777-788.  `limit` is negative when there is no limit.  The result is the set of the
triangles that are left and the limit. -/
def veeringEdges (bound : ℕ) (p1 : L) : List ℕ → List L → Int → Act L (Poly K) (List L × Int)
  | [], ts, limit => pure (ts, limit)
  | e1 :: es, ts, limit => do
    let s ← get
    let c ← liftE (s.oppositeEdge! p1 e1)
    let n ← liftE (s.needsFlipLinf p1 e1 c.1 c.2.toNat)
    if bound ≤ n then
      triangleFlip p1 e1
      let ts := setAdd (setAdd ts p1) c.1
      if limit - 1 = 0 then pure (ts, limit - 1)
      else veeringEdges bound p1 es ts (limit - 1)
    else veeringEdges bound p1 es ts limit

/-- The loop `while triangles and limit`, dilation_surfaces.py 775-788.  The function `pop` says which element of the set is taken. -/
def veeringLoop (bound : ℕ) (pop : List L → L) : ℕ → List L → Int → Act L (Poly K) Unit
  | 0, _, _ => liftE (.error .outOfFuel)
  | fuel + 1, ts, limit =>
    if ts = [] ∨ limit = 0 then pure ()
    else do
      let p1 := pop ts
      let r ← veeringEdges bound p1 (List.range 3) (ts.erase p1) limit
      veeringLoop bound pop fuel r.1 r.2

/-- `veering_triangulation(l_infinity, limit)`, dilation_surfaces.py 760-791, on the mutable copy of the triangulated surface; the
triangulation (line 760) and the copy (lines 764-766) are not repeated here. -/
def veeringTriangulation (pop : List L → L) (fuel : ℕ) (lInfinity : Bool) (limit : Option Int) : Act L (Poly K) Unit := do
  let s ← get
  let ls ← liftE s.labels
  veeringLoop (if lInfinity then 1 else 2) pop fuel ls (limit.getD (-1))
  setImmutable

end MSurf
end Flat
