import Verif.Model.Lazy
import Verif.Model.Polygon

/-!
# Tangent vectors

`flatsurf/geometry/tangent_bundle.py`: tangent vectors of an immutable surface, which is given by its methods `polygon` and
`opposite_edge`.  Plots and rings other than the base ring are not modelled.
-/

namespace Flat

/-- `SimilaritySurfaceTangentVector`, tangent_bundle.py 34-156: its four attributes. -/
@[ext]
structure TVec (L K : Type) where
  label : L
  point : Vec K
  vector : Vec K
  position : Poly.Position
  deriving DecidableEq

namespace RSurf
variable {L K : Type} [Field K] [LinearOrder K]

/-- The point and the vector are moved across an edge, tangent_bundle.py 105-114 and 132-145. -/
def tvMove (S : RSurf L K) (l : L) (e : ℕ) (point vector : Vec K) : Except Err (TVec L K) := do
  let c ← S.opp! l e
  let g ← S.edgeTransformation l e
  let point2 := g.call point
  let vector2 := g.derivative.mulVec vector
  let q ← S.polygon c.1
  return ⟨c.1, point2, vector2, q.pointPosition point2⟩

/-- `SimilaritySurfaceTangentVector(bundle, label, point, vector)`, tangent_bundle.py 86-156. -/
def tangentVector (S : RSurf L K) (l : L) (point vector : Vec K) : Except Err (TVec L K) := do
  let p ← S.polygon l
  let pos := p.pointPosition point
  if vector = 0 then throw .notImplemented
  match pos with
  | .interior => return ⟨l, point, vector, pos⟩
  | .edgeInterior e =>
    if ccw (p.edge e) vector < 0 ∨ isAntiParallel (p.edge e) vector then S.tvMove l e point vector
    else return ⟨l, point, vector, pos⟩
  | .vertex v =>
    if isBetween (-p.edge (v + (p.length - 1))) (p.edge v) vector then throw .valueError
    else if isAntiParallel (p.edge (v + (p.length - 1))) vector then S.tvMove l ((v + (p.length - 1)) % p.length) point vector
    else return ⟨l, point, vector, pos⟩
  | .outside => throw .valueError

/-- `invert()`, tangent_bundle.py 294-303. -/
def tvInvert (S : RSurf L K) (t : TVec L K) : Except Err (TVec L K) :=
  match t.position with
  | .vertex _ => throw .valueError
  | _ => S.tangentVector t.label t.point (-t.vector)

/-- `bundle.edge(label, e)`, tangent_bundle.py 652-671. -/
def tvEdge (S : RSurf L K) (l : L) (e : ℕ) : Except Err (TVec L K) := do
  let p ← S.polygon l
  S.tangentVector l (p.vertex e) (p.edge e)

/-- `bundle.clockwise_edge(label, e)`, tangent_bundle.py 673-697. -/
def tvClockwiseEdge (S : RSurf L K) (l : L) (e : ℕ) : Except Err (TVec L K) := do
  let p ← S.polygon l
  S.tangentVector l (p.vertex (e + 1)) (-p.edge e)

/-- `edge_pointing_along()`, tangent_bundle.py 269-279. -/
def tvEdgePointingAlong [DecidableEq L] (S : RSurf L K) (t : TVec L K) : Except Err (Option (L × ℕ)) :=
  match t.position with
  | .vertex e => do
    let p ← S.polygon t.label
    if t.vector = p.edge e then return some (t.label, e) else return none
  | _ => return none

/-- `rotate_limit`, tangent_bundle.py 31. -/
def rotateLimit : ℕ := 100

/-- The loop of `clockwise_to`, tangent_bundle.py 422-433: the current polygon and vertex, the derivative of the way there, the
directions `v1` and `v2` that bound the current sector, and the edges that have been crossed. -/
def tvCwLoop (S : RSurf L K) (w : Vec K) : ℕ → L × ℕ → Mat2 K → Vec K → Vec K → List ℕ → Except Err ((L × ℕ) × List ℕ)
  | 0, d, _, _, _, codes => return (d, codes)
  | n + 1, d, der, v1, v2, codes =>
    if 0 ≤ ccw v2 w ∧ 0 < ccw w v1 then return (d, codes)
    else do
      let c ← S.opp! d.1 d.2
      let m ← S.edgeMatrix c.1 c.2
      let der := der.mul m
      let q ← S.polygon c.1
      let vertex := (c.2 + 1) % q.length
      S.tvCwLoop w n (c.1, vertex) der (der.mulVec (-q.edge c.2)) (der.mulVec (q.edge vertex)) (codes ++ [d.2])

/-- `clockwise_to(w, code=True)`, tangent_bundle.py 372-449.  The assertion in 434 holds always. -/
def clockwiseTo (S : RSurf L K) (t : TVec L K) (w : Vec K) : Except Err (TVec L K × List ℕ) :=
  if w = 0 then throw .valueError
  else match t.position with
  | .vertex v => do
    let p ← S.polygon t.label
    let r ← S.tvCwLoop w rotateLimit (t.label, v) Mat2.one t.vector (p.edge v) []
    let q ← S.polygon r.1.1
    let t' ← S.tangentVector r.1.1 (q.vertex r.1.2) w
    return (t', r.2)
  | _ => throw .notImplemented

/-- The loop of `counterclockwise_to`, tangent_bundle.py 505-519. -/
def tvCcwLoop (S : RSurf L K) (w : Vec K) : ℕ → L × ℕ → Mat2 K → List ℕ → Except Err ((L × ℕ) × List ℕ)
  | 0, d, _, codes => return (d, codes)
  | n + 1, d, der, codes => do
    let p ← S.polygon d.1
    let previous := (d.2 + (p.length - 1)) % p.length
    let c ← S.opp! d.1 previous
    let m ← S.edgeMatrix c.1 c.2
    let der := der.mul m
    let q ← S.polygon c.1
    let v1 := der.mulVec (q.edge c.2)
    let v2 := der.mulVec (-q.edge ((c.2 + (q.length - 1)) % q.length))
    if 0 ≤ ccw v1 w ∧ 0 < ccw w v2 then return (c, codes ++ [previous])
    else S.tvCcwLoop w n c der (codes ++ [previous])

/-- `counterclockwise_to(w, code=True)`, tangent_bundle.py 451-535. -/
def counterclockwiseTo (S : RSurf L K) (t : TVec L K) (w : Vec K) : Except Err (TVec L K × List ℕ) :=
  if w = 0 then throw .valueError
  else match t.position with
  | .vertex v => do
    let p ← S.polygon t.label
    let v2 := -p.edge (v + (p.length - 1))
    let r ← if 0 < ccw t.vector w ∧ 0 < ccw w v2 then pure ((t.label, v), []) else S.tvCcwLoop w rotateLimit (t.label, v) Mat2.one []
    let q ← S.polygon r.1.1
    let t' ← S.tangentVector r.1.1 (q.vertex r.1.2) w
    return (t', r.2)
  | _ => throw .notImplemented

end RSurf
end Flat
