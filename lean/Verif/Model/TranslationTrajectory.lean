import Verif.Model.Flow
import Verif.Model.FlowMap

/-!
# Model of straight line trajectories through interval maps

`flow_map` of `flatsurf/geometry/categories/euclidean_polygons.py` and `StraightLineTrajectoryTranslation` of
`flatsurf/geometry/straight_line_trajectory.py`.  Directions are over the base ring; that the maps are cached (804-810) is not modelled.
-/

namespace Flat
variable {L K : Type} [Field K] [LinearOrder K]

/-- `length_bot(i)`, interval_exchange_transformation.py 108-110. -/
def FlowMap.lengthBot [DecidableEq L] (T : FlowMap L K) (i : L) : Except Err K :=
  if i ∈ T.botLabels then
    match T.botLengths[T.botLabels.idxOf i]? with
    | some l => .ok l
    | none => .error .indexError
  else .error .keyError

/-- `length_top(i)`, interval_exchange_transformation.py 112-114. -/
def FlowMap.lengthTop [DecidableEq L] (T : FlowMap L K) (i : L) : Except Err K :=
  if i ∈ T.topLabels then
    match T.topLengths[T.topLabels.idxOf i]? with
    | some l => .ok l
    | none => .error .indexError
  else .error .keyError

namespace Poly

/-- The variables `rt`, `lt`, `lb`, `rb` of `flow_map`, categories/euclidean_polygons.py 1940-1943. -/
structure FlowEnds where
  rt : Option ℕ
  lt : Option ℕ
  lb : Option ℕ
  rb : Option ℕ
deriving DecidableEq

/-- One iteration of the loop of `flow_map`, categories/euclidean_polygons.py 1949-1960. -/
def flowEndsStep (lengths : List K) (s : FlowEnds) (i : ℕ) : FlowEnds :=
  let j := (i + 1) % lengths.length
  let l0 := lengths[i]?.getD 0
  let l1 := lengths[j]?.getD 0
  let s := if l0 ≥ 0 ∧ l1 < 0 then { s with rt := some j } else s
  let s := if l0 > 0 ∧ l1 ≤ 0 then { s with rb := some j } else s
  let s := if l0 ≤ 0 ∧ l1 > 0 then { s with lb := some j } else s
  if l0 < 0 ∧ l1 ≥ 0 then { s with lt := some j } else s

/-- The slice `a[i:j]` if `i < j` and `a[i:] + a[:j]` otherwise, categories/euclidean_polygons.py 1967-1982. -/
def cyclicSlice {α : Type} (a : List α) (i j : ℕ) : List α :=
  if i < j then (a.take j).drop i else a.drop i ++ a.take j

/-- `flow_map(direction)`, categories/euclidean_polygons.py 1892-1989. -/
def flowMap (p : Poly K) (direction : Vec K) : Except Err (FlowMap ℕ K) :=
  let lengths := p.edges.map fun e => direction.2 * e.1 + (-direction.1) * e.2
  let n := lengths.length
  let s := (List.range n).foldl (flowEndsStep lengths) ⟨none, none, none, none⟩
  match s.rt, s.lt, s.lb, s.rb with
  | some rt, some lt, some lb, some rb =>
    FlowMap.mk' (cyclicSlice (List.range n) lb rb) (cyclicSlice lengths lb rb)
      (cyclicSlice (List.range n) rt lt).reverse ((cyclicSlice lengths rt lt).reverse.map fun x => -x)
  | _, _, _, _ => .error .assertionError

end Poly

/-- `get_linearity_coeff(u, v)`, straight_line_trajectory.py 46-84. -/
def linearityCoeff (u v : Vec K) : Except Err K :=
  if u.1 ≠ 0 then
    if v.2 ≠ v.1 / u.1 * u.2 then .error .valueError else .ok (v.1 / u.1)
  else if v.1 ≠ 0 then .error .valueError
  else if u.2 ≠ 0 then .ok (v.2 / u.2)
  else .error .valueError

/-- `StraightLineTrajectoryTranslation`, straight_line_trajectory.py 712-761: either `_points` is `None` and there is `_edge`, or there
are the direction `_vector` and the triples `_points`. -/
inductive TTraj (L K : Type) where
  | edge (seg : Seg L K)
  | points (vector : Vec K) (points : List (L × ℕ × K))
  deriving DecidableEq

namespace RSurf

/-- `_get_iet(label)`, straight_line_trajectory.py 802-810. -/
def ttIet (S : RSurf L K) (v : Vec K) (l : L) : Except Err (FlowMap ℕ K) := do
  let p ← S.polygon l
  p.flowMap v

/-- `StraightLineTrajectoryTranslation(tangent_vector)`, straight_line_trajectory.py 732-761.  The `RuntimeError` in 749 is modelled as a
failed assertion. -/
def ttNew (S : RSurf L K) (t : TVec L K) : Except Err (TTraj L K) := do
  let seg ← S.segment t
  if ← S.segIsEdge seg then return .edge seg
  let i ← match seg.start.position with
    | .edgeInterior i => Except.ok i
    | .vertex i => Except.ok i
    | _ => Except.error Err.assertionError
  let poly ← S.polygon seg.start.label
  let T ← S.ttIet t.vector seg.start.label
  let x ← linearityCoeff (poly.vertex (i + 1) - poly.vertex i) (seg.start.point - poly.vertex i)
  let len ← T.lengthBot i
  return .points t.vector [(seg.start.label, i, x * len)]

/-- `_next(p, e, x)`, straight_line_trajectory.py 763-787. -/
def ttNext (S : RSurf L K) (v : Vec K) (t : L × ℕ × K) : Except Err (L × ℕ × K) := do
  let T ← S.ttIet v t.1
  let (e, x) ← T.forwardImage t.2.1 t.2.2
  let (p, e) ← S.opp! t.1 e
  return (p, e, x)

/-- `_previous(p, e, x)`, straight_line_trajectory.py 789-795. -/
def ttPrevious (S : RSurf L K) (v : Vec K) (t : L × ℕ × K) : Except Err (L × ℕ × K) := do
  let (p, e) ← S.opp! t.1 t.2.1
  let T ← S.ttIet v p
  let (e, x) ← T.backwardImage e t.2.2
  return (p, e, x)

/-- `segment(i)` for the triple with index `i`, straight_line_trajectory.py 812-852. -/
def ttSegment (S : RSurf L K) (v : Vec K) (t : L × ℕ × K) : Except Err (Seg L K) := do
  let T ← S.ttIet v t.1
  let (e1, x1) ← T.forwardImage t.2.1 t.2.2
  let poly ← S.polygon t.1
  let l0 ← T.lengthBot t.2.1
  let l1 ← T.lengthTop e1
  let v0 ← S.tangentVector t.1 (poly.vertex t.2.1 + (t.2.2 / l0) • poly.edge t.2.1) v
  let v1 ← S.tangentVector t.1 (poly.vertex e1 + ((l1 - x1) / l1) • poly.edge e1) (-v)
  return ⟨v0, v1⟩

/-- `segments()`, straight_line_trajectory.py 854-870. -/
def ttSegments (S : RSurf L K) : TTraj L K → Except Err (List (Seg L K))
  | .edge seg => .ok [seg]
  | .points v pts => pts.mapM (S.ttSegment v)

/-- `is_closed()`, straight_line_trajectory.py 872-875. -/
def ttIsClosed [DecidableEq L] (S : RSurf L K) : TTraj L K → Except Err Bool
  | .edge _ => .error .notImplemented
  | .points v pts =>
    match pts.head?, pts.getLast? with
    | some first, some last => do return decide (first = (← S.ttNext v last))
    | _, _ => .error .indexError

/-- `is_forward_separatrix()`, straight_line_trajectory.py 877-881. -/
def ttIsForwardSeparatrix (S : RSurf L K) : TTraj L K → Except Err Bool
  | .edge _ => .ok true
  | .points v pts =>
    match pts.getLast? with
    | some last => do return decide ((← S.ttNext v last).2.2 = 0)
    | none => .error .indexError

/-- `is_backward_separatrix()`, straight_line_trajectory.py 883-884. -/
def ttIsBackwardSeparatrix : TTraj L K → Except Err Bool
  | .edge _ => .ok true
  | .points _ pts =>
    match pts.head? with
    | some first => .ok (decide (first.2.2 = 0))
    | none => .error .indexError

/-- `is_saddle_connection()`, straight_line_trajectory.py 886-909. -/
def ttIsSaddleConnection (S : RSurf L K) (x : TTraj L K) : Except Err Bool :=
  match x with
  | .edge _ => .ok true
  | .points _ _ => do
    if ← S.ttIsForwardSeparatrix x then ttIsBackwardSeparatrix x else return false

/-- The first loop of `flow(steps)`, straight_line_trajectory.py 914-920: the triples that are appended, from the triple `t` on. -/
def ttForward [DecidableEq L] (S : RSurf L K) (v : Vec K) (first : L × ℕ × K) : ℕ → L × ℕ × K → Except Err (List (L × ℕ × K))
  | 0, _ => .ok []
  | n + 1, t => do
    let t ← S.ttNext v t
    if t = first ∨ t.2.2 = 0 then return []
    return t :: (← S.ttForward v first n t)

/-- The second loop of `flow(steps)`, straight_line_trajectory.py 921-930: the triples that are prepended, the last one first. -/
def ttBackward [DecidableEq L] (S : RSurf L K) (v : Vec K) (last : L × ℕ × K) : ℕ → L × ℕ × K → Except Err (List (L × ℕ × K))
  | 0, _ => .ok []
  | n + 1, t => do
    if t.2.2 = 0 then return []
    let t ← S.ttPrevious v t
    if t = last then return []
    return t :: (← S.ttBackward v last n t)

/-- `flow(steps)`, straight_line_trajectory.py 911-930. -/
def ttFlow [DecidableEq L] (S : RSurf L K) (steps : ℤ) (x : TTraj L K) : Except Err (TTraj L K) :=
  match x with
  | .edge seg => .ok (.edge seg)
  | .points v pts =>
    match pts.head?, pts.getLast? with
    | some first, some last =>
      if 0 ≤ steps then do return .points v (pts ++ (← S.ttForward v first steps.toNat last))
      else do return .points v ((← S.ttBackward v last (-steps).toNat first).reverse ++ pts)
    | _, _ => .error .indexError

end RSurf
end Flat
