import Verif.Model.Flow
import Verif.Model.Circle

/-!
# Model of saddle connections

`SaddleConnection` of `flatsurf/geometry/surface_objects.py` and `saddle_connections()` of
`flatsurf/geometry/categories/similarity_surfaces.py`.  Conversions between rings, `length()` (a number in the algebraic reals), plots,
printing and the homology class are not modelled.
-/

namespace Flat

/-- `SaddleConnection`, surface_objects.py 679-925: its attributes `_surfacetart_data`, `_direction`, `_end_data`, `_end_direction`, `_holonomy`
and `_end_holonomy`. -/
@[ext]
structure Saddle (L K : Type) where
  start : L × ℕ
  direction : Vec K
  stop : L × ℕ
  stopDirection : Vec K
  holonomy : Vec K
  stopHolonomy : Vec K
  deriving DecidableEq

/-- The categories that the constructor asks for, surface_objects.py 789-830: is the surface in `DilationSurfaces().Positive()`, in
`DilationSurfaces()`, in `TranslationSurfaces()`, in `HalfTranslationSurfaces()`? -/
structure Kinds where
  positive : Bool
  dilation : Bool
  translation : Bool
  half : Bool
  deriving DecidableEq

/-- `~matrix`, the inverse of a 2×2 matrix (of nonzero determinant). -/
def Mat2.inverse {K : Type*} [Field K] (m : Mat2 K) : Mat2 K := ⟨m.d / m.det, -m.b / m.det, -m.c / m.det, m.a / m.det⟩

section
variable {K : Type} [Field K] [LinearOrder K]

/-- The scaling of a direction to the boundary of the square, surface_objects.py 770-776, 778-785 and 854-860. -/
def unitMax (v : Vec K) : Vec K := if |v.2| < |v.1| then (v.1 / |v.1|, v.2 / |v.1|) else (v.1 / |v.2|, v.2 / |v.2|)

/-- The guess for `end_holonomy`, surface_objects.py 813-829.  `direction` is the argument of the constructor and `endDirection` is scaled. -/
def guessHolonomy (kinds : Kinds) (direction : Vec K) (endDirection : Option (Vec K)) (holonomy : Vec K) : Option (Vec K) :=
  if kinds.half then
    if some direction = endDirection then some holonomy else some (-holonomy)
  else if kinds.translation then some (-holonomy)
  else none

end

namespace RSurf
variable {L K : Type} [Field K] [LinearOrder K]

/-- The guess for `end_direction`, surface_objects.py 789-811; `d` is the scaled direction. -/
def guessDirection (S : RSurf L K) (kinds : Kinds) (d : Vec K) (stop : Option (L × ℕ)) : Except Err (Option (Vec K)) :=
  if kinds.positive then return some (-d)
  else
    match kinds.dilation, stop with
    | true, some b => do
      let p ← S.polygon b.1
      if 0 ≤ ccw (p.edge b.2) d ∧ 0 < ccw (p.edge ((p.length + b.2 - 1) % p.length)) d then return some d else return some (-d)
    | _, _ => return none

/-- The transformation from the last polygon to the first polygon of a trajectory, surface_objects.py 879-887. -/
def unfoldSegments (S : RSurf L K) (segs : List (Seg L K)) : Except Err (Similarity K) :=
  segs.foldlM (fun sim seg => do
    let e ← seg.start.position.getEdge
    return sim.mul (← S.edgeTransformation seg.start.label e)) .one

/-- The two holonomies of a trajectory, surface_objects.py 868-892. -/
def trajHolonomy (S : RSurf L K) (start stop : L × ℕ) (first last : Seg L K) (rest : List (Seg L K)) : Except Err (Vec K × Vec K) := do
  if ← S.segIsEdge first then
    let p ← S.polygon start.1
    let q ← S.polygon stop.1
    return (p.edge start.2, q.edge stop.2)
  else
    let sim ← S.unfoldSegments rest
    let h := sim.call last.stop.point - first.start.point
    return (h, -(sim.derivative.inverse.mulVec h))

/-- `get_vertex()` of a position, polygon.py 248-252. -/
def _root_.Flat.Poly.Position.getVertex : Poly.Position → Except Err ℕ
  | .vertex i => .ok i
  | _ => .error .valueError

/-- The geometry of the saddle connection from the straight line flow and the comparison with what is already known,
surface_objects.py 835-914.  `None` agrees with everything. -/
def flowSaddle [DecidableEq L] (S : RSurf L K) (start : L × ℕ) (d : Vec K) (stop : Option (L × ℕ)) (stopDirection holonomy stopHolonomy : Option (Vec K))
    (limit : ℕ) : Except Err (Saddle L K) := do
  let p ← S.polygon start.1
  let t ← S.tangentVector start.1 (p.vertex start.2) d
  let x ← S.trajectory t
  let y ← S.flowForward limit x
  if !y.isSaddleConnection then throw .valueError
  match y.segments with
  | [] => throw .indexError
  | first :: rest =>
    let last := (first :: rest).getLast (by simp)
    let b := (last.stop.label, ← last.stop.position.getVertex)
    if stop.any (· ≠ b) then throw .valueError
    let d' := unitMax last.stop.vector
    if stopDirection.any (· ≠ d') then throw .valueError
    let hk ← S.trajHolonomy start b first last rest
    if holonomy.any (· ≠ hk.1) then throw .valueError
    if stopHolonomy.any (· ≠ hk.2) then throw .valueError
    return ⟨start, d, b, d', hk.1, hk.2⟩

/-- `SaddleConnection(surface, start_data, direction, end_data, end_direction, holonomy, end_holonomy, check, limit)`,
surface_objects.py 695-925.  (To scale an `end_direction` that is zero is a `ZeroDivisionError`, which is not modelled.) -/
def saddleConnection [DecidableEq L] (S : RSurf L K) (kinds : Kinds) (start : L × ℕ) (direction : Vec K) (stop : Option (L × ℕ))
    (stopDirection holonomy stopHolonomy : Option (Vec K)) (check : Bool) (limit : ℕ) : Except Err (Saddle L K) := do
  if direction = 0 then throw .valueError
  let d := unitMax direction
  let d' ← match stopDirection with
    | some v => pure (some (unitMax v))
    | none => S.guessDirection kinds d stop
  let k := match stopHolonomy, holonomy with
    | none, some h => guessHolonomy kinds direction d' h
    | k, _ => k
  match stop, d', holonomy, k, check with
  | some b, some d', some h, some k, false => return ⟨start, d, b, d', h, k⟩
  | _, _, _, _, _ => S.flowSaddle start d stop d' holonomy k limit

/-- `SaddleConnection.invert()`, surface_objects.py 1045-1058. -/
def _root_.Flat.Saddle.invert [DecidableEq L] (S : RSurf L K) (kinds : Kinds) (c : Saddle L K) : Except Err (Saddle L K) :=
  S.saddleConnection kinds c.stop c.stopDirection (some c.start) (some c.direction) (some c.stopHolonomy) (some c.holonomy) false 1000

/-- An entry of the list `chain` of `saddle_connections()`, categories/similarity_surfaces.py 3196-3206; the last element of `verts` comes first
here. -/
structure ScNode (L K : Type) where
  sim : Similarity K
  label : L
  wedge : Vec K × Vec K
  verts : List ℕ

/-- The vertices that are left to look at, categories/similarity_surfaces.py 3201-3204 (`skip = 2`) and 3268-3272 (`skip = 1`), the last one
first. -/
def scVerts (n e skip : ℕ) : List ℕ := ((List.range' skip (n - skip)).map fun i => (e + n - i) % n).reverse

/-- `new_wedge`, categories/similarity_surfaces.py 3249-3259. -/
def scWedge (w : Vec K × Vec K) (a b : Vec K) : Vec K × Vec K :=
  if 0 < ccw w.1 a then
    if 0 < ccw b w.2 then (a, b) else (a, w.2)
  else
    if 0 < ccw b w.2 then (w.1, b) else w

/-- The saddle connection that ends at a vertex of the polygon, if there is one, categories/similarity_surfaces.py 3216-3239. -/
def scVertex [DecidableEq L] (S : RSurf L K) (kinds : Kinds) (start : L × ℕ) (bound : K) (check : Bool) (sim : Similarity K) (label : L) (w : Vec K × Vec K)
    (vert : ℕ) (pos : Vec K) : Except Err (List (Saddle L K)) :=
  if 0 < ccw w.1 pos ∧ 0 < ccw pos w.2 ∧ pos.1 ^ 2 + pos.2 ^ 2 ≤ bound then do
    let k := sim.derivative.inverse.mulVec (-pos)
    return [← S.saddleConnection kinds start pos (some (label, vert)) (some k) (some pos) (some k) check 1000]
  else return []

/-- The polygon on the other side of an edge, if the search goes on there, categories/similarity_surfaces.py 3240-3274. -/
def scCross (S : RSurf L K) (bound : K) (sim : Similarity K) (label : L) (w : Vec K × Vec K) (vert : ℕ) (pos pos2 : Vec K) :
    Except Err (List (ScNode L K)) :=
  if 0 < ccw pos pos2 ∧ 0 < ccw w.1 pos2 ∧ 0 < ccw pos w.2 then do
    if (← (⟨0, bound⟩ : Circle K).lineSegmentPosition pos pos2) = 1 then
      let c ← S.opp! label vert
      let g ← S.edgeTransformation label vert
      let q ← S.polygon c.1
      return [⟨sim.mul g.inv, c.1, scWedge w pos pos2, scVerts q.length c.2 1⟩]
    else return []
  else return []

/-- The loop of `saddle_connections()`, categories/similarity_surfaces.py 3208-3274, for at most `fuel` iterations. -/
def scLoop [DecidableEq L] (S : RSurf L K) (kinds : Kinds) (start : L × ℕ) (bound : K) (check : Bool) :
    ℕ → List (ScNode L K) → List (Saddle L K) → Except Err (List (Saddle L K))
  | _, [], acc => .ok acc
  | 0, _ :: _, _ => .error .outOfFuel
  | fuel + 1, ⟨sim, label, w, verts⟩ :: chain, acc =>
    match verts with
    | [] => S.scLoop kinds start bound check fuel chain acc
    | vert :: verts => do
      let p ← S.polygon label
      let pos := sim.call (p.vertex vert)
      let new ← S.scVertex kinds start bound check sim label w vert pos
      let pos2 := sim.call (p.vertex ((vert + 1) % p.length))
      let next ← S.scCross bound sim label w vert pos pos2
      S.scLoop kinds start bound check fuel (next ++ ⟨sim, label, w, verts⟩ :: chain) (acc ++ new)

/-- `saddle_connections(squared_length_bound, initial_label, initial_vertex, sc_list, check)`, categories/similarity_surfaces.py 3055-3275, when
the label and the vertex are given. -/
def saddleConnectionsAt [DecidableEq L] (S : RSurf L K) (kinds : Kinds) (bound : K) (check : Bool) (fuel : ℕ) (start : L × ℕ) (acc : List (Saddle L K)) :
    Except Err (List (Saddle L K)) := do
  if bound ≤ 0 then throw .valueError
  let p ← S.polygon start.1
  let v := p.vertex start.2
  let sim := Similarity.ofVec (-v)
  let e := p.edge start.2
  let new ←
    if e.1 ^ 2 + e.2 ^ 2 ≤ bound then do
      pure [← S.saddleConnection kinds start e none none none none true 1000]
    else pure []
  let w := (sim.call (p.vertex ((start.2 + 1) % p.length)), sim.call (p.vertex ((start.2 + p.length - 1) % p.length)))
  S.scLoop kinds start bound check fuel [⟨sim, start.1, w, scVerts p.length start.2 2⟩] (acc ++ new)

/-- When only the label is given, categories/similarity_surfaces.py 3152-3160.  The argument `check` is not passed on. -/
def saddleConnectionsIn [DecidableEq L] (S : RSurf L K) (kinds : Kinds) (bound : K) (fuel : ℕ) (label : L) (acc : List (Saddle L K)) :
    Except Err (List (Saddle L K)) := do
  if bound ≤ 0 then throw .valueError
  let p ← S.polygon label
  (List.range p.length).foldlM (fun acc v => S.saddleConnectionsAt kinds bound false fuel (label, v) acc) acc

/-- When the label is not given, categories/similarity_surfaces.py 3135-3151, for a surface of finite type with the given labels. -/
def saddleConnections [DecidableEq L] (S : RSurf L K) (kinds : Kinds) (bound : K) (fuel : ℕ) (labels : List L) : Except Err (List (Saddle L K)) := do
  if bound ≤ 0 then throw .valueError
  labels.foldlM (fun acc l => S.saddleConnectionsIn kinds bound fuel l acc) []

end RSurf
end Flat
