import Verif.Model.Topology
import Verif.Model.Similarity
import Mathlib.Analysis.SpecialFunctions.Trigonometric.Inverse

/-!
# Model of angles, turns and strata

`angle` of `flatsurf/geometry/euclidean.py`, `angle` of `categories/euclidean_polygons.py`, `edges_ccw`, `turns`, `angle` and `angles`
of `categories/similarity_surfaces.py` and `stratum` of `categories/translation_surfaces.py` and `categories/half_translation_surfaces.py`.
Angles are real numbers.  The code computes them with floating point numbers, and tries to recover a rational number from these
(euclidean.py 155-208); in the model they are exact.  `ι` is the embedding of the base ring that the conversion to floating point numbers
approximates.
-/

namespace Flat

/-- `angle(u, v)`, euclidean.py 211-278.  `Real.arccos` takes numbers outside of `[-1, 1]` for `-1` and `1`, as lines 269-274 do. -/
noncomputable def angleOf {K : Type} [Field K] (ι : K →+* ℝ) (u v : Vec K) : ℝ :=
  let u0 := ι u.1
  let u1 := ι u.2
  let v0 := ι v.1
  let v1 := ι v.2
  let c := (u0 * v0 + u1 * v1) / Real.sqrt ((u0 * u0 + u1 * u1) * (v0 * v0 + v1 * v1))
  let angle := Real.arccos c / (2 * Real.pi)
  if u0 * v1 - u1 * v0 < 0 then 1 - angle else angle

/-- `polygon.angle(e)`, categories/euclidean_polygons.py 635-677. -/
noncomputable def Poly.angle {K : Type} [Field K] (ι : K →+* ℝ) (p : Poly K) (e : ℕ) : ℝ :=
  angleOf ι (p.edge e) (-p.edge ((e + (p.length - 1)) % p.length))

/-- `polygon.angles()`, categories/euclidean_polygons.py 603-633. -/
noncomputable def Poly.angles {K : Type} [Field K] (ι : K →+* ℝ) (p : Poly K) : List ℝ := (List.range p.length).map (p.angle ι)

/-- `edges[::2]`. -/
def evens {α : Type} : List α → List α
  | [] => []
  | [x] => [x]
  | x :: _ :: l => x :: evens l

/-- `edges[1::2]`. -/
def odds {α : Type} (l : List α) : List α := evens l.tail

section
variable {K : Type} [Field K] [LinearOrder K] [IsStrictOrderedRing K]

/-- The body of the loop in `turns`, categories/similarity_surfaces.py 863-881.  The state is `half_turns` and `previous`. -/
def turnStep (start : Vec K) (st : ℕ × Vec K) (vector : Vec K) : ℕ × Vec K :=
  let half := if ccw st.2 vector < 0 then st.1 + 1 else st.1
  let c := if ccw start vector ≠ 0 then ccw start vector else if isParallel start vector then 1 else -1
  let ccwStartVector := decide (0 < c)
  let ccwStartPrevious := decide (half % 2 = 0)
  (if ccwStartVector ≠ ccwStartPrevious then half + 1 else half, vector)

/-- The end of `turns`, categories/similarity_surfaces.py 857-883, for a list `edges` of edges with their holonomies.  (An empty list is a
point in the interior of a polygon, for which `turns` has raised before.) -/
def countTurns {D : Type} (edges : List (D × Vec K)) : Except Err (ℕ × Vec K × Vec K) :=
  match edges with
  | [] => .error .indexError
  | (_, start) :: _ =>
    let r := (odds (edges.map Prod.snd)).foldl (turnStep start) (0, start)
    .ok (r.1 / 2, start, r.2)

end

namespace RSurf
variable {L K : Type} [Field K] [LinearOrder K] [IsStrictOrderedRing K]

/-- The loop that moves clockwise to the boundary, categories/similarity_surfaces.py 1066-1074. -/
def cwToBoundary [DecidableEq L] (S : RSurf L K) (initial : L × ℕ) : ℕ → L × ℕ → Except Err (L × ℕ)
  | 0, _ => .error .outOfFuel
  | fuel + 1, start => do
    match ← S.rotateCw start with
    | none => return start
    | some next => if next = initial then return next else S.cwToBoundary initial fuel next

/-- The loop of `_edges_ccw_vertex`, categories/similarity_surfaces.py 1089-1118.  `last` is the last edge in the list of edges; the result
are the edges that the loop appends to this list. -/
def ccwHolonomies [DecidableEq L] (S : RSurf L K) (start : L × ℕ) : ℕ → Mat2 K → L × ℕ → Except Err (List ((L × ℕ) × Vec K))
  | 0, _, _ => .error .outOfFuel
  | fuel + 1, sim, last => do
    let p ← S.polygon last.1
    let exitEdge := (last.1, (last.2 + (p.length - 1)) % p.length)
    let exitHolonomy := -sim.mulVec (p.edge exitEdge.2)
    match ← S.opp exitEdge.1 exitEdge.2 with
    | none => if (← S.opp start.1 start.2).isSome then throw .valueError else return [(exitEdge, exitHolonomy)]
    | some enter => do
      let g ← S.edgeTransformation enter.1 enter.2
      let sim' := sim.mul g.derivative
      if enter = start then return [(exitEdge, exitHolonomy)]
      else do
        let q ← S.polygon enter.1
        let r ← S.ccwHolonomies start fuel sim' enter
        return (exitEdge, exitHolonomy) :: (enter, sim'.mulVec (q.edge enter.2)) :: r

/-- The part of `_edges_ccw_vertex` after the choice of the first edge, categories/similarity_surfaces.py 1076-1118. -/
def edgesCcwFrom [DecidableEq L] (S : RSurf L K) (fuel : ℕ) (start : L × ℕ) (holonomy : Option (Vec K)) :
    Except Err (List ((L × ℕ) × Vec K)) := do
  let p ← S.polygon start.1
  let h := holonomy.getD (p.edge start.2)
  let sim ← MSurf.simFromVectors (p.edge start.2) h
  let r ← S.ccwHolonomies start fuel sim start
  return (start, h) :: r

/-- `_edges_ccw_vertex(start_edge, start_holonomy)`, categories/similarity_surfaces.py 1033-1118.  The vertex is given by the edge that
starts at one of its representatives. -/
def edgesCcwVertex [DecidableEq L] (S : RSurf L K) (fuel : ℕ) (d : L × ℕ) (startEdge : Option (L × ℕ)) (holonomy : Option (Vec K)) :
    Except Err (List ((L × ℕ) × Vec K)) := do
  match startEdge with
  | some start => S.edgesCcwFrom fuel start holonomy
  | none => do
    let start ← S.cwToBoundary d fuel d
    S.edgesCcwFrom fuel start holonomy

/-- `turns(start_edge, start_holonomy)` of a vertex, categories/similarity_surfaces.py 795-883. -/
def turns [DecidableEq L] (S : RSurf L K) (fuel : ℕ) (d : L × ℕ) (startEdge : Option (L × ℕ)) (holonomy : Option (Vec K)) :
    Except Err (ℕ × Vec K × Vec K) := do
  countTurns (← S.edgesCcwVertex fuel d startEdge holonomy)

/-- `_angle_vertex(vertex)`, categories/similarity_surfaces.py 1298-1321. -/
noncomputable def angleVertex [DecidableEq L] (S : RSurf L K) (ι : K →+* ℝ) (fuel : ℕ) (d : L × ℕ) : Except Err ℝ := do
  let r ← S.turns fuel d none none
  return r.1 + angleOf ι r.2.1 r.2.2

/-- `point.angle()`, categories/similarity_surfaces.py 727-793, for the point with coordinates `x.2` in the polygon `x.1`. -/
noncomputable def pointAngle [DecidableEq L] (S : RSurf L K) (ι : K →+* ℝ) (fuel : ℕ) (x : L × Vec K) : Except Err ℝ := do
  let p ← S.polygon x.1
  match p.pointPosition x.2 with
  | .outside => throw .notImplemented
  | .vertex v => S.angleVertex ι fuel (x.1, v)
  | .edgeInterior e => do
    match ← S.opp x.1 e with
    | none => return 1 / 2
    | some c => if c = (x.1, e) then return 1 / 2 else return 1
  | .interior => return 1

/-- `angles()`, categories/similarity_surfaces.py 1275-1296.  The vertices form a set, so they come in any order and each is given by any
of its edges: `starts` are these edges. -/
noncomputable def angles [DecidableEq L] (S : RSurf L K) (ι : K →+* ℝ) (fuel : ℕ) (starts : List (L × ℕ)) : Except Err (List ℝ) :=
  starts.mapM (S.angleVertex ι fuel)

open Classical in
/-- `ZZ(a)`: a `TypeError` unless the number is an integer. -/
noncomputable def toZZ (a : ℝ) : Except Err ℤ := if (⌊a⌋ : ℝ) = a then .ok ⌊a⌋ else .error .typeError

/-- The degrees of the zeros in `stratum()`, categories/translation_surfaces.py 381-398. -/
noncomputable def abelianStratum [DecidableEq L] (S : RSurf L K) (ι : K →+* ℝ) (fuel : ℕ) (starts : List (L × ℕ)) : Except Err (List ℤ) := do
  let as ← S.angles ι fuel starts
  as.mapM (fun a => toZZ (a - 1))

/-- An angle of one half for every edge that is glued to itself, categories/half_translation_surfaces.py 198-200.  `gluings()` lists the
edges that are glued, with their opposite edges. -/
noncomputable def selfGluedAngles [DecidableEq L] (S : RSurf L K) : List (L × ℕ) → Except Err (List ℝ)
  | [] => .ok []
  | d :: ds => do
    let r ← S.selfGluedAngles ds
    match ← S.opp d.1 d.2 with
    | none => return r
    | some c => if c = d then return (1 / 2) :: r else return r

open Classical in
/-- The degrees of the zeros and poles in `stratum()`, before they are sorted, categories/half_translation_surfaces.py 175-210. -/
noncomputable def quadraticStratum [DecidableEq L] (S : RSurf L K) (ι : K →+* ℝ) (fuel : ℕ) (ls : List L) (starts : List (L × ℕ)) :
    Except Err (List ℤ) := do
  let as ← S.angles ι fuel starts
  let es ← S.edges ls
  let bs ← S.selfGluedAngles es
  if ∀ a ∈ as ++ bs, (⌊a⌋ : ℝ) = a then throw .notImplemented
  (as ++ bs).mapM (fun a => toZZ (2 * a - 2))

end RSurf
end Flat
