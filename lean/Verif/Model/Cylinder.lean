import Verif.Model.Saddle
import Verif.Model.Lazy

/-!
# Model of cylinders

`Cylinder` of `flatsurf/geometry/surface_objects.py`.  Sets of saddle connections are lists without repetitions.  Plots are not modelled, and
neither is `circumference()` (a number in the algebraic reals).
-/

namespace Flat

/-- `Cylinder`, surface_objects.py 1228-1449: its attributes `_label0`, `_edges`, `_boundary1`, `_boundary2` and `_polygons`. -/
structure Cyl (L K : Type) where
  label0 : L
  edges : List ℕ
  right : List (Saddle L K)
  left : List (Saddle L K)
  polygons : List (L × Poly K)
  deriving DecidableEq

/-- A crossing: its index, the label of the polygon on the planar cover and the edge of the polygon that is crossed. -/
structure Crossing (L K : Type) where
  index : ℕ
  label : L × Similarity K
  edge : ℕ

namespace RSurf
variable {L K : Type} [Field K] [LinearOrder K] [IsStrictOrderedRing K]

/-- The labels of the polygons on the planar cover, surface_objects.py 1276-1278. -/
def cylLabels (S : RSurf L K) : L × Similarity K → List ℕ → Except Err (List (L × Similarity K))
  | x, [] => return [x]
  | x, e :: es => do
    let y ← S.planarCover.opp! x e
    return x :: (← S.cylLabels y.1 es)

/-- The two ends of the edge that is crossed, on the planar cover, surface_objects.py 1290-1293 and 1302-1312. -/
def gate (S : RSurf L K) (c : Crossing L K) : Except Err (Vec K × Vec K) := do
  let p ← S.planarCover.polygon c.label
  return (p.vertex c.edge, p.vertex ((c.edge + 1) % p.length))

/-- The variables `min_y`, `min_list`, `max_y` and `max_list`, surface_objects.py 1292-1299. -/
structure Extent (L K : Type) where
  minY : K
  minList : List (Crossing L K)
  maxY : K
  maxList : List (Crossing L K)

/-- The update of the minimum, surface_objects.py 1304-1311. -/
def Extent.low (x : Extent L K) (c : Crossing L K) (y : K) : Except Err (Extent L K) :=
  if y = x.minY then return { x with minList := x.minList ++ [c] }
  else if x.minY < y then
    if x.maxY ≤ y then throw .valueError else return { x with minY := y, minList := [c] }
  else return x

/-- The update of the maximum, surface_objects.py 1312-1319. -/
def Extent.high (x : Extent L K) (c : Crossing L K) (y : K) : Except Err (Extent L K) :=
  if y = x.maxY then return { x with maxList := x.maxList ++ [c] }
  else if y < x.maxY then
    if y ≤ x.minY then throw .valueError else return { x with maxY := y, maxList := [c] }
  else return x

/-- The width of the cylinder and the crossings at which its boundary has vertices, surface_objects.py 1290-1319. -/
def extent (S : RSurf L K) (v : Vec K) (c : Crossing L K) (cs : List (Crossing L K)) : Except Err (Extent L K) := do
  let d ← S.gate c
  if ccw v d.2 ≤ ccw v d.1 then throw .valueError
  cs.foldlM (fun x c => do
    let d ← S.gate c
    (← x.low c (ccw v d.1)).high c (ccw v d.2)) ⟨ccw v d.1, [c], ccw v d.2, [c]⟩

/-- `sc_set.add(sc)`: saddle connections are compared by their start and direction, surface_objects.py 1076-1088. -/
def addSaddle [DecidableEq L] (l : List (Saddle L K)) (c : Saddle L K) : List (Saddle L K) :=
  if l.any (fun d => decide (d.direction = c.direction ∧ d.start = c.start)) then l else l ++ [c]

/-- The saddle connection on the right from the crossing `c` at the point `a` to the point `b`, surface_objects.py 1334-1342 and 1348-1357. -/
def rightSaddle [DecidableEq L] (S : RSurf L K) (kinds : Kinds) (v : Vec K) (c : Crossing L K) (a b : Vec K) (limit : ℕ) : Except Err (Saddle L K) := do
  let o ← S.planarCover.opp! (c.label.1, (Similarity.ofVec (-v)).mul c.label.2) c.edge
  let p ← S.planarCover.polygon o.1
  S.saddleConnection kinds (o.1.1, (o.2 + 1) % p.length) (o.1.2.inv.call b - o.1.2.inv.call a) none none none none true limit

/-- The saddle connection on the left from the crossing `c` at the point `b` to the point `a`, surface_objects.py 1373-1381 and 1387-1394.
(The opposite edge of the previous crossing is also computed, but not used.) -/
def leftSaddle [DecidableEq L] (S : RSurf L K) (kinds : Kinds) (c : Crossing L K) (a b : Vec K) : Except Err (Saddle L K) := do
  let p ← S.planarCover.polygon c.label
  S.saddleConnection kinds (c.label.1, (c.edge + 1) % p.length) (c.label.2.inv.call a - c.label.2.inv.call b) none none none none true 1000

/-- The loop over the vertices on the right, surface_objects.py 1346-1360. -/
def rightLoop [DecidableEq L] (S : RSurf L K) (kinds : Kinds) (v : Vec K) :
    Crossing L K × Vec K → List (Crossing L K × Vec K) → List (Saddle L K) → Except Err (List (Saddle L K))
  | _, [], acc => return acc
  | (i, a), (j, b) :: l, acc => do
    let acc ← if a ≠ b then do pure (addSaddle acc (← S.rightSaddle kinds v i a b (j.index - i.index))) else pure acc
    S.rightLoop kinds v (j, b) l acc

/-- The saddle connections on the right side, surface_objects.py 1324-1360. -/
def rightBoundary [DecidableEq L] (S : RSurf L K) (kinds : Kinds) (v : Vec K) (l : List (Crossing L K × Vec K)) : Except Err (List (Saddle L K)) :=
  match l with
  | [] => throw .indexError
  | j :: rest => do
    let i := (j :: rest).getLast (by simp)
    let acc ← if i.2 - v ≠ j.2 then do pure [← S.rightSaddle kinds v i.1 (i.2 - v) j.2 1000] else pure []
    S.rightLoop kinds v j rest acc

/-- The loop over the vertices on the left, surface_objects.py 1385-1397. -/
def leftLoop [DecidableEq L] (S : RSurf L K) (kinds : Kinds) :
    Vec K → List (Crossing L K × Vec K) → List (Saddle L K) → Except Err (List (Saddle L K))
  | _, [], acc => return acc
  | a, (j, b) :: l, acc => do
    let acc ← if a ≠ b then do pure (addSaddle acc (← S.leftSaddle kinds j a b)) else pure acc
    S.leftLoop kinds b l acc

/-- The saddle connections on the left side, surface_objects.py 1363-1397. -/
def leftBoundary [DecidableEq L] (S : RSurf L K) (kinds : Kinds) (v : Vec K) (l : List (Crossing L K × Vec K)) : Except Err (List (Saddle L K)) :=
  match l with
  | [] => throw .indexError
  | j :: rest => do
    let i := (j :: rest).getLast (by simp)
    let acc ← if i.2 - v ≠ j.2 then do pure [← S.leftSaddle kinds j.1 (i.2 - v) j.2] else pure []
    S.leftLoop kinds j.2 rest acc

/-- Where the edge that is crossed meets the line through a point, surface_objects.py 1419-1422. -/
def gatePoint (v : Vec K) (d : Vec K × Vec K) (x : Vec K) : Except Err (Vec K) :=
  match solve x v d.1 (d.2 - d.1) with
  | none => .error .valueError
  | some s => .ok (d.1 + s.2 • (d.2 - d.1))

/-- `edge_intersections`, surface_objects.py 1402-1423. -/
def edgeIntersections (S : RSurf L K) (v leftPoint rightPoint : Vec K) (cs : List (Crossing L K)) : Except Err (List (Vec K × Vec K)) :=
  cs.mapM fun c => do
    let d ← S.gate c
    let x ← gatePoint v d leftPoint
    let y ← gatePoint v d rightPoint
    return (c.label.2.inv.call x, c.label.2.inv.call y)

/-- The part of a polygon that is in the cylinder, surface_objects.py 1433-1445; `q` is where the cylinder comes in (in the coordinates of
the previous polygon) and `r` is where it leaves. -/
def cylPolygon (S : RSurf L K) (l1 : L) (e1 : ℕ) (q : Vec K × Vec K) (r : Vec K × Vec K) : Except Err (Poly K) := do
  let g ← S.edgeTransformation l1 e1
  let q' := (g.call q.1, g.call q.2)
  Poly.ofVertices ([q'.1, q'.2] ++ (if r.2 ≠ q'.2 then [r.2] else []) ++ (if r.1 ≠ q'.1 then [r.1] else []))

/-- The loop that creates the polygons, surface_objects.py 1425-1449. -/
def cylPolygons (S : RSurf L K) : L → ℕ → Vec K × Vec K → List (Crossing L K × Vec K × Vec K) → Except Err (List (L × Poly K))
  | _, _, _, [] => return []
  | l1, e1, q, (c, r) :: l => do
    let p ← S.cylPolygon l1 e1 q r
    return (c.label.1, p) :: (← S.cylPolygons c.label.1 c.edge r l)

/-- The crossings with their indices. -/
def crossings (labels : List (L × Similarity K)) (edges : List ℕ) : List (Crossing L K) :=
  (List.zip labels edges).mapIdx fun i x => ⟨i, x.1, x.2⟩

/-- `Cylinder(surface, label0, edges)`, surface_objects.py 1257-1449. -/
def cylinder [DecidableEq L] (S : RSurf L K) (kinds : Kinds) (label0 : L) (edges : List ℕ) : Except Err (Cyl L K) := do
  let labels ← S.cylLabels (label0, .one) edges
  let x := labels.getLast?.getD (label0, .one)
  if label0 ≠ x.1 then throw .valueError
  if !x.2.isTranslation then throw .notImplemented
  let v : Vec K := (x.2.s, x.2.t)
  match crossings labels edges with
  | [] => throw .indexError
  | c :: cs =>
    let ext ← S.extent v c cs
    let mins ← ext.minList.mapM fun c => do return (c, (← S.gate c).1)
    let right ← S.rightBoundary kinds v mins
    let maxs ← ext.maxList.mapM fun c => do return (c, (← S.gate c).2)
    let left ← S.leftBoundary kinds v maxs
    match mins, maxs with
    | a :: _, b :: _ =>
      let cuts ← S.edgeIntersections v b.2 a.2 (c :: cs)
      let last := (c :: cs).getLast (by simp)
      let polygons ← S.cylPolygons last.label.1 last.edge (cuts.getLast?.getD (0, 0)) (List.zip (c :: cs) cuts)
      return ⟨label0, edges, right, left, polygons⟩
    | _, _ => throw .indexError

/-- `area()`, surface_objects.py 1485-1497, of a cylinder on a cone surface. -/
def _root_.Flat.Cyl.area (c : Cyl L K) : K := (c.polygons.map fun x => x.2.area).sum

/-- `boundary()`, surface_objects.py 1400 and 1468-1473. -/
def _root_.Flat.Cyl.boundary [DecidableEq L] (c : Cyl L K) : List (Saddle L K) := c.left.foldl addSaddle c.right

/-- `holonomy()`, surface_objects.py 1586-1611, of a cylinder on a translation surface. -/
def _root_.Flat.Cyl.holonomy (c : Cyl L K) : Except Err (Vec K) :=
  let total := (c.right.map Saddle.holonomy).sum
  if total + (c.left.map Saddle.holonomy).sum = 0 then .ok total else .error .assertionError

/-- `cylinder()` of a trajectory, straight_line_trajectory.py 302-335. -/
def trajCylinder [DecidableEq L] (S : RSurf L K) (kinds : Kinds) (x : Traj L K) : Except Err (Cyl L K) := do
  let w ← S.cylinderWord x
  S.cylinder kinds w.1 w.2

end RSurf
end Flat
