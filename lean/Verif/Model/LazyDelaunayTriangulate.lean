import Verif.Model.Delaunay

/-!
# Lazy Delaunay triangulations

Model of `LazyDelaunayTriangulatedSurface`, lazy.py 1095-1519.

Simplifications: the surface `_surface` (a `LazyMutableOrientedSimilaritySurface`, lazy.py 873-1093) copies polygons and gluings
of the reference on demand; here they have all been copied, i.e., it is a mutable surface.  In particular the reference has
finitely many polygons.  `labels()` is the (fixed) list of labels of the reference, in its order.  The caches of `polygon()` and
`opposite_edge()` are dropped, i.e., every call computes its answer again (the theorems say that the answer is the same).  The
loops that might not terminate have a bound on the number of steps, after which they raise `outOfFuel`.  Python's `set.pop()`
returns an arbitrary element, chosen here by a parameter.
-/

namespace Flat

/-- The attributes of the surface, lazy.py 1170-1180: the surface `_surface`, the labels `_certified_labels`, and the list
`_flips`. -/
structure DTri (L K : Type) where
  surf : MSurf L (Poly K)
  certified : List L
  flips : List ((L × ℕ) × (L × Int))

/-- A method of a lazy Delaunay triangulation; what it did before it raised is kept. -/
abbrev DAct (L K α : Type) := EStateM Err (DTri L K) α

namespace DTri
variable {L K : Type} [LinearOrder L] [Field K] [LinearOrder K] [IsStrictOrderedRing K]

/-- A result that does not depend on the state. -/
def liftX {α : Type} (x : Except Err α) : DAct L K α :=
  match x with
  | .ok a => pure a
  | .error e => throw e

/-- Call a method of `_surface`. -/
def onSurf {α : Type} (m : Act L (Poly K) α) : DAct L K α := fun s =>
  match m s.surf with
  | .ok a t => .ok a { s with surf := t }
  | .error e t => .error e { s with surf := t }

variable [LabelNum L]

/-- `_certify_flip`, lazy.py 1310-1314. -/
def certifyFlip (l : L) (e : ℕ) : DAct L K Unit := do
  let s ← get
  if l ∈ s.certified then throw .assertionError
  let c ← liftX (s.surf.oppositeEdge! l e)
  if c.1 ∈ s.certified then throw .assertionError
  set { s with flips := s.flips ++ [((l, e), c)] }
  onSurf (MSurf.triangleFlip l e)

/-- The loop over the edges of a triangle in `_certify_walk`, lazy.py 1358-1380.  Returns `todo` and `modified`. -/
def walkEdges (l : L) (polygon : Poly K) (circle : Circle K) (done : List (L × Circle K)) :
    List ℕ → List (L × Circle K) → List L → DAct L K (List (L × Circle K) × List L)
  | [], todo, modified => return (todo, modified)
  | e :: es, todo, modified => do
    let pos ← liftX (circle.lineSegmentPosition (polygon.vertex e) (polygon.vertex (e + 1)))
    if pos = 1 then
      let s ← get
      let c ← liftX (s.surf.oppositeEdge! l e)
      let flip ← liftX (s.surf.delaunayEdgeNeedsFlip l e)
      if flip then
        certifyFlip l e
        walkEdges l polygon circle done es todo (modified ++ [l, c.1])
      else
        let g ← liftX (s.surf.edgeTransformation l e)
        let item := (c.1, Circle.rmul g circle)
        walkEdges l polygon circle done es (if item ∈ done ∨ item ∈ todo then todo else todo ++ [item]) modified
    else walkEdges l polygon circle done es todo modified

/-- The main loop of `_certify_walk`, lazy.py 1342-1382; `pick` chooses the position of the item that `todo.pop()` returns. -/
def walkLoop (pick : List (L × Circle K) → ℕ) : ℕ → List (L × Circle K) → List (L × Circle K) → List L → Bool → DAct L K Bool
  | _, [], _, modified, inside => return !inside && modified.isEmpty
  | 0, _ :: _, _, _, _ => throw .outOfFuel
  | fuel + 1, x :: xs, done, modified, inside => do
    let item := (x :: xs).getD (pick (x :: xs) % (x :: xs).length) x
    let todo := (x :: xs).erase item
    let done := item :: done
    if item.1 ∈ modified then
      walkLoop pick fuel todo done modified inside
    else
      let s ← get
      let polygon ← liftX (s.surf.polygon item.1)
      let inside := inside || (List.range 3).any (fun v => item.2.pointPosition (polygon.vertex v) = 1)
      let r ← walkEdges item.1 polygon item.2 done (List.range 3) todo modified
      walkLoop pick fuel r.1 done r.2 inside

/-- `_certify_walk`, lazy.py 1316-1382. -/
def certifyWalk (pick : List (L × Circle K) → ℕ) (fuel : ℕ) (l : L) : DAct L K Bool := do
  let s ← get
  let polygon ← liftX (s.surf.polygon l)
  let circle ← liftX polygon.circumscribedCircle
  walkLoop pick fuel [(l, circle)] [] [] false

/-- The loop `while not self._certify_walk(label)`, lazy.py 1305-1306. -/
def certifyLoop (pick : List (L × Circle K) → ℕ) (fuel : ℕ) (l : L) : ℕ → DAct L K Unit
  | 0 => throw .outOfFuel
  | n + 1 => do
    if ← certifyWalk pick fuel l then return
    else certifyLoop pick fuel l n

/-- A loop over labels. -/
def forLabels (f : L → DAct L K Unit) : List L → DAct L K Unit
  | [] => return
  | x :: xs => do
    f x
    forLabels f xs

/-- `_certify`, lazy.py 1263-1308; `depth` bounds the depth of the recursion. -/
def certify (labels : List L) (pick : List (L × Circle K) → ℕ) (fuel : ℕ) : ℕ → L → DAct L K Unit
  | 0, _ => throw .outOfFuel
  | depth + 1, l => do
    let s ← get
    if l ∈ s.certified then return
    forLabels (certify labels pick fuel depth) (labels.takeWhile (fun x => x ≠ l))
    certifyLoop pick fuel l fuel
    let s ← get
    set { s with certified := l :: s.certified }

/-- `polygon(label)`, lazy.py 1240-1261. -/
def polygon (labels : List L) (pick : List (L × Circle K) → ℕ) (fuel : ℕ) (l : L) : DAct L K (Poly K) := do
  if l ∉ labels then throw .valueError
  certify labels pick fuel fuel l
  let s ← get
  liftX (s.surf.polygon l)

/-- The loop of `opposite_edge`, lazy.py 1402-1407. -/
def oppositeLoop (labels : List L) (pick : List (L × Circle K) → ℕ) (fuel : ℕ) (l : L) (e : ℕ) : ℕ → DAct L K (L × Int)
  | 0 => throw .outOfFuel
  | n + 1 => do
    let s ← get
    let c ← liftX (s.surf.oppositeEdge! l e)
    if c.1 ∈ s.certified then return c
    certify labels pick fuel fuel c.1
    oppositeLoop labels pick fuel l e n

/-- `opposite_edge(label, edge)`, lazy.py 1384-1407. -/
def oppositeEdge (labels : List L) (pick : List (L × Circle K) → ℕ) (fuel : ℕ) (l : L) (e : ℕ) : DAct L K (L × Int) := do
  certify labels pick fuel fuel l
  oppositeLoop labels pick fuel l e fuel

/-- The surface right after its creation, `__init__`, lazy.py 1170-1180. -/
def create (s : MSurf L (Poly K)) : DTri L K := ⟨s, [], []⟩

end DTri
end Flat
