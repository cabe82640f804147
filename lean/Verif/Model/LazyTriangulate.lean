import Verif.Model.Lazy
import Verif.Model.Triangulate

/-!
# Model of `LazyTriangulatedSurface`

`flatsurf/geometry/lazy.py` 53-476 and `_triangulate` of `flatsurf/geometry/surface.py`.
-/

namespace Flat

/-- Labels among which there are the tuples `(label, n)`.  Integers are not tuples. -/
class TupleLabel (L : Type) [LabelNum L] where
  /-- the tuple `(label, n)` -/
  tag : L → ℕ → L
  /-- `label[0], label[1]` for a tuple of length two -/
  untag : L → Option (L × ℕ)
  untag_iff : ∀ x l k, untag x = some (l, k) ↔ x = tag l k
  untag_num : ∀ n, untag (num n) = none

export TupleLabel (tag untag)

namespace MSurf
variable {K : Type} [Field K] [LinearOrder K]

/-- `relabel` when the new labels are of another type: the labels in all tables are replaced, surface.py 1717-1765.  (For
labels of the same type, `relabel` is modelled step by step and C28 says that this is its effect.) -/
def mapLabels {L L' P : Type} (f : L → L') (s : MSurf L P) : MSurf L' P :=
  ⟨s.polygons.map (fun x => (f x.1, x.2)),
   s.gluings.map (fun x => (f x.1, x.2.map (Option.map (fun c => (f c.1, c.2))))), s.roots.map f, s.mutable, 0⟩

variable {L : Type} [LinearOrder L] [LabelNum L] [TupleLabel L]

/-- `_triangulate(surface, label)`, surface.py 2032-2062, as a function of the polygon with this label. -/
def triangulateAt (p : Poly K) (l : L) : Except Err (MSurf L (Poly K) × Dict ℕ (L × Int)) :=
  match triangulate p MSurf.empty with
  | .error e _ => .error e
  | .ok outer t =>
    let f : ℕ → L := if t.polygons.length = 1 then fun _ => l else tag l
    .ok (t.mapLabels f, outer.map (fun x => (x.1, (f x.2.1, x.2.2))))

end MSurf

namespace RSurf
variable {L K : Type} [LinearOrder L] [LabelNum L] [TupleLabel L] [Field K] [LinearOrder K] [IsStrictOrderedRing K]

/-- `_image(reference_label)`, lazy.py 186-234, where `sel` is `_is_triangulated`, 107-132. -/
def triImage (S : RSurf L K) (sel : L → Bool) (l : L) : Except Err (MSurf L (Poly K) × Dict ℕ (L × Int)) := do
  let p ← S.polygon l
  if ¬ sel l then
    match MSurf.addPolygon p none (MSurf.empty : MSurf L (Poly K)) with
    | .error e _ => throw e
    | .ok _ t => return (t, (List.range p.length).map (fun (e : ℕ) => (e, (l, (e : Int)))))
  else MSurf.triangulateAt p l

/-- `_reference_label(label)`, lazy.py 236-268, where `has` is `in self._reference.labels()`. -/
def refLabel (S : RSurf L K) (has sel : L → Bool) (x : L) : Except Err L :=
  let tuple : Except Err L :=
    match untag x with
    | none => throw .keyError
    | some (l, _) =>
      if ¬ has l then throw .keyError
      else do
        let i ← S.triImage sel l
        if x ∉ i.1.polygons.keys then throw .keyError
        else return l
  if has x then
    if ¬ sel x then return x
    else do
      let p ← S.polygon x
      if p.length = 3 then return x
      else tuple
  else tuple

/-- `LazyTriangulatedSurface`, lazy.py 53-431: `polygon` 270-292 and `opposite_edge` 294-327. -/
def lazyTriangulated (S : RSurf L K) (has sel : L → Bool) : RSurf L K where
  polygon x := do
    let l ← S.refLabel has sel x
    if ¬ sel l then S.polygon l
    else do
      let i ← S.triImage sel l
      i.1.polygon x
  opp x e := do
    let l ← S.refLabel has sel x
    let i ← S.triImage sel l
    match i.2.find? (fun y => y.2 = (x, (e : Int))) with
    | some y => do
      let c ← S.opp! l y.1
      let j ← S.triImage sel c.1
      match j.2.get c.2 with
      | none => throw .keyError
      | some z => return some (z.1, z.2.toNat)
    | none => do
      match ← i.1.oppositeEdge x e with
      | none => return none
      | some z => return some (z.1, z.2.toNat)

/-- `label in surface.labels()` for a `LazyTriangulatedSurface`, lazy.py 452-476. -/
def triContains (S : RSurf L K) (has sel : L → Bool) (x : L) : Except Err Bool :=
  match S.refLabel has sel x with
  | .ok _ => .ok true
  | .error .keyError => .ok false
  | .error e => .error e

/-- `roots()` of a `LazyTriangulatedSurface` for one root of the reference, lazy.py 168-184. -/
def triRoot (S : RSurf L K) (sel : L → Bool) (r : L) : Except Err L := do
  let i ← S.triImage sel r
  match ← i.1.rootsList with
  | [] => throw .indexError
  | x :: _ => return x

end RSurf
end Flat
