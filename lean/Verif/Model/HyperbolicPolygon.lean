import Verif.Model.Hyperbolic

/-!
# Intersections of hyperbolic half spaces

`OrderedSet` and `HyperbolicHalfSpaces`, lines 13672-14440, `HyperbolicConvexPolygon._normalize` and its helpers, lines 10400-11388, `HyperbolicSegment._normalize`, lines 12418-12518, and `HyperbolicPlane.polygon` and `HyperbolicPlane.intersection`, lines 1723-1946 and 2102-2167 of `flatsurf/geometry/hyperbolic.py`, over a field with exact arithmetic.

A half space is given by its boundary, an oriented geodesic with the half space on its left.
All points that show up here have coordinates in the base ring.
The random order in which half spaces are visited and the element that `RealSet.an_element()` picks from an interval are parameters.
Marked vertices and the checks of the arguments are not modelled, neither is the orientation that `unoriented()` removes.
-/

namespace Flat
namespace Hyp

variable {K : Type} [Field K] [LinearOrder K]

/-- The possible values of `_configuration`, lines 8288-8345. -/
inductive Config | equal | negative | parallel | antiParallel | convex | concave
  deriving DecidableEq

/-- `HyperbolicOrientedGeodesic._configuration`, lines 8288-8385. -/
def Geo.configuration (g h : Geo K) : Except Err Config :=
  match g.inter h with
  | none =>
    let o := sgn (g.b * h.b + g.c * h.c)
    if o = 0 then .error .assertionError
    else if g.eq h true then if o > 0 then .ok .equal else .error .assertionError
    else if g.eq h.neg true then if o < 0 then .ok .negative else .error .assertionError
    else if o > 0 then .ok .parallel
    else .ok .antiParallel
  | some _ =>
    let o := sgn (-g.c * h.b - -g.b * h.c)
    if o = 0 then .error .assertionError
    else if o > 0 then .ok .convex
    else .ok .concave

/-- `normal_points_left`, lines 14406-14407. -/
def normalPointsLeft (b c : K) : Bool := decide (b < 0) || (decide (b = 0) && decide (c < 0))

/-- The comparison of parallel half spaces, lines 14431-14440. -/
def ltParallel (g h : Geo K) : Bool :=
  if g.c * h.c ≠ 0 then decide (sgn g.c * sgn (g.a * h.c - h.a * g.c) < 0)
  else decide (sgn g.b * sgn (g.a * h.b - h.a * g.b) < 0)

/-- `HyperbolicHalfSpaces._lt_`, lines 14325-14440. -/
def halfSpaceLt (g h : Geo K) : Bool :=
  if normalPointsLeft g.b g.c ≠ normalPointsLeft h.b h.c then normalPointsLeft g.b g.c
  else if g.b * h.b = 0 then
    if g.b = h.b then ltParallel g h else decide (h.b = 0)
  else
    let cmp := sgn (g.b * h.b) * sgn (g.c * h.b - h.c * g.b)
    if cmp = 0 then ltParallel g h else decide (cmp < 0)

section OrderedSet

variable {α : Type}

/-- The base case of `OrderedSet._merge`, lines 13801-13818: the lists `A` and `B` are reversed, `merged` is in the final order. -/
def mergeTwo (lt : α → α → Bool) : ℕ → List α → List α → List α → List α
  | _, [], B, merged => B.reverse ++ merged
  | _, A, [], merged => A.reverse ++ merged
  | 0, _, _, merged => merged
  | n + 1, a :: A, b :: B, merged =>
    if lt a b then mergeTwo lt n (a :: A) B (b :: merged)
    else if lt b a then mergeTwo lt n A (b :: B) (a :: merged)
    else mergeTwo lt n A (b :: B) merged

/-- `OrderedSet._merge` of two sets, lines 13801-13818. -/
def merge2 (lt : α → α → Bool) (A B : List α) : List α := mergeTwo lt (A.length + B.length) A.reverse B.reverse []

/-- `OrderedSet._merge`, lines 13756-13823; the first argument bounds the depth of the recursion. -/
def mergeAll (lt : α → α → Bool) : ℕ → List (List α) → List α
  | _, [] => []
  | _, [s] => s
  | _, [A, B] => merge2 lt A B
  | 0, _ => []
  | n + 1, sets => merge2 lt (mergeAll lt n (sets.take (sets.length / 2))) (mergeAll lt n (sets.drop (sets.length / 2)))

/-- `OrderedSet.__init__` of entries that are not sorted, lines 13731-13734. -/
def orderedSet (lt : α → α → Bool) (entries : List α) : List α := mergeAll lt entries.length (entries.map fun e => [e])

/-- The index that `OrderedSet.__init__` finds for rotated entries, lines 13723-13726: the position of the smallest entry, given the rest of the entries, their position and the smallest entry so far. -/
def minIndex (lt : α → α → Bool) : List α → ℕ → α → ℕ → ℕ
  | [], _, _, m => m
  | e :: es, i, least, m => if lt e least then minIndex lt es (i + 1) e i else minIndex lt es (i + 1) least m

/-- `OrderedSet.__init__` of entries that are sorted up to rotation, lines 13722-13729. -/
def orderedSetRotated (lt : α → α → Bool) : List α → List α
  | [] => []
  | e :: es => (e :: es).rotate (minIndex lt (e :: es) 0 e 0)

/-- `OrderedSet.triples` with repetition, lines 13976-14024. -/
def triples (l : List α) : List (α × α × α) := (l.rotate (l.length - 1)).zip (l.zip (l.rotate 1))

end OrderedSet

/-- The convex sets that are returned by `_normalize`. -/
inductive ConvexSet (K : Type)
  | empty
  | point (p : K × K)
  | geodesic (g : Geo K)
  | segment (g : Geo K) (start stop : Option (K × K))
  | halfSpace (g : Geo K)
  | polygon (l : List (Geo K))
  deriving DecidableEq

/-- Whether a half space is dropped, lines 10550-10559. -/
def trivialAfter (A g : Geo K) : Bool := decide (g.c * A.b = A.c * g.b) && decide (sgn g.b = sgn A.b) && decide (sgn g.c = sgn A.c)

/-- The loop of `_normalize_drop_trivially_redundant`, lines 10548-10561, with the last half space that was kept. -/
def dropTrivialAfter : Geo K → List (Geo K) → List (Geo K)
  | _, [] => []
  | A, g :: l => if trivialAfter A g then dropTrivialAfter A l else g :: dropTrivialAfter g l

/-- `HyperbolicConvexPolygon._normalize_drop_trivially_redundant`, lines 10502-10569. -/
def dropTrivial : List (Geo K) → List (Geo K)
  | [] => []
  | g :: l => g :: dropTrivialAfter g l

/-- `HyperbolicOrientedGeodesic.unparametrize` without the check, lines 8486-8497. -/
def Geo.pointAt (g : Geo K) (t : K) : Except Err (K × K) := do
  let base ← g.anElement
  pure (base.1 + t * g.c, base.2 + t * -g.b)

/-- A closed interval, possibly unbounded: the `RealSet` of lines 11275-11318. -/
abbrev Interval (K : Type) := Option K × Option K

/-- `is_empty`, line 11320. -/
def Interval.isEmpty (i : Interval K) : Bool :=
  match i with
  | (some lo, some hi) => decide (hi < lo)
  | _ => false

/-- The intersection with `[t, ∞)`. -/
def Interval.above (i : Interval K) (t : K) : Interval K :=
  match i with
  | (some lo, hi) => (some (max lo t), hi)
  | (none, hi) => (some t, hi)

/-- The intersection with `(-∞, t]`. -/
def Interval.below (i : Interval K) (t : K) : Interval K :=
  match i with
  | (lo, some hi) => (lo, some (min hi t))
  | (lo, none) => (lo, some t)

/-- The constraints on a point of the boundary of a half space, lines 11278-11322; `none` means that the empty set is returned. -/
def constrain (boundary : Geo K) : List (Geo K) → Interval K → Except Err (Option (Interval K))
  | [], i => .ok (some i)
  | h :: hs, i =>
    match boundary.inter h with
    | none => do
      let p ← boundary.pointAt 0
      if !h.leftCoords p.1 p.2 then pure none else constrain boundary hs i
    | some q => do
      let t ← boundary.parametrize q
      let p ← boundary.pointAt (t + 1)
      let j := if h.leftCoords p.1 p.2 then i.above t else i.below t
      if j.isEmpty then pure none else constrain boundary hs j

/-- The loop of `_normalize_euclidean_boundary`, lines 11258-11327: the half spaces before and after the current one and the current point; `none` means that the empty set is returned. -/
def findPoint (pick : Interval K → K) : List (Geo K) → List (Geo K) → K × K → Except Err (Option (K × K))
  | _, [], p => .ok (some p)
  | seen, g :: rest, p =>
    if g.leftCoords p.1 p.2 then findPoint pick (seen ++ [g]) rest p
    else do
      match ← constrain g seen (none, none) with
      | none => pure none
      | some i => do
        let q ← g.pointAt (pick i)
        findPoint pick (seen ++ [g]) rest q

/-- The loop of `_normalize_extend_to_euclidean_boundary`, lines 11368-11382: the half spaces with the half spaces following them; `none` if all are convex. -/
def extendLoop : List (Geo K × Geo K) → Except Err (Option (Geo K))
  | [] => .ok none
  | (g, following) :: l => do
    match ← g.configuration following with
    | .convex => extendLoop l
    | .negative => pure (some g)
    | .concave => pure (some g)
    | _ => .error .notImplemented

/-- `HyperbolicConvexPolygon._normalize_extend_to_euclidean_boundary`, lines 11331-11388. -/
def extendToBoundary (l : List (Geo K)) (p : K × K) : Except Err (ConvexSet K) :=
  match l.filter fun g => g.containsCoords p.1 p.2 with
  | [] => .error .valueError
  | [g] => .ok (.halfSpace g)
  | [g, _] => .ok (.halfSpace g)
  | hs => do
    match ← extendLoop (hs.zip (hs.rotate 1)) with
    | some g => pure (.halfSpace g)
    | none => if p.1 * p.1 + p.2 * p.2 > 1 then pure .empty else pure (.point p)

/-- `HyperbolicConvexPolygon._normalize_euclidean_boundary`, lines 11071-11329; the half spaces in a random order are the second argument. -/
def euclideanBoundary (pick : Interval K → K) (shuffled l : List (Geo K)) : Except Err (ConvexSet K) :=
  match l with
  | [] => .error .valueError
  | [g] => .ok (.halfSpace g)
  | _ =>
    match shuffled with
    | [] => .error .indexError
    | g :: _ => do
      let p ← g.anElement
      match ← findPoint pick [] shuffled p with
      | none => pure .empty
      | some p => extendToBoundary l p

/-- Whether the half space `B` is required between `A` and `C`, lines 10775-10813. -/
def isRequired (A B C : Geo K) : Except Err Bool := do
  let AB ← A.configuration B
  let BC ← B.configuration C
  let AC ← A.configuration C
  match AB with
  | .convex =>
    match BC with
    | .concave => if AC = .equal ∨ AC = .concave then pure true else .error .assertionError
    | .convex =>
      match B.inter C with
      | none => .error .attributeError
      | some p => pure (decide (AC = .negative) || (A.leftCoords p.1 p.2 && !A.containsCoords p.1 p.2))
    | .negative => pure true
    | .antiParallel => pure true
    | _ => .error .notImplemented
  | .negative => pure true
  | .antiParallel => pure true
  | .concave => pure true
  | _ => .error .notImplemented

/-- The loop of `_normalize_drop_euclidean_redundant`, lines 10764-10818: the required half spaces with the last one first, and the half spaces that are left. -/
def dropEuclideanLoop : ℕ → List (Geo K) → List (Geo K) → Except Err (List (Geo K))
  | _, required, [] => .ok required.reverse
  | 0, _, _ => .error .outOfFuel
  | n + 1, required, B :: rest =>
    match required with
    | [] => .error .indexError
    | A :: below => do
      let C := match rest with
        | C :: _ => C
        | [] => below.getLastD A
      if ← isRequired A B C then dropEuclideanLoop n (B :: A :: below) rest
      else if below ≠ [] then dropEuclideanLoop n below (A :: rest)
      else dropEuclideanLoop n (A :: below) rest

/-- `HyperbolicConvexPolygon._normalize_drop_euclidean_redundant`, lines 10571-10830; equality of half spaces is equality of the oriented geodesics, lines 6314-6340. -/
def dropEuclidean (boundary : Geo K) (l : List (Geo K)) : Except Err (List (Geo K)) :=
  match l.findIdx? fun g => g.eq boundary true with
  | none => .error .valueError
  | some i =>
    match l.drop i ++ l.take i with
    | [] => .error .indexError
    | g :: rest => do
      let required ← dropEuclideanLoop (3 * l.length) [g] rest
      pure (orderedSetRotated halfSpaceLt required)

/-- `HyperbolicPoint.is_finite` in coordinates, lines 8954-8984. -/
def finitePoint (p : K × K) : Bool := decide (p.1 * p.1 + p.2 * p.2 < 1)
/-- `HyperbolicPoint.is_ultra_ideal` in coordinates, lines 8918-8952. -/
def ultraIdealPoint (p : K × K) : Bool := decide (p.1 * p.1 + p.2 * p.2 > 1)

/-- The end of `HyperbolicSegment._normalize`, lines 12498-12518; points are equal if their coordinates are, and a point is never equal to `None`. -/
def segmentFinal (g : Geo K) : Option (K × K) → Option (K × K) → ConvexSet K
  | none, none => .geodesic g
  | some s, some e => if s = e then .point s else .segment g (some s) (some e)
  | s, e => .segment g s e

/-- `HyperbolicSegment._normalize` once the starting point has been treated, lines 12490-12518. -/
def segmentStop (g : Geo K) (start : Option (K × K)) : Option (K × K) → Except Err (ConvexSet K)
  | none => .ok (segmentFinal g start none)
  | some e =>
    if finitePoint e then .ok (segmentFinal g start (some e))
    else do
      let t ← g.parametrize e
      if sgn t < 0 then pure (if ultraIdealPoint e then .empty else .point e) else pure (segmentFinal g start none)

/-- `HyperbolicSegment._normalize` after the order of the end points has been checked, lines 12480-12518. -/
def segmentStart (g : Geo K) (start stop : Option (K × K)) : Except Err (ConvexSet K) :=
  match start with
  | none => segmentStop g none stop
  | some s =>
    if finitePoint s then segmentStop g (some s) stop
    else do
      let t ← g.parametrize s
      if sgn t > 0 then pure (if ultraIdealPoint s then .empty else .point s) else segmentStop g none stop

/-- `HyperbolicPlane.segment` on an oriented geodesic without check, lines 1675-1721, and `HyperbolicSegment._normalize`, lines 12418-12518. -/
def segment (g : Geo K) (start stop : Option (K × K)) : Except Err (ConvexSet K) :=
  if g.isUltraIdeal then .ok .empty
  else
    match start, stop with
    | some s, some e => do
      let t ← g.parametrize s
      let u ← g.parametrize e
      if t > u then .error .valueError else segmentStart g start stop
    | _, _ => segmentStart g start stop

/-- Equality with the negative of another set, line 11040, for geodesics and segments, lines 8163-8178, 13170-13189 and 12717-12743.
The vertices of a segment are compared by comparing its end points; both segments have been normalized. -/
def eqNeg : ConvexSet K → ConvexSet K → Bool
  | .geodesic g, .geodesic h => g.eq h.neg true
  | .segment g s e, .segment h s' e' => g.eq h.neg true && decide (s = e') && decide (e = s')
  | _, _ => false

/-- `maybe_point` and `maybe_segment` in `_normalize_drop_unit_disk_redundant`, lines 10996-10997: `True`, `False` or a value. -/
inductive Maybe (α : Type) | yes | no | val (a : α)

/-- The state of the loop in `_normalize_drop_unit_disk_redundant`, lines 10993-10997. -/
structure DiskState (K : Type) where
  required : List (Geo K)
  maybeEmpty : Bool
  maybePoint : Maybe (K × K)
  maybeSegment : Maybe (ConvexSet K)

/-- The intersection of consecutive half spaces, lines 11000-11009. -/
def cornerOf (A B : Geo K) : Except Err (Option (K × K)) := do
  let c ← A.configuration B
  pure (if c = .concave then none else A.inter B)

/-- The edge of a half space between its neighbours, lines 11000-11011. -/
def edgeOf (A B C : Geo K) : Except Err (ConvexSet K) := do
  let AB ← cornerOf A B
  let BC ← cornerOf B C
  segment B AB BC

/-- The body of the loop in `_normalize_drop_unit_disk_redundant`, lines 11013-11047: a new state or a set that is returned. -/
def diskStep (s : DiskState K) (B : Geo K) (edge : ConvexSet K) : Except Err (DiskState K ⊕ ConvexSet K) :=
  match edge with
  | .empty => .ok (.inl s)
  | .point p =>
    match s.maybePoint with
    | .no => .ok (.inl { s with maybeEmpty := false })
    | .yes => .ok (.inl { s with maybeEmpty := false, maybePoint := .val p })
    | .val q =>
      if q ≠ p then
        if finitePoint q || finitePoint p then .error .assertionError
        else .ok (.inl { s with maybeEmpty := false, maybePoint := .no })
      else .ok (.inl { s with maybeEmpty := false })
  | edge =>
    match s.maybeSegment with
    | .yes => .ok (.inl { required := s.required ++ [B], maybeEmpty := false, maybePoint := .no, maybeSegment := .val edge })
    | .val other =>
      if eqNeg other edge then .ok (.inr edge)
      else .ok (.inl { required := s.required ++ [B], maybeEmpty := false, maybePoint := .no, maybeSegment := .no })
    | .no => .ok (.inl { required := s.required ++ [B], maybeEmpty := false, maybePoint := .no, maybeSegment := .no })

/-- The loop in `_normalize_drop_unit_disk_redundant`, lines 10999-11047. -/
def diskLoop : List (Geo K × Geo K × Geo K) → DiskState K → Except Err (DiskState K ⊕ ConvexSet K)
  | [], s => .ok (.inl s)
  | (A, B, C) :: l, s => do
    let edge ← edgeOf A B C
    match ← diskStep s B edge with
    | .inl s => diskLoop l s
    | .inr r => pure (.inr r)

/-- `HyperbolicConvexPolygon._normalize_drop_unit_disk_redundant`, lines 10832-11069. -/
def dropUnitDisk (l : List (Geo K)) : Except Err (ConvexSet K) := do
  match ← diskLoop (triples l) ⟨[], true, .yes, .yes⟩ with
  | .inr r => pure r
  | .inl s =>
    if s.maybeEmpty then pure .empty
    else
      match s.maybePoint with
      | .val p => pure (.point p)
      | .yes => .error .typeError
      | .no =>
        match s.required with
        | [] => .error .notImplemented
        | [g] => pure (.halfSpace g)
        | l => pure (.polygon l)

/-- `HyperbolicConvexPolygon._normalize` without marked vertices, lines 10400-10500; `shuffle` is the random order of the half spaces. -/
def normalizePolygon (pick : Interval K → K) (shuffle : List (Geo K) → List (Geo K)) (l : List (Geo K)) : Except Err (ConvexSet K) :=
  match dropTrivial l with
  | [] => .error .notImplemented
  | l => do
    match ← euclideanBoundary pick (shuffle l) l with
    | .halfSpace boundary => do
      let l ← dropEuclidean boundary l
      dropUnitDisk l
    | other => pure other

/-- `HyperbolicPlane.polygon` without marked vertices and checks, lines 1723-1946. -/
def hypPolygon (pick : Interval K → K) (shuffle : List (Geo K) → List (Geo K)) (l : List (Geo K)) : Except Err (ConvexSet K) :=
  normalizePolygon pick shuffle (orderedSet halfSpaceLt l)

/-- `HyperbolicPoint.half_spaces` for a point with coordinates, lines 8986-9077. -/
def pointHalfSpaces (p : K × K) : List (Geo K) :=
  orderedSet halfSpaceLt (if finitePoint p then [⟨-p.1, 1, 0⟩, ⟨-p.2, 0, 1⟩, ⟨p.1 + p.2, -1, -1⟩]
    else [⟨0, -p.2, p.1⟩, ⟨-p.1 * p.1 - p.2 * p.2, p.2 + p.1, p.2 - p.1⟩])

/-- `HyperbolicSegment._endpoint_half_spaces`, lines 12597-12626. -/
def endpointHalfSpaces (g : Geo K) (start stop : Option (K × K)) : List (Geo K) :=
  (match start with
    | none => []
    | some s => [⟨-g.c * s.1 + g.b * s.2, g.c, -g.b⟩]) ++
  (match stop with
    | none => []
    | some e => [⟨g.c * e.1 - g.b * e.2, -g.c, g.b⟩])

/-- `half_spaces` of the convex sets, lines 6131-6147, 7085-7100, 8986-9077, 11666-11692, 12647-12666 and 13518-13537; the half circles that describe the empty set are given by their equations in the Klein model, see lines 3743-3783. -/
def ConvexSet.halfSpaces : ConvexSet K → List (Geo K)
  | .empty => orderedSet halfSpaceLt [⟨-4, -4, 2⟩, ⟨-4, 4, 2⟩]
  | .point p => pointHalfSpaces p
  | .geodesic g => orderedSet halfSpaceLt [g, g.neg]
  | .segment g s e => merge2 halfSpaceLt (orderedSet halfSpaceLt [g, g.neg]) (orderedSet halfSpaceLt (endpointHalfSpaces g s e))
  | .halfSpace g => [g]
  | .polygon l => l

/-- `HyperbolicPlane.intersection`, lines 2102-2167; the sum of the half spaces uses `OrderedSet.__add__`, lines 13874-13894. -/
def intersectSets (pick : Interval K → K) (shuffle : List (Geo K) → List (Geo K)) : List (ConvexSet K) → Except Err (ConvexSet K)
  | [] => .error .notImplemented
  | [x] => .ok x
  | sets => normalizePolygon pick shuffle (sets.foldl (fun acc x => merge2 halfSpaceLt acc x.halfSpaces) [])

/-- `HyperbolicConvexSet.__contains__`, lines 4433-4468, for a point with coordinates and sets that are described by half spaces. -/
def ConvexSet.containsPoint (R : ConvexSet K) (p : K × K) : Bool := R.halfSpaces.all fun g => g.leftCoords p.1 p.2

/-- `__eq__` of the convex sets (without orientation and marked vertices), lines 6314-6340, 7426-7494, 9565-9632, 11975-12003, 12717-12742, 13373-13387 and 13825-13841; an end point of a segment that is not given is the end point of the geodesic on that side so two segments on the same geodesic have the same vertices if the same ends are given by the same points. -/
def ConvexSet.eqSet : ConvexSet K → ConvexSet K → Bool
  | .empty, .empty => true
  | .point p, .point q => decide (p.1 = q.1) && decide (p.2 = q.2)
  | .geodesic g, .geodesic h => g.eq h false
  | .segment g s e, .segment h s' e' => g.eq h false && (if g.eq h true then decide (s = s') && decide (e = e') else decide (s = e') && decide (e = s'))
  | .halfSpace g, .halfSpace h => g.eq h true
  | .polygon l, .polygon m => decide (l.length = m.length) && (l.zip m).all fun x => x.1.eq x.2 true
  | _, _ => false

/-- `dimension` of the convex sets, lines 6428-6445, 7557-7574, 9315-9332, 11426-11453, 12907-12928 and 13499-13516. -/
def ConvexSet.dimension : ConvexSet K → ℤ
  | .empty => -1
  | .point _ => 0
  | .geodesic _ => 1
  | .segment _ _ _ => 1
  | .halfSpace _ => 2
  | .polygon _ => 2

/-- `HyperbolicConvexSet.is_subset`, lines 5171-5205. -/
def isSubset (pick : Interval K → K) (shuffle : List (Geo K) → List (Geo K)) (self other : ConvexSet K) : Except Err Bool :=
  if self.dimension < 0 then .ok true
  else if self.dimension > other.dimension then .ok false
  else match self with
    | .point p => .ok (other.containsPoint p)
    | self => do
      let self ← intersectSets pick shuffle (self.halfSpaces.map .halfSpace)
      let both ← intersectSets pick shuffle [self, other]
      pure (both.eqSet self)

end Hyp
end Flat
