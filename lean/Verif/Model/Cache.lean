import Verif.Model.SurfaceOps

/-!
# Model of `flatsurf/cache.py`

The decorator `cached_surface_method` puts a descriptor into the class of the surface.  The first access to the method creates a caller and stores it
as an attribute of the surface, where later accesses find it.  The dictionary with the cached values belongs to the surface and is shared by the
callers.  Of SageMath's `CachedMethodCaller` only `__call__` is modelled: it looks for the key in the dictionary, and otherwise calls the method and
stores what it returns.  A method without arguments is a method with arguments in a type with one element.
-/

namespace Flat
variable {L P A Key V : Type} [DecidableEq Key]

/-- A decorated method: the undecorated method and the function that turns the arguments into a key of the dictionary.  Both get the surface. -/
structure CachedMethod (L P A Key V : Type) where
  f : MSurf L P → A → Except Err V
  key : MSurf L P → A → Key

/-- The objects that `S.method` can evaluate to. -/
inductive Caller where
  /-- `CachedSurfaceMethodCaller`, `CachedSurfaceMethodCallerNoArgs`, cache.py 78-127 -/
  | surface
  /-- `CachedMethodCaller`, `CachedMethodCallerNoArgs` of SageMath -/
  | sage
deriving DecidableEq

/-- A surface, its attribute for the method, the dictionary with the cached values, and the callers that the user has kept in variables. -/
structure CacheState (L P Key V : Type) where
  surf : MSurf L P
  attr : Option Caller
  cache : Dict Key V
  refs : List Caller

namespace CachedMethod
variable (m : CachedMethod L P A Key V)

/-- `CachedMethodCaller.__call__` of SageMath. -/
def callSage (a : A) (st : CacheState L P Key V) : Except Err V × CacheState L P Key V :=
  match st.cache.get (m.key st.surf a) with
  | some v => (.ok v, st)
  | none =>
    match m.f st.surf a with
    | .error x => (.error x, st)
    | .ok v => (.ok v, { st with cache := st.cache.set (m.key st.surf a) v })

/-- `__call__`, cache.py 89-104 and 113-127. -/
def call (c : Caller) (a : A) (st : CacheState L P Key V) : Except Err V × CacheState L P Key V :=
  match c with
  | .sage => m.callSage a st
  | .surface =>
    if st.surf.mutable then (m.f st.surf a, st)
    else m.callSage a { st with attr := some .sage }

end CachedMethod

/-- The access `S.method`: the attribute, or otherwise `CachedSurfaceMethod.__get__`, cache.py 142-175. -/
def CacheState.access (st : CacheState L P Key V) : Caller × CacheState L P Key V :=
  match st.attr with
  | some c => (c, st)
  | none =>
    let c := if st.surf.mutable then .surface else .sage
    (c, { st with attr := some c })

/-- What can happen. -/
inductive CacheEvent (L P A : Type) where
  /-- some method that may change the surface is called -/
  | act (m : Act L P Unit)
  /-- `S.method(a)` -/
  | call (a : A)
  /-- `x = S.method` -/
  | keep
  /-- `x(a)` for the `i`-th kept caller -/
  | callKept (i : ℕ) (a : A)

/-- The effect of an event and the result if it is a call of the method. -/
def CachedMethod.step (m : CachedMethod L P A Key V) (st : CacheState L P Key V) : CacheEvent L P A → Option (Except Err V) × CacheState L P Key V
  | .act op =>
    match op st.surf with
    | .ok _ s => (none, { st with surf := s })
    | .error _ s => (none, { st with surf := s })
  | .call a =>
    let (c, st) := st.access
    let (r, st) := m.call c a st
    (some r, st)
  | .keep =>
    let (c, st) := st.access
    (none, { st with refs := st.refs ++ [c] })
  | .callKept i a =>
    match st.refs[i]? with
    | none => (none, st)
    | some c =>
      let (r, st) := m.call c a st
      (some r, st)

/-- All that happens to a surface, from its creation. -/
def CachedMethod.run (m : CachedMethod L P A Key V) (s : MSurf L P) : List (CacheEvent L P A) → CacheState L P Key V
  | evs => evs.foldl (fun st ev => (m.step st ev).2) ⟨s, none, [], []⟩

/-- `edge_matrix(p, e)`, categories/similarity_surfaces.py 1323-1367, a method that is cached. -/
def MSurf.edgeMatrix {L K : Type} [LinearOrder L] [Field K] [LinearOrder K] [IsStrictOrderedRing K] (s : MSurf L (Poly K)) (l : L) (e : ℕ) :
    Except Err (Mat2 K) := do
  let p ← s.polygon l
  let c ← s.oppositeEdge! l e
  let pp ← s.polygon c.1
  match similarityFromVectors (p.edge e) (-(pp.edge c.2.toNat)) with
  | none => .error .valueError
  | some m => return m

end Flat
