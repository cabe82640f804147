import Verif.Model.Cache
import Verif.Props.Gluing

/-!
# Cached methods of surfaces (C38)
-/

namespace Flat
variable {L P A Key V : Type} [DecidableEq Key]

namespace CachedMethod
variable (m : CachedMethod L P A Key V)

/-- The state of the cache agrees with the surface. -/
structure Fresh (st : CacheState L P Key V) : Prop where
  empty : st.surf.mutable = true → st.cache = [] ∧ st.attr ≠ some .sage ∧ Caller.sage ∉ st.refs
  value : ∀ k v, st.cache.get k = some v → ∃ a, m.key st.surf a = k ∧ m.f st.surf a = .ok v

/-- Equal keys stand for equal results. -/
def KeyOK : Prop := ∀ s a b, m.key s a = m.key s b → m.f s a = m.f s b

variable {m}

theorem callSage_spec (hk : m.KeyOK) {st : CacheState L P Key V} (h : m.Fresh st) (hi : st.surf.mutable = false) (a : A) :
    (m.callSage a st).1 = m.f st.surf a ∧ m.Fresh (m.callSage a st).2 ∧ (m.callSage a st).2.surf = st.surf ∧
      (m.callSage a st).2.refs = st.refs ∧ (∀ v, m.f st.surf a = .ok v → (m.callSage a st).2.cache.get (m.key st.surf a) = some v) := by
  unfold callSage
  cases hc : st.cache.get (m.key st.surf a) with
  | some v =>
    obtain ⟨b, h1, h2⟩ := h.value _ _ hc
    have : m.f st.surf a = .ok v := by rw [hk st.surf a b h1.symm, h2]
    refine ⟨this.symm, h, rfl, rfl, fun v' hv' => ?_⟩
    rw [this] at hv'; injection hv' with hv'; subst hv'
    exact hc
  | none =>
    cases hf : m.f st.surf a with
    | error x => exact ⟨rfl, h, rfl, rfl, fun v hv => by cases hv⟩
    | ok v =>
      refine ⟨rfl, ⟨?_, ?_⟩, rfl, rfl, ?_⟩
      · intro hm
        rw [hi] at hm; cases hm
      · intro k v' hk'
        dsimp only at hk' ⊢
        rw [Dict.get_set] at hk'
        split_ifs at hk' with he
        · injection hk' with hk'; subst hk'; exact ⟨a, he.symm, hf⟩
        · exact h.value k v' hk'
      · intro v' hv'
        injection hv' with hv'; subst hv'
        dsimp only
        rw [Dict.get_set, if_pos rfl]

theorem call_spec (hk : m.KeyOK) {st : CacheState L P Key V} (h : m.Fresh st) (c : Caller) (hc : c = .sage → st.surf.mutable = false) (a : A) :
    (m.call c a st).1 = m.f st.surf a ∧ m.Fresh (m.call c a st).2 ∧ (m.call c a st).2.surf = st.surf := by
  cases c with
  | sage =>
    obtain ⟨h1, h2, h3, -⟩ := callSage_spec hk h (hc rfl) a
    exact ⟨h1, h2, h3⟩
  | surface =>
    unfold call
    dsimp only
    by_cases hm : st.surf.mutable = true
    · rw [if_pos hm]; exact ⟨rfl, h, rfl⟩
    · rw [if_neg hm]
      have hm' : st.surf.mutable = false := by simpa using hm
      have h' : m.Fresh { st with attr := some .sage } := ⟨fun h' => absurd h' hm, h.value⟩
      obtain ⟨h1, h2, h3, -⟩ := callSage_spec hk h' hm' a
      exact ⟨h1, h2, h3⟩

theorem access_spec {st : CacheState L P Key V} (h : m.Fresh st) :
    m.Fresh st.access.2 ∧ st.access.2.surf = st.surf ∧ (st.access.1 = .sage → st.surf.mutable = false) ∧ st.access.2.refs = st.refs := by
  unfold CacheState.access
  cases hc : st.attr with
  | some c =>
    refine ⟨h, rfl, ?_, rfl⟩
    rintro rfl
    by_contra hm
    exact (h.empty (by simpa using hm)).2.1 hc
  | none =>
    dsimp only
    by_cases hm : st.surf.mutable = true
    · rw [if_pos hm]
      exact ⟨⟨fun _ => ⟨(h.empty hm).1, by simp, (h.empty hm).2.2⟩, h.value⟩, rfl, fun h => by simp at h, rfl⟩
    · rw [if_neg hm]
      exact ⟨⟨fun h' => absurd h' hm, h.value⟩, rfl, fun _ => by simpa using hm, rfl⟩

/-- In this state the event does not change an immutable surface. -/
def Allowed (s : MSurf L P) : CacheEvent L P A → Prop
  | .act op => s.mutable = false → stateOf (op s) = s
  | _ => True

theorem step_spec (hk : m.KeyOK) {st : CacheState L P Key V} (h : m.Fresh st) (ev : CacheEvent L P A) (hev : Allowed st.surf ev) :
    m.Fresh (m.step st ev).2 ∧ (∀ a r, ev = .call a → (m.step st ev).1 = some r → r = m.f st.surf a) ∧
      (∀ a, ev = .call a → ∃ r, (m.step st ev).1 = some r) ∧
      ∀ i a r, ev = .callKept i a → (m.step st ev).1 = some r → r = m.f st.surf a := by
  cases ev with
  | act op =>
    refine ⟨?_, fun _ _ h => (by cases h), fun _ h => (by cases h), fun _ _ _ h => (by cases h)⟩
    have hs : (m.step st (.act op)).2 = { st with surf := stateOf (op st.surf) } := by
      unfold step
      dsimp only
      cases op st.surf <;> rfl
    rw [hs]
    by_cases hm : st.surf.mutable = true
    · obtain ⟨h1, h2, h3⟩ := h.empty hm
      refine ⟨fun _ => ⟨h1, h2, h3⟩, fun k v hv => ?_⟩
      dsimp only at hv
      rw [h1] at hv; cases hv
    · have e : stateOf (op st.surf) = st.surf := hev (by simpa using hm)
      rw [e]
      exact h
  | call a =>
    obtain ⟨h1, h2, h3, -⟩ := access_spec h
    obtain ⟨k1, k2, -⟩ := call_spec hk h1 st.access.1 (fun h => by rw [h2]; exact h3 h) a
    rw [h2] at k1
    refine ⟨k2, fun b r hb hr => ?_, fun b hb => ⟨_, rfl⟩, fun _ _ _ h => (by cases h)⟩
    injection hb with hb
    subst hb
    have hr : some (m.call st.access.1 a st.access.2).1 = some r := hr
    injection hr with hr
    rw [← hr, k1]
  | keep =>
    obtain ⟨h1, h2, h3, h4⟩ := access_spec h
    refine ⟨⟨fun hm => ?_, h1.value⟩, fun _ _ h => (by cases h), fun _ h => (by cases h), fun _ _ _ h => (by cases h)⟩
    obtain ⟨e1, e2, e3⟩ := h1.empty hm
    refine ⟨e1, e2, ?_⟩
    intro hmem
    have hmem : Caller.sage ∈ st.access.2.refs ++ [st.access.1] := hmem
    rw [List.mem_append, List.mem_singleton] at hmem
    rcases hmem with hmem | hmem
    · exact e3 hmem
    · have hm : st.access.2.surf.mutable = true := hm
      rw [h2, h3 hmem.symm] at hm
      cases hm
  | callKept i a =>
    cases hi : st.refs[i]? with
    | none =>
      have hs : m.step st (.callKept i a) = (none, st) := by unfold step; dsimp only; rw [hi]
      rw [hs]
      exact ⟨h, fun _ _ h => (by cases h), fun _ h => (by cases h), fun _ _ _ _ h => (by cases h)⟩
    | some c =>
      have hs : m.step st (.callKept i a) = (some (m.call c a st).1, (m.call c a st).2) := by unfold step; dsimp only; rw [hi]
      rw [hs]
      have hc : c = .sage → st.surf.mutable = false := by
        rintro rfl
        by_contra hm
        exact (h.empty (by simpa using hm)).2.2 (List.mem_of_getElem? hi)
      obtain ⟨k1, k2, -⟩ := call_spec hk h c hc a
      refine ⟨k2, fun _ _ h => (by cases h), fun _ h => (by cases h), fun j b r hb hr => ?_⟩
      injection hb with _ hb
      subst hb
      injection hr with hr
      rw [← hr, k1]

/-- A schedule in which no event changes an immutable surface. -/
def Schedule (m : CachedMethod L P A Key V) : CacheState L P Key V → List (CacheEvent L P A) → Prop
  | _, [] => True
  | st, ev :: evs => Allowed st.surf ev ∧ Schedule m (m.step st ev).2 evs

theorem schedule_fresh (hk : m.KeyOK) (evs : List (CacheEvent L P A)) {st : CacheState L P Key V} (h : m.Fresh st) (hs : m.Schedule st evs) :
    m.Fresh (evs.foldl (fun st ev => (m.step st ev).2) st) := by
  induction evs generalizing st with
  | nil => exact h
  | cons ev evs ih => exact ih (step_spec hk h ev hs.1).1 hs.2

/-- **C38.** Whatever happens to the surface, in any order — changes, `set_immutable()`, calls of the decorated method, calls through variables that keep
the method — a call of the decorated method returns or raises what the undecorated method returns or raises for the surface at that moment, provided that
immutable surfaces have not been changed and that arguments with equal keys have equal results. -/
theorem C38_not_stale (hk : m.KeyOK) (s : MSurf L P) (evs : List (CacheEvent L P A)) (hs : m.Schedule ⟨s, none, [], []⟩ evs) :
    (∀ a, (m.step (m.run s evs) (.call a)).1 = some (m.f (m.run s evs).surf a)) ∧
    ∀ i a r, (m.step (m.run s evs) (.callKept i a)).1 = some r → r = m.f (m.run s evs).surf a := by
  have h := schedule_fresh hk evs (⟨fun _ => ⟨rfl, by simp, by simp⟩, fun k v h => by cases h⟩ : m.Fresh ⟨s, none, [], []⟩) hs
  constructor
  · intro a
    obtain ⟨-, h2, h3, -⟩ := step_spec hk h (.call a) trivial
    obtain ⟨r, hr⟩ := h3 a rfl
    exact hr.trans (congrArg some (h2 a r rfl hr))
  · intro i a r hr
    exact (step_spec hk h (.callKept i a) trivial).2.2.2 i a r rfl hr

/-- **C38.** On an immutable surface a value that has been returned is kept: the next call with the same key finds it in the dictionary. -/
theorem C38_cached (hk : m.KeyOK) (s : MSurf L P) (evs : List (CacheEvent L P A)) (hs : m.Schedule ⟨s, none, [], []⟩ evs)
    (hi : (m.run s evs).surf.mutable = false) (a : A) {v : V} (hv : m.f (m.run s evs).surf a = .ok v) :
    (m.step (m.run s evs) (.call a)).2.cache.get (m.key (m.run s evs).surf a) = some v ∧ (m.step (m.run s evs) (.call a)).2.attr = some .sage := by
  have h := schedule_fresh hk evs (⟨fun _ => ⟨rfl, by simp, by simp⟩, fun k v h => by cases h⟩ : m.Fresh ⟨s, none, [], []⟩) hs
  change m.Fresh (m.run s evs) at h
  generalize m.run s evs = st at *
  obtain ⟨h1, h2, h3, -⟩ := access_spec h
  have hattr : ∀ st : CacheState L P Key V, (m.callSage a st).2.attr = st.attr := by
    intro st
    unfold callSage
    cases st.cache.get (m.key st.surf a) with
    | some v => rfl
    | none => cases m.f st.surf a <;> rfl
  show (m.call st.access.1 a st.access.2).2.cache.get (m.key st.surf a) = some v ∧ (m.call st.access.1 a st.access.2).2.attr = some .sage
  rw [← h2] at hi hv ⊢
  cases hc : st.access.1 with
  | sage =>
    refine ⟨(callSage_spec hk h1 hi a).2.2.2.2 v hv, ?_⟩
    show (m.callSage a st.access.2).2.attr = _
    rw [hattr]
    unfold CacheState.access at hc ⊢
    cases ha : st.attr with
    | some c => rw [ha] at hc; dsimp only at hc ⊢; rw [ha, hc]
    | none => rw [ha] at hc; dsimp only at hc ⊢; rw [hc]
  | surface =>
    unfold call
    dsimp only
    rw [if_neg (by rw [hi]; simp)]
    have h' : m.Fresh { st.access.2 with attr := some .sage } := ⟨fun h' => (by
      have h' : st.access.2.surf.mutable = true := h'
      rw [hi] at h'; cases h'), h1.value⟩
    refine ⟨(callSage_spec hk h' hi a).2.2.2.2 v hv, ?_⟩
    rw [hattr]

end CachedMethod

namespace MSurf
variable {L K : Type} [LinearOrder L] [LabelNum L] [Field K] [LinearOrder K] [IsStrictOrderedRing K]

/-- The methods of surfaces that check for mutability do not change an immutable surface, so they can occur anywhere. -/
theorem C38_checked {A : Type} (s : MSurf L (Poly K)) {op : Op L K} (hop : op.Checked) : CachedMethod.Allowed s (.act op.run : CacheEvent L (Poly K) A) :=
  fun hm => (Op.immutable_frame hm hop).1

/-- The method `edge_matrix`. -/
def edgeMatrixMethod : CachedMethod L (Poly K) (L × ℕ) (L × ℕ) (Mat2 K) where
  f s a := s.edgeMatrix a.1 a.2
  key _ a := a

theorem edgeMatrixMethod_keyOK : (edgeMatrixMethod (L := L) (K := K)).KeyOK := by
  intro s a b h
  have h : a = b := h
  rw [h]

/-- On the torus a triangle is replaced before the surface is made immutable; `edge_matrix` returns the matrix for the new triangle afterwards. -/
def exEvents : List (CacheEvent ℕ (Poly ℚ) (ℕ × ℕ)) :=
  [.keep, .call (0, 0), .act (replacePolygon 0 [(0, 0), (2, 0), (0, 2)]), .call (0, 0), .act (Op.run .setImmutable), .callKept 0 (0, 0), .call (0, 0)]

example : edgeMatrixMethod.Schedule ⟨exTorus, none, [], []⟩ exEvents ∧ (edgeMatrixMethod.run exTorus exEvents).surf.mutable = false ∧
    edgeMatrixMethod.f (edgeMatrixMethod.run exTorus exEvents).surf (0, 0) = .ok ⟨-1 / 2, 0, 0, -1 / 2⟩ ∧
    edgeMatrixMethod.f exTorus (0, 0) = .ok ⟨-1, 0, 0, -1⟩ :=
  ⟨⟨trivial, trivial, fun h => absurd h (by decide +kernel), trivial, fun h => absurd h (by decide +kernel), trivial, trivial, trivial⟩,
    by decide +kernel, by decide +kernel, by decide +kernel⟩

/-- The proviso of **C38** is needed: `replace_polygon` changes immutable surfaces (see C18), and then the cached `edge_matrix` returns the old
value. -/
theorem C38_replace_polygon_violation :
    ∃ (s : MSurf ℕ (Poly ℚ)) (evs : List (CacheEvent ℕ (Poly ℚ) (ℕ × ℕ))) (a : ℕ × ℕ),
      (edgeMatrixMethod.step (edgeMatrixMethod.run s evs) (.call a)).1 = some (.ok ⟨-1, 0, 0, -1⟩) ∧
      (edgeMatrixMethod.run s evs).surf.edgeMatrix a.1 a.2 = .ok ⟨-1 / 2, 0, 0, -1 / 2⟩ :=
  ⟨exTorus, [.act (Op.run .setImmutable), .call (0, 0), .act (replacePolygon 0 [(0, 0), (2, 0), (0, 2)])], (0, 0), by decide +kernel, by decide +kernel⟩

end MSurf
end Flat
