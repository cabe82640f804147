import Verif.Lemmas.StripCore

/-!
# The width of a cylinder and the crossings on its boundary
-/

namespace Flat
variable {L K : Type} [Field K] [LinearOrder K] [IsStrictOrderedRing K]

namespace RSurf
open Poly
variable {S : RSurf L K} {valid : L → Prop}

/-- The largest value and where it is taken. -/
structure MaxAt {α : Type} (a : α → K) (cs : List α) (y : K) (l : List α) : Prop where
  le : ∀ c ∈ cs, a c ≤ y
  list : l = cs.filter fun c => decide (a c = y)
  ne : l ≠ []

/-- The smallest value and where it is taken. -/
structure MinAt {α : Type} (b : α → K) (cs : List α) (y : K) (l : List α) : Prop where
  ge : ∀ c ∈ cs, y ≤ b c
  list : l = cs.filter fun c => decide (b c = y)
  ne : l ≠ []

omit [Field K] [IsStrictOrderedRing K] in
theorem MaxAt.snoc_eq {α : Type} {a : α → K} {cs : List α} {y : K} {l : List α} (h : MaxAt a cs y l) {c : α} (hc : a c = y) : MaxAt a (cs ++ [c]) y (l ++ [c]) := by
  refine ⟨fun d hd => ?_, ?_, by simp⟩
  · rcases List.mem_append.1 hd with hd | hd
    · exact h.le d hd
    · rw [List.mem_singleton] at hd; subst hd; exact hc.le
  · rw [List.filter_append, ← h.list]
    simp [hc]

omit [Field K] [IsStrictOrderedRing K] in
theorem MaxAt.snoc_lt {α : Type} {a : α → K} {cs : List α} {y : K} {l : List α} (h : MaxAt a cs y l) {c : α} (hc : a c < y) : MaxAt a (cs ++ [c]) y l := by
  refine ⟨fun d hd => ?_, ?_, h.ne⟩
  · rcases List.mem_append.1 hd with hd | hd
    · exact h.le d hd
    · rw [List.mem_singleton] at hd; subst hd; exact hc.le
  · rw [List.filter_append, ← h.list]
    simp [hc.ne]

omit [Field K] [IsStrictOrderedRing K] in
theorem MaxAt.snoc_gt {α : Type} {a : α → K} {cs : List α} {y : K} {l : List α} (h : MaxAt a cs y l) {c : α} (hc : y < a c) : MaxAt a (cs ++ [c]) (a c) [c] := by
  refine ⟨fun d hd => ?_, ?_, by simp⟩
  · rcases List.mem_append.1 hd with hd | hd
    · exact (h.le d hd).trans hc.le
    · rw [List.mem_singleton] at hd; subst hd; exact le_rfl
  · rw [List.filter_append]
    have : cs.filter (fun d => decide (a d = a c)) = [] := by
      rw [List.filter_eq_nil_iff]
      intro d hd
      have := h.le d hd
      simp only [decide_eq_true_eq]
      intro he
      rw [he] at this
      exact absurd hc (not_lt.2 this)
    rw [this]
    simp

omit [Field K] [IsStrictOrderedRing K] in
theorem MinAt.snoc_eq {α : Type} {b : α → K} {cs : List α} {y : K} {l : List α} (h : MinAt b cs y l) {c : α} (hc : b c = y) : MinAt b (cs ++ [c]) y (l ++ [c]) := by
  refine ⟨fun d hd => ?_, ?_, by simp⟩
  · rcases List.mem_append.1 hd with hd | hd
    · exact h.ge d hd
    · rw [List.mem_singleton] at hd; subst hd; exact hc.ge
  · rw [List.filter_append, ← h.list]
    simp [hc]

omit [Field K] [IsStrictOrderedRing K] in
theorem MinAt.snoc_gt {α : Type} {b : α → K} {cs : List α} {y : K} {l : List α} (h : MinAt b cs y l) {c : α} (hc : y < b c) : MinAt b (cs ++ [c]) y l := by
  refine ⟨fun d hd => ?_, ?_, h.ne⟩
  · rcases List.mem_append.1 hd with hd | hd
    · exact h.ge d hd
    · rw [List.mem_singleton] at hd; subst hd; exact hc.le
  · rw [List.filter_append, ← h.list]
    simp [hc.ne']

omit [Field K] [IsStrictOrderedRing K] in
theorem MinAt.snoc_lt {α : Type} {b : α → K} {cs : List α} {y : K} {l : List α} (h : MinAt b cs y l) {c : α} (hc : b c < y) : MinAt b (cs ++ [c]) (b c) [c] := by
  refine ⟨fun d hd => ?_, ?_, by simp⟩
  · rcases List.mem_append.1 hd with hd | hd
    · exact hc.le.trans (h.ge d hd)
    · rw [List.mem_singleton] at hd; subst hd; exact le_rfl
  · rw [List.filter_append]
    have : cs.filter (fun d => decide (b d = b c)) = [] := by
      rw [List.filter_eq_nil_iff]
      intro d hd
      have := h.ge d hd
      simp only [decide_eq_true_eq]
      intro he
      rw [he] at this
      exact absurd hc (not_lt.2 this)
    rw [this]
    simp

/-- The variables describe the part of the edges that all lines have in common. -/
structure ExtentOf (a b : Crossing L K → K) (cs : List (Crossing L K)) (x : Extent L K) : Prop where
  max : MaxAt a cs x.minY x.minList
  min : MinAt b cs x.maxY x.maxList
  lt : x.minY < x.maxY

omit [Field K] [IsStrictOrderedRing K] in
theorem low_high {a b : Crossing L K → K} {cs : List (Crossing L K)} {x : Extent L K} (h : ExtentOf a b cs x) (c : Crossing L K) :
    ((∀ d ∈ cs ++ [c], ∀ d' ∈ cs ++ [c], a d < b d') → ∃ x', (x.low c (a c) >>= fun y => y.high c (b c)) = .ok x') ∧
    ∀ x', (x.low c (a c) >>= fun y => y.high c (b c)) = .ok x' → ExtentOf a b (cs ++ [c]) x' := by
  have hlow : (x.maxY ≤ a c ∧ x.low c (a c) = .error .valueError) ∨ (a c < x.maxY ∧ ∃ y, x.low c (a c) = .ok y ∧ MaxAt a (cs ++ [c]) y.minY y.minList ∧ y.maxY = x.maxY ∧
      y.maxList = x.maxList ∧ y.minY < y.maxY) := by
    unfold Extent.low
    rcases lt_trichotomy (a c) x.minY with h1 | h1 | h1
    · rw [if_neg h1.ne, if_neg h1.not_gt]
      exact .inr ⟨h1.trans h.lt, x, rfl, h.max.snoc_lt h1, rfl, rfl, h.lt⟩
    · rw [if_pos h1]
      exact .inr ⟨h1 ▸ h.lt, _, rfl, h.max.snoc_eq h1, rfl, rfl, h.lt⟩
    · rw [if_neg h1.ne', if_pos h1]
      by_cases h2 : x.maxY ≤ a c
      · rw [if_pos h2]
        exact .inl ⟨h2, rfl⟩
      · rw [if_neg h2]
        exact .inr ⟨not_le.1 h2, _, rfl, h.max.snoc_gt h1, rfl, rfl, not_le.1 h2⟩
  have hmin : ∃ d' ∈ cs, b d' = x.maxY := by
    obtain ⟨d, t, hd⟩ := List.exists_cons_of_ne_nil h.min.ne
    have : d ∈ x.maxList := by rw [hd]; simp
    rw [h.min.list, List.mem_filter, decide_eq_true_eq] at this
    exact ⟨d, this⟩
  rcases hlow with ⟨h1, h2⟩ | ⟨h1, y, h2, h3, h4, h5, h6⟩
  · constructor
    · intro hall
      obtain ⟨d', hd, hd'⟩ := hmin
      have := hall c (by simp) d' (by simp [hd])
      rw [hd'] at this
      exact absurd this (not_lt.2 h1)
    · intro x' hx
      rw [h2] at hx
      cases hx
  · rw [h2]
    have hhigh : (b c ≤ y.minY ∧ y.high c (b c) = .error .valueError) ∨ (∃ z, y.high c (b c) = .ok z ∧ ExtentOf a b (cs ++ [c]) z) := by
      unfold Extent.high
      rw [h4, h5]
      rw [h4] at h6
      rcases lt_trichotomy (b c) x.maxY with k1 | k1 | k1
      · rw [if_neg k1.ne, if_pos k1]
        by_cases k2 : b c ≤ y.minY
        · rw [if_pos k2]
          exact .inl ⟨k2, rfl⟩
        · rw [if_neg k2]
          exact .inr ⟨_, rfl, h3, h.min.snoc_lt k1, not_le.1 k2⟩
      · rw [if_pos k1]
        refine .inr ⟨_, rfl, h3, ?_, ?_⟩
        · exact h.min.snoc_eq k1
        · exact h6
      · rw [if_neg k1.ne', if_neg k1.not_gt]
        refine .inr ⟨_, rfl, h3, ?_, ?_⟩
        · rw [h4, h5]; exact h.min.snoc_gt k1
        · rw [h4]; exact h6
    have hmax : ∃ d ∈ cs ++ [c], a d = y.minY := by
      obtain ⟨d, t, hd⟩ := List.exists_cons_of_ne_nil h3.ne
      have : d ∈ y.minList := by rw [hd]; simp
      rw [h3.list, List.mem_filter, decide_eq_true_eq] at this
      exact ⟨d, this⟩
    rcases hhigh with ⟨k1, k2⟩ | ⟨z, k1, k2⟩
    · constructor
      · intro hall
        obtain ⟨d, hd, hd'⟩ := hmax
        have := hall d hd c (by simp)
        rw [hd'] at this
        exact absurd this (not_lt.2 k1)
      · intro x' hx
        have hx : y.high c (b c) = .ok x' := hx
        rw [k2] at hx
        cases hx
    · refine ⟨fun _ => ⟨z, k1⟩, fun x' hx => ?_⟩
      have hx : y.high c (b c) = .ok x' := hx
      rw [k1] at hx
      injection hx with hx
      subst hx
      exact k2

theorem foldl_extent {A B : Crossing L K → Vec K} {v : Vec K} (cs : List (Crossing L K)) : ∀ {pre : List (Crossing L K)} {x : Extent L K},
    (∀ c ∈ cs, S.gate c = .ok (A c, B c)) → ExtentOf (fun c => ccw v (A c)) (fun c => ccw v (B c)) pre x →
    ((∀ d ∈ pre ++ cs, ∀ d' ∈ pre ++ cs, ccw v (A d) < ccw v (B d')) → ∃ x', cs.foldlM (fun x c => do
      let d ← S.gate c
      (← x.low c (ccw v d.1)).high c (ccw v d.2)) x = .ok x') ∧
    ∀ x', cs.foldlM (fun x c => do
      let d ← S.gate c
      (← x.low c (ccw v d.1)).high c (ccw v d.2)) x = .ok x' → ExtentOf (fun c => ccw v (A c)) (fun c => ccw v (B c)) (pre ++ cs) x' := by
  induction cs with
  | nil =>
    intro pre x hg hx
    refine ⟨fun _ => ⟨x, rfl⟩, fun x' h => ?_⟩
    injection h with h
    subst h
    rwa [List.append_nil]
  | cons c cs ih =>
    intro pre x hg hx
    obtain ⟨h1, h2⟩ := low_high hx c
    have hc := hg c (by simp)
    have e1 : (c :: cs).foldlM (fun x c => do
      let d ← S.gate c
      (← x.low c (ccw v d.1)).high c (ccw v d.2)) x = (x.low c (ccw v (A c)) >>= fun y => y.high c (ccw v (B c))) >>= fun x' => cs.foldlM (fun x c => do
      let d ← S.gate c
      (← x.low c (ccw v d.1)).high c (ccw v d.2)) x' := by
      rw [List.foldlM_cons, hc]
      rfl
    rw [e1]
    have e2 : pre ++ c :: cs = (pre ++ [c]) ++ cs := by simp
    rw [e2]
    cases h3 : (x.low c (ccw v (A c)) >>= fun y => y.high c (ccw v (B c))) with
    | error err =>
      refine ⟨fun hall => ?_, fun x' hx' => by cases hx'⟩
      obtain ⟨x', hx'⟩ := h1 fun d hd d' hd' => hall d (List.mem_append_left _ hd) d' (List.mem_append_left _ hd')
      rw [h3] at hx'
      cases hx'
    | ok x1 => exact ih (fun d hd => hg d (by simp [hd])) (h2 x1 h3)

/-- The width of the cylinder is computed correctly, and it is positive exactly if all edges have a common line. -/
theorem extent_spec {A B : Crossing L K → Vec K} {v : Vec K} (c : Crossing L K) (cs : List (Crossing L K)) (hg : ∀ d ∈ c :: cs, S.gate d = .ok (A d, B d)) :
    ((∀ d ∈ c :: cs, ∀ d' ∈ c :: cs, ccw v (A d) < ccw v (B d')) → ∃ x, S.extent v c cs = .ok x) ∧
    ∀ x, S.extent v c cs = .ok x → ExtentOf (fun c => ccw v (A c)) (fun c => ccw v (B c)) (c :: cs) x := by
  have hc := hg c (by simp)
  have e1 : S.extent v c cs = if ccw v (B c) ≤ ccw v (A c) then .error .valueError else cs.foldlM (fun x c => do
      let d ← S.gate c
      (← x.low c (ccw v d.1)).high c (ccw v d.2)) ⟨ccw v (A c), [c], ccw v (B c), [c]⟩ := by
    unfold extent
    rw [hc]
    by_cases h : ccw v (B c) ≤ ccw v (A c)
    · simp only [bind, Except.bind, if_pos h]; rfl
    · simp only [bind, Except.bind, if_neg h, pure, Except.pure]
  rw [e1]
  by_cases h : ccw v (B c) ≤ ccw v (A c)
  · rw [if_pos h]
    exact ⟨fun hall => absurd (hall c (by simp) c (by simp)) (not_lt.2 h), fun x hx => by cases hx⟩
  · rw [if_neg h]
    have h0 : ExtentOf (fun c => ccw v (A c)) (fun c => ccw v (B c)) [c] ⟨ccw v (A c), [c], ccw v (B c), [c]⟩ :=
      ⟨⟨by simp, by simp, by simp⟩, ⟨by simp, by simp, by simp⟩, not_le.1 h⟩
    exact foldl_extent cs (pre := [c]) (fun d hd => hg d (by simp [hd])) h0

/-- The crossing of a strip at an index. -/
def crossAt (l : ℤ → L) (e : ℤ → ℕ) (G : ℤ → Similarity K) (r : ℕ) : Crossing L K := ⟨r, (l r, G r), e r⟩

theorem vertex_map_call (q : Poly K) (hq : q ≠ []) (f : Vec K → Vec K) (i : ℕ) : Poly.vertex (q.map f) i = f (q.vertex i) := by
  have hl : 0 < q.length := List.length_pos_iff.2 hq
  unfold Poly.vertex
  rw [List.length_map, List.getElem?_map, List.getElem?_eq_getElem (Nat.mod_lt _ hl)]
  rfl

theorem convex_weak {q : Poly K} (hq : q.Valid) (hc : q.Convex) : q.isConvex false = true := by
  have hne : q ≠ [] := by rintro rfl; have := hq.len3; simp at this
  rw [isConvex_iff q hne false]
  intro i
  simp only [Bool.false_eq_true, if_false]
  have := hc i (i + 2)
  have e1 : ccw (q.edge i) (q.vertex (i + 2) - q.vertex i) = ccw (q.edge i) (q.edge (i + 1)) := by
    unfold edge ccw
    simp only [Prod.fst_sub, Prod.snd_sub]
    ring
  rwa [e1] at this

theorem planar_of_strip (hB : S.Bordered valid) {l : ℤ → L} {p : ℤ → Poly K} {e e' : ℤ → ℕ} {g G : ℤ → Similarity K} (h : S.Strip valid l p e e' g G) (i : ℤ)
    {H : Similarity K} (hw : H.WF) (hs : H.sign = 1) :
    S.planarCover.polygon (l i, H) = .ok ((p i).map H.call) :=
  (planar_polygon (l := (l i, H)) (h.polygon i) (h.valid_poly hB i) (convex_weak (h.valid_poly hB i) (h.convex i)) hw hs).1

theorem gate_cross (hB : S.Bordered valid) {l : ℤ → L} {p : ℤ → Poly K} {e e' : ℤ → ℕ} {g G : ℤ → Similarity K} (h : S.Strip valid l p e e' g G) (r : ℕ) :
    S.gate (crossAt l e G r) = .ok (gateA p e G r, gateB p e G r) := by
  have hv := h.valid_poly hB r
  have hne : p r ≠ [] := by intro h0; have := hv.len3; rw [h0] at this; simp at this
  unfold gate crossAt
  simp only [planar_of_strip hB h r (h.wf r) (h.sign r), bind, Except.bind, pure, Except.pure]
  have hl : ((p r).map (G r).call).length = (p r).length := by rw [List.length_map]
  rw [hl, vertex_map_call _ hne, vertex_map_call _ hne, vertex_mod]
  rfl

theorem crossings_eq {l : ℤ → L} {e : ℤ → ℕ} {G : ℤ → Similarity K} {es : List ℕ} {xs : List (L × Similarity K)} (hlen : xs.length = es.length + 1)
    (hes : ∀ r : ℕ, ∀ hr : r < es.length, e r = es[r]) (hxs : ∀ r : ℕ, ∀ hr : r < xs.length, (l r, G r) = xs[r]) :
    crossings xs es = (List.range es.length).map (crossAt l e G) := by
  unfold crossings
  apply List.ext_getElem
  · simp [hlen]
  · intro r h1 h2
    simp only [List.length_mapIdx, List.length_zip, hlen] at h1
    simp only [List.getElem_mapIdx, List.getElem_zip, List.getElem_map, List.getElem_range, crossAt]
    rw [hxs r (by omega), hes r (by omega)]

end RSurf
end Flat
