import Verif.Lemmas.Composite

/-!
# C16, C17, C18, C19: gluings, immutability and fresh labels of mutable surfaces
-/

namespace Flat
namespace MSurf
variable {L K : Type} [LinearOrder L] [LabelNum L] [Field K] [LinearOrder K] [IsStrictOrderedRing K]

/-- A call of a mutating method with its arguments. -/
inductive Op (L K : Type) where
  | addPolygon (p : Poly K) (label : Option L)
  | removePolygon (l : L)
  | glue (x y : L × Int)
  | unglue (l : L) (e : Int)
  | replacePolygon (l : L) (p : Poly K)
  | changePolygon (l : L) (p : Poly K) (gl : List (L × Int))
  | changePolygonGluings (l : L) (gl : List (Option (L × Int)))
  | setRoot (r : L)
  | setRoots (rs : List L)
  | setImmutable
  | setVertexZero (l : L) (v : ℕ)
  | relabel (f : Dict L L)
  | joinPolygons (l : L) (e : ℕ)
  | subdividePolygon (l : L) (v1 v2 : ℕ) (newLabel : Option L)
  | triangleFlip (l : L) (e : ℕ)
  | refinePolygon (l : L) (surface : MSurf L (Poly K)) (gl : List (ℕ × (L × Int)))

/-- Perform the call. -/
def Op.run : Op L K → Act L (Poly K) Unit
  | addPolygon p label => do let _ ← MSurf.addPolygon p label
  | removePolygon l => MSurf.removePolygon l
  | glue x y => MSurf.glue x y
  | unglue l e => MSurf.unglue l e
  | replacePolygon l p => MSurf.replacePolygon l p
  | changePolygon l p gl => MSurf.changePolygon l p gl
  | changePolygonGluings l gl => MSurf.changePolygonGluings l 0 gl
  | setRoot r => MSurf.setRoot r
  | setRoots rs => MSurf.setRoots rs
  | setImmutable => MSurf.setImmutable
  | setVertexZero l v => MSurf.setVertexZero l v
  | relabel f => MSurf.relabel f
  | joinPolygons l e => MSurf.joinPolygons l e
  | subdividePolygon l v1 v2 nl => MSurf.subdividePolygon l v1 v2 nl
  | triangleFlip l e => MSurf.triangleFlip l e
  | refinePolygon l t gl => MSurf.refinePolygon l t gl

/-- The edge indices given by the caller are not negative (too large indices are allowed: such calls
raise an exception). -/
def Op.NonNeg : Op L K → Prop
  | glue x y => 0 ≤ x.2 ∧ 0 ≤ y.2
  | unglue _ e => 0 ≤ e
  | changePolygon _ _ gl => ∀ c ∈ gl, 0 ≤ c.2
  | changePolygonGluings _ gl => ∀ c, some c ∈ gl → 0 ≤ c.2
  | refinePolygon _ _ gl => ∀ x ∈ gl, 0 ≤ x.2.2
  | _ => True

/-- The states reached from the empty surface by calling methods while the surface is mutable.  A call
that raises an exception leads to the state at the time of the exception. -/
inductive Reachable : MSurf L (Poly K) → Prop
  | empty : Reachable MSurf.empty
  | step (s : MSurf L (Poly K)) (op : Op L K) : Reachable s → s.mutable = true → op.NonNeg →
      (∀ l t gl, op = .refinePolygon l t gl → Reachable t) → Reachable (stateOf (op.run s))

theorem Reachable.inv {s : MSurf L (Poly K)} (h : Reachable s) : GInv s ∧ RootsOK s := by
  induction h with
  | empty => exact ⟨⟨⟨by simp [MSurf.empty, Dict.keys], by simp [MSurf.empty, Dict.keys],
      fun l => by simp [MSurf.empty, Dict.get]⟩, fun l e l' e' h => by simp [MSurf.empty, opp, Dict.get] at h⟩,
      ⟨fun r hr => (List.not_mem_nil hr).elim, List.Pairwise.nil⟩⟩
  | step s op _ hm hop _ ih iht =>
    have hs : Good s := ⟨ih.1, hm, ih.2⟩
    have of : ∀ (m : Act L (Poly K) Unit), Keeps m s → GInv (stateOf (m s)) ∧ RootsOK (stateOf (m s)) := by
      intro m hk
      have := (wp_stateOf m Good s).1 hk
      exact ⟨this.1, this.2.2⟩
    cases op with
    | addPolygon p label =>
      exact of _ (keeps_bind (keeps_addPolygon hs p label) fun _ s' h' => keeps_pure h')
    | removePolygon l => exact of _ (keeps_removePolygon hs l)
    | glue x y => exact of _ (keeps_glue hs x y hop.1 hop.2)
    | unglue l e => exact of _ (keeps_unglue hs l e hop)
    | replacePolygon l p => exact of _ (keeps_replacePolygon hs l p)
    | changePolygon l p gl => exact of _ (keeps_changePolygon hs l p gl hop)
    | changePolygonGluings l gl => exact of _ (keeps_changePolygonGluings hs l 0 gl hop)
    | setRoot r => exact of _ (keeps_setRoot hs r)
    | setRoots rs => exact of _ (keeps_setRoots hs rs)
    | setImmutable =>
      refine (wp_stateOf _ (fun s => GInv s ∧ RootsOK s) s).1
        (wp_mono (wp_and (setImmutable_frame s) (setImmutable_roots ih.1 ih.2)) ?_ ?_)
      · rintro _ s' ⟨⟨h', _⟩, hr⟩
        refine ⟨?_, hr⟩
        rw [h']
        exact ⟨⟨hs.1.nodupP, hs.1.nodupG, hs.1.len⟩, hs.1.inv⟩
      · rintro _ s' ⟨rfl, _⟩; exact ih
    | setVertexZero l v => exact of _ (keeps_setVertexZero hs l v)
    | relabel f => exact of _ (keeps_relabel hs f)
    | joinPolygons l e => exact of _ (keeps_joinPolygons hs l e)
    | subdividePolygon l v1 v2 nl => exact of _ (keeps_subdividePolygon hs l v1 v2 nl)
    | triangleFlip l e => exact of _ (keeps_triangleFlip hs l e)
    | refinePolygon l t gl => exact of _ (keeps_refinePolygon hs l t (iht l t gl rfl).1 gl hop)

theorem Reachable.ginv {s : MSurf L (Poly K)} (h : Reachable s) : GInv s := h.inv.1

theorem Reachable.rootsOK {s : MSurf L (Poly K)} (h : Reachable s) : RootsOK s := h.inv.2

omit [LabelNum L] [IsStrictOrderedRing K] in
theorem polygon_ok {s : MSurf L (Poly K)} {l : L} {p : Poly K} :
    s.polygon l = .ok p ↔ s.polygons.get l = some p := by
  unfold polygon
  cases s.polygons.get l <;> simp

/-- **C16.** In every reachable state the gluings form an involution on the
edges: the partner of the partner is the edge itself, and partners are edges of existing polygons. -/
theorem C16_gluings_involutive {s : MSurf L (Poly K)} (h : Reachable s) (l : L) (e : ℕ) (l' : L) (e' : Int)
    (ho : s.oppositeEdge l (e : Int) = .ok (some (l', e'))) :
    s.oppositeEdge l' e' = .ok (some (l, (e : Int))) ∧
    (∃ p, s.polygon l = .ok p ∧ e < p.length) ∧
    (∃ p, s.polygon l' = .ok p ∧ 0 ≤ e' ∧ e' < p.length) := by
  obtain ⟨k, hk, ⟨p', hp', hk'⟩, h1, _, ⟨p, hp, he⟩⟩ := oppositeEdge_some h.ginv ho
  dsimp only at hk h1 hp'
  subst hk
  have he' : s.IsEdge l' k := ⟨p', hp', hk'⟩
  refine ⟨by rw [oppositeEdge_eq_opp h.ginv.toShape he', h1], ⟨p, polygon_ok.2 hp, he⟩,
    ⟨p', polygon_ok.2 hp', Int.natCast_nonneg k, ?_⟩⟩
  exact_mod_cast hk'

/-- **C16**, the domain: `opposite_edge` answers exactly for the edges of the polygons. -/
theorem C16_opposite_edge_total {s : MSurf L (Poly K)} (h : Reachable s) (l : L) (e : ℕ) :
    (∃ c, s.oppositeEdge l (e : Int) = .ok c) ↔ ∃ p, s.polygon l = .ok p ∧ e < p.length := by
  constructor
  · rintro ⟨c, hc⟩
    by_contra hne
    have : ¬ s.IsEdge l e := by
      rintro ⟨p, hp, he⟩
      exact hne ⟨p, polygon_ok.2 hp, he⟩
    rw [oppositeEdge_error h.ginv.toShape this] at hc
    cases hc
  · rintro ⟨p, hp, he⟩
    exact ⟨_, oppositeEdge_eq_opp h.ginv.toShape ⟨p, polygon_ok.1 hp, he⟩⟩

/-- A triangle. -/
def tri : Poly ℚ := [(0, 0), (1, 0), (0, 1)]

/-- Two triangles glued along all edges (a torus) and a history leading to it. -/
def exTorus : MSurf ℕ (Poly ℚ) :=
  stateOf ((do
    let a ← addPolygon tri none
    let b ← addPolygon tri none
    glue (a, 0) (b, 0)
    glue (a, 1) (b, 1)
    glue (a, 2) (b, 2) : Act ℕ (Poly ℚ) Unit) empty)

/-- The torus is reachable, so that C16 applies to it. -/
theorem exTorus_reachable : Reachable exTorus := by
  have h0 : Reachable (MSurf.empty : MSurf ℕ (Poly ℚ)) := .empty
  have no : ∀ (op : Op ℕ ℚ), (∀ l t gl, op ≠ .refinePolygon l t gl) →
      (∀ l t gl, op = .refinePolygon l t gl → Reachable t) := fun op h l t gl he => absurd he (h l t gl)
  have h1 := Reachable.step _ (.addPolygon tri none) h0 rfl trivial (no _ (by simp))
  have h2 := Reachable.step _ (.addPolygon tri none) h1 rfl trivial (no _ (by simp))
  have h3 := Reachable.step _ (.glue (0, 0) (1, 0)) h2 rfl ⟨by simp, by simp⟩ (no _ (by simp))
  have h4 := Reachable.step _ (.glue (0, 1) (1, 1)) h3 rfl ⟨by simp, by simp⟩ (no _ (by simp))
  have h5 := Reachable.step _ (.glue (0, 2) (1, 2)) h4 rfl ⟨by simp, by simp⟩ (no _ (by simp))
  exact h5

example : exTorus.oppositeEdge 0 1 = .ok (some (1, 1)) := by decide

/-- **C16** fails when an edge is given with a negative index (as Python lists allow): the index is
stored as it was given, and the partner of the partner of edge 0 of polygon 1 is not edge 0 of polygon 1
for the query with the index in range. -/
theorem C16_negative_index_violation :
    ∃ s s' : MSurf ℕ (Poly ℚ), Reachable s ∧ glue (0, -1) (1, 0) s = .ok () s' ∧
      s'.oppositeEdge 0 2 = .ok (some (1, 0)) ∧ s'.oppositeEdge 1 0 ≠ .ok (some (0, 2)) := by
  refine ⟨stateOf ((do
    let _ ← addPolygon tri none
    let _ ← addPolygon tri none : Act ℕ (Poly ℚ) Unit) empty), _, ?_, rfl, by decide, by decide⟩
  have h0 : Reachable (MSurf.empty : MSurf ℕ (Poly ℚ)) := .empty
  have h1 := Reachable.step _ (.addPolygon tri none) h0 rfl trivial (by simp)
  exact Reachable.step _ (.addPolygon tri none) h1 rfl trivial (by simp)

/-! ### C17 -/

omit [LabelNum L] in
theorem opp_symm {s : MSurf L (Poly K)} (h : GInv s) {l : L} {e : ℕ} {l' : L} {e' : ℕ} :
    s.opp l e = some (l', (e' : Int)) ↔ s.opp l' e' = some (l, (e : Int)) := by
  constructor
  · intro ho
    obtain ⟨k, hk, hkk⟩ := h.inv _ _ _ _ ho
    rw [Int.natCast_inj] at hk
    subst hk
    exact hkk
  · intro ho
    obtain ⟨k, hk, hkk⟩ := h.inv _ _ _ _ ho
    rw [Int.natCast_inj] at hk
    subst hk
    exact hkk

/-- **C17**, `glue`: the two edges become partners, their former partners become boundary edges and
every other edge keeps its partner; polygons do not change. -/
theorem C17_glue_effect {s s' : MSurf L (Poly K)} (h : Reachable s) (x y : L × ℕ)
    (hg : glue (x.1, (x.2 : Int)) (y.1, (y.2 : Int)) s = .ok () s') :
    s'.oppositeEdge x.1 x.2 = .ok (some (y.1, (y.2 : Int))) ∧
    s'.oppositeEdge y.1 y.2 = .ok (some (x.1, (x.2 : Int))) ∧
    (∀ z : L × ℕ, z ≠ x → z ≠ y →
      (s.oppositeEdge z.1 z.2 = .ok (some (x.1, (x.2 : Int))) ∨
        s.oppositeEdge z.1 z.2 = .ok (some (y.1, (y.2 : Int))) → s'.oppositeEdge z.1 z.2 = .ok none) ∧
      (¬ (s.oppositeEdge z.1 z.2 = .ok (some (x.1, (x.2 : Int))) ∨
        s.oppositeEdge z.1 z.2 = .ok (some (y.1, (y.2 : Int)))) →
          s'.oppositeEdge z.1 z.2 = s.oppositeEdge z.1 z.2)) ∧
    (∀ l, s'.polygon l = s.polygon l) := by
  have spec := glue_spec h.ginv x y
  unfold wp at spec
  rw [hg] at spec
  obtain ⟨_, hx, hy, hs⟩ := spec
  have hi := h.ginv
  have edge : ∀ l e, s'.IsEdge l e ↔ s.IsEdge l e := fun l e => hs.toSameTables.isEdge
  refine ⟨?_, ?_, fun z hzx hzy => ?_, fun l => ?_⟩
  · rw [oppositeEdge_eq_opp hs.shape ((edge _ _).2 hx), hs.opp_x]
  · rw [oppositeEdge_eq_opp hs.shape ((edge _ _).2 hy), hs.opp_y]
  · by_cases hz : s.IsEdge z.1 z.2
    · rw [oppositeEdge_eq_opp hs.shape ((edge _ _).2 hz), oppositeEdge_eq_opp hi.toShape hz,
        hs.opp_other z.1 z.2 hzx hzy]
      simp only [Except.ok.injEq]
      rw [opp_symm hi (l := z.1) (l' := x.1), opp_symm hi (l := z.1) (l' := y.1)]
      exact ⟨fun hh => if_pos hh, fun hh => if_neg hh⟩
    · have hz' := mt (edge _ _).1 hz
      rw [oppositeEdge_error hs.shape hz', oppositeEdge_error hi.toShape hz, hs.polygons]
      simp
  · unfold polygon; rw [hs.polygons]

/-- **C17**, `unglue`: the edge and its former partner become boundary edges and nothing else changes. -/
theorem C17_unglue_effect {s s' : MSurf L (Poly K)} (h : Reachable s) (x : L × ℕ)
    (hg : unglue x.1 (x.2 : Int) s = .ok () s') :
    s'.oppositeEdge x.1 x.2 = .ok none ∧
    (∀ z : L × ℕ, z ≠ x →
      (s.oppositeEdge z.1 z.2 = .ok (some (x.1, (x.2 : Int))) → s'.oppositeEdge z.1 z.2 = .ok none) ∧
      (s.oppositeEdge z.1 z.2 ≠ .ok (some (x.1, (x.2 : Int))) →
          s'.oppositeEdge z.1 z.2 = s.oppositeEdge z.1 z.2)) ∧
    (∀ l, s'.polygon l = s.polygon l) := by
  have spec := unglue_spec h.ginv x.1 x.2
  unfold wp at spec
  rw [hg] at spec
  obtain ⟨_, hx, hs⟩ := spec
  have hi := h.ginv
  have edge : ∀ l e, s'.IsEdge l e ↔ s.IsEdge l e := fun l e => hs.toSameTables.isEdge
  refine ⟨?_, fun z hzx => ?_, fun l => ?_⟩
  · rw [oppositeEdge_eq_opp hs.shape ((edge _ _).2 hx), hs.opp]
    simp
  · by_cases hz : s.IsEdge z.1 z.2
    · rw [oppositeEdge_eq_opp hs.shape ((edge _ _).2 hz), oppositeEdge_eq_opp hi.toShape hz, hs.opp]
      simp only [Except.ok.injEq, ne_eq]
      rw [opp_symm hi (l := z.1) (l' := x.1)]
      have hne : ¬ (z.1 = x.1 ∧ z.2 = x.2) := fun hh => hzx (Prod.ext hh.1 hh.2)
      constructor
      · intro hh; rw [if_pos (Or.inr hh)]
      · intro hh; rw [if_neg]; rintro (h1 | h1)
        · exact hne h1
        · exact hh h1
    · have hz' := mt (edge _ _).1 hz
      rw [oppositeEdge_error hs.shape hz', oppositeEdge_error hi.toShape hz, hs.polygons]
      simp
  · unfold polygon; rw [hs.polygons]

/-- **C17**, symmetry: `glue(x, y)` and `glue(y, x)` lead to the same gluings. -/
theorem C17_glue_symmetric {s s1 s2 : MSurf L (Poly K)} (h : Reachable s) (x y : L × ℕ)
    (h1 : glue (x.1, (x.2 : Int)) (y.1, (y.2 : Int)) s = .ok () s1)
    (h2 : glue (y.1, (y.2 : Int)) (x.1, (x.2 : Int)) s = .ok () s2) (z : L × ℕ) :
    s1.oppositeEdge z.1 z.2 = s2.oppositeEdge z.1 z.2 := by
  obtain ⟨a1, a2, a3, _⟩ := C17_glue_effect h x y h1
  obtain ⟨b1, b2, b3, _⟩ := C17_glue_effect h y x h2
  by_cases hx : z = x
  · rw [hx, a1, b2]
  · by_cases hy : z = y
    · rw [hy, a2, b1]
    · by_cases hc : s.oppositeEdge z.1 z.2 = .ok (some (x.1, (x.2 : Int))) ∨
        s.oppositeEdge z.1 z.2 = .ok (some (y.1, (y.2 : Int)))
      · rw [(a3 z hx hy).1 hc, (b3 z hy hx).1 hc.symm]
      · rw [(a3 z hx hy).2 hc, (b3 z hy hx).2 (fun hh => hc hh.symm)]

/-- **C17**, idempotence: gluing a second time does not change the gluings. -/
theorem C17_glue_idempotent {s s1 s2 : MSurf L (Poly K)} (h : Reachable s) (x y : L × ℕ)
    (h1 : glue (x.1, (x.2 : Int)) (y.1, (y.2 : Int)) s = .ok () s1)
    (h2 : glue (x.1, (x.2 : Int)) (y.1, (y.2 : Int)) s1 = .ok () s2) (z : L × ℕ) :
    s2.oppositeEdge z.1 z.2 = s1.oppositeEdge z.1 z.2 := by
  have hr : Reachable s1 := by
    have hm : s.mutable = true := by
      have spec := glue_spec h.ginv x y
      unfold wp at spec
      rw [h1] at spec
      exact spec.1
    have := Reachable.step s (.glue (x.1, (x.2 : Int)) (y.1, (y.2 : Int))) h hm
      ⟨Int.natCast_nonneg _, Int.natCast_nonneg _⟩ (by simp)
    simp only [Op.run, h1, stateOf] at this
    exact this
  obtain ⟨a1, a2, a3, _⟩ := C17_glue_effect h x y h1
  obtain ⟨b1, b2, b3, _⟩ := C17_glue_effect hr x y h2
  by_cases hx : z = x
  · rw [hx, a1, b1]
  · by_cases hy : z = y
    · rw [hy, a2, b2]
    · refine (b3 z hx hy).2 ?_
      rintro (hc | hc)
      · have := (C16_gluings_involutive hr _ _ _ _ hc).1
        rw [a1] at this
        simp only [Except.ok.injEq, Option.some.injEq, Prod.mk.injEq, Int.natCast_inj] at this
        exact hy (Prod.ext this.1.symm this.2.symm)
      · have := (C16_gluings_involutive hr _ _ _ _ hc).1
        rw [a2] at this
        simp only [Except.ok.injEq, Option.some.injEq, Prod.mk.injEq, Int.natCast_inj] at this
        exact hx (Prod.ext this.1.symm this.2.symm)

example : ∃ s', glue (0, 0) (1, 2) exTorus = .ok () s' ∧ s'.oppositeEdge 0 2 = .ok none :=
  ⟨_, rfl, by decide⟩

example : ∃ s', unglue 0 1 exTorus = .ok () s' ∧ s'.oppositeEdge 1 1 = .ok none := ⟨_, rfl, by decide⟩

/-- **C17**, failures: when `glue` raises, no two edges were newly glued: only the two edges and their
former partners can have become boundary edges. -/
theorem C17_glue_failure {s s' : MSurf L (Poly K)} (h : Reachable s) (x y : L × ℕ) (err : Err)
    (hg : glue (x.1, (x.2 : Int)) (y.1, (y.2 : Int)) s = .error err s') (z : L × ℕ) :
    s'.oppositeEdge z.1 z.2 = s.oppositeEdge z.1 z.2 ∨
    (s'.oppositeEdge z.1 z.2 = .ok none ∧ (z = x ∨ z = y ∨
      s.oppositeEdge x.1 x.2 = .ok (some (z.1, (z.2 : Int))) ∨
      s.oppositeEdge y.1 y.2 = .ok (some (z.1, (z.2 : Int))))) := by
  have spec := glue_spec h.ginv x y
  unfold wp at spec
  rw [hg] at spec
  obtain ⟨hi', hs, hopp⟩ := spec
  have hi := h.ginv
  by_cases hz : s.IsEdge z.1 z.2
  · rw [oppositeEdge_eq_opp hi'.toShape (hs.isEdge.2 hz), oppositeEdge_eq_opp hi.toShape hz]
    by_cases he : s'.opp z.1 z.2 = s.opp z.1 z.2
    · exact Or.inl (by rw [he])
    · obtain ⟨h0, hw⟩ := hopp z.1 z.2 he
      refine Or.inr ⟨by rw [h0], ?_⟩
      rcases hw with hw | hw | hw | hw
      · exact Or.inl hw
      · exact Or.inr (Or.inl hw)
      · refine Or.inr (Or.inr (Or.inl ?_))
        rw [oppositeEdge_eq_opp hi.toShape (opp_isEdge hi.toShape hw), hw]
      · refine Or.inr (Or.inr (Or.inr ?_))
        rw [oppositeEdge_eq_opp hi.toShape (opp_isEdge hi.toShape hw), hw]
  · left
    have hz' := mt hs.isEdge.1 hz
    rw [oppositeEdge_error hi'.toShape hz', oppositeEdge_error hi.toShape hz, hs.polygons]

/-- `glue` is not atomic: with an edge index out of range it raises after having unglued the first edge. -/
theorem C17_glue_not_atomic :
    ∃ s s' : MSurf ℕ (Poly ℚ), Reachable s ∧ glue (0, 0) (1, 7) s = .error .indexError s' ∧
      s.oppositeEdge 0 0 = .ok (some (1, 0)) ∧ s'.oppositeEdge 0 0 = .ok none :=
  ⟨exTorus, _, exTorus_reachable, rfl, by decide, by decide⟩

/-! ### C18 -/

/-- The methods that check mutability before doing anything. -/
def Op.Checked : Op L K → Prop
  | addPolygon _ _ | glue _ _ | unglue _ _ | changePolygon _ _ _ | changePolygonGluings _ _ | setRoot _
  | setRoots _ | setImmutable | setVertexZero _ _ => True
  | _ => False

theorem Op.immutable_frame {s : MSurf L (Poly K)} (hm : s.mutable = false) {op : Op L K}
    (hop : op.Checked) : stateOf (op.run s) = s ∧
      ((∃ e, op.run s = .error e s) ∨ (∃ l, op = .changePolygonGluings l []) ∨ op = .setImmutable) := by
  have chk : checkMutable s = .error .immutable s := by
    simp [checkMutable, hm, bind, EStateM.bind, get, getThe, MonadStateOf.get, EStateM.get, throw, throwThe,
      MonadExceptOf.throw, EStateM.throw]
  have key : ∀ {β : Type} (f : Unit → Act L (Poly K) β),
      (checkMutable >>= f) s = .error .immutable s := by
    intro β f
    simp only [bind, EStateM.bind, chk]
  have hglue : ∀ x y, MSurf.glue x y s = .error .immutable s := fun x y => key _
  have hunglue : ∀ l e, MSurf.unglue l e s = .error .immutable s := fun l e => key _
  have fin : ∀ e, op.run s = .error e s → stateOf (op.run s) = s ∧
      ((∃ e, op.run s = .error e s) ∨ (∃ l, op = .changePolygonGluings l []) ∨ op = .setImmutable) :=
    fun e he => ⟨by rw [he]; rfl, Or.inl ⟨e, he⟩⟩
  cases op with
  | addPolygon p label =>
    refine fin .immutable ?_
    have h1 : addPolygonBase p label s = .error .immutable s := key _
    have h2 : MSurf.addPolygon p label s = .error .immutable s := by
      simp only [MSurf.addPolygon, bind, EStateM.bind, h1]
    simp only [Op.run, bind, EStateM.bind, h2]
  | glue x y => exact fin _ (hglue x y)
  | unglue l e => exact fin _ (hunglue l e)
  | changePolygon l p gl => exact fin _ (key _)
  | changePolygonGluings l gl =>
    cases gl with
    | nil => exact ⟨rfl, Or.inr (Or.inl ⟨l, rfl⟩)⟩
    | cons c cs =>
      refine fin .immutable ?_
      cases c with
      | none => simp only [Op.run, MSurf.changePolygonGluings, bind, EStateM.bind, hunglue]
      | some c => simp only [Op.run, MSurf.changePolygonGluings, bind, EStateM.bind, hglue]
  | setRoot r => exact fin _ (key _)
  | setRoots rs => exact fin _ (key _)
  | setImmutable =>
    refine ⟨?_, Or.inr (Or.inr rfl)⟩
    simp [Op.run, MSurf.setImmutable, hm, bind, EStateM.bind, get, getThe, MonadStateOf.get, EStateM.get,
      stateOf, pure, EStateM.pure]
  | setVertexZero l v =>
    refine fin .valueError ?_
    simp [Op.run, MSurf.setVertexZero, hm, bind, EStateM.bind, get, getThe, MonadStateOf.get, EStateM.get,
      throw, throwThe, MonadExceptOf.throw, EStateM.throw]
  | removePolygon | replacePolygon | relabel | joinPolygons | subdividePolygon | triangleFlip
  | refinePolygon => exact absurd hop (by simp [Op.Checked])

/-- **C18**, partial: no sequence of calls of the methods that check mutability changes an immutable
surface in any way; each such call raises (except for `set_immutable()` and for an empty list of changes).
Missing: `remove_polygon`, `replace_polygon` and the methods built on them, see the violations below. -/
theorem C18_immutable_unchanged_partial {s : MSurf L (Poly K)} (hm : s.mutable = false)
    (ops : List (Op L K)) (hops : ∀ op ∈ ops, op.Checked) :
    ops.foldl (fun s op => stateOf (op.run s)) s = s := by
  induction ops with
  | nil => rfl
  | cons op ops ih =>
    rw [List.foldl_cons, (Op.immutable_frame hm (hops op (by simp))).1]
    exact ih fun o ho => hops o (by simp [ho])

theorem C18_immutable_raises_partial {s : MSurf L (Poly K)} (hm : s.mutable = false) {op : Op L K}
    (hop : op.Checked) (h1 : op ≠ .setImmutable) (h2 : ∀ l, op ≠ .changePolygonGluings l []) :
    ∃ e, op.run s = .error e s := by
  rcases (Op.immutable_frame hm hop).2 with h | ⟨l, h⟩ | h
  · exact h
  · exact absurd h (h2 l)
  · exact absurd h h1

/-- An immutable torus. -/
def exImmutable : MSurf ℕ (Poly ℚ) := stateOf (setImmutable exTorus)

example : exImmutable.mutable = false ∧ (glue (0, 0) (1, 2) exImmutable = .error .immutable exImmutable) :=
  ⟨by decide, rfl⟩

/-- After `set_immutable()` succeeded, the surface is immutable, its polygons and gluings are the
same. -/
theorem C18_set_immutable {s s' : MSurf L (Poly K)} (h : setImmutable s = .ok () s') :
    s'.mutable = false ∧ s'.polygons = s.polygons ∧ s'.gluings = s.gluings := by
  have := setImmutable_frame s
  unfold wp at this
  rw [h] at this
  rw [this.1]
  exact ⟨rfl, rfl, rfl⟩

/-- **C18** is violated by `remove_polygon`: on an immutable surface it raises, but only after having
destroyed all the gluings of the polygon. -/
theorem C18_remove_polygon_violation :
    ∃ s s' : MSurf ℕ (Poly ℚ), s.mutable = false ∧ removePolygon 0 s = .error .immutable s' ∧
      s.oppositeEdge 1 0 = .ok (some (0, 0)) ∧ s'.oppositeEdge 1 0 = .ok none ∧
      s'.oppositeEdge 0 0 = .error .keyError :=
  ⟨exImmutable, _, by decide, rfl, by decide, by decide, by decide⟩

/-- **C18** is violated by `replace_polygon`: it does not check mutability at all. -/
theorem C18_replace_polygon_violation :
    ∃ s s' : MSurf ℕ (Poly ℚ), s.mutable = false ∧
      replacePolygon 0 [(0, 0), (2, 0), (0, 1)] s = .ok () s' ∧ s'.polygon 0 ≠ s.polygon 0 :=
  ⟨exImmutable, _, by decide, rfl, by decide⟩

/-! ### C19 -/

/-- **C19.** `add_polygon` without a label on a mutable surface always succeeds with a label that was not
in use; the polygon is found under that label and all other polygons and all gluings are unchanged. -/
theorem C19_fresh_label {s : MSurf L (Poly K)} (h : Reachable s) (hm : s.mutable = true) (p : Poly K) :
    ∃ l s', addPolygon p none s = .ok l s' ∧ s.polygon l = .error .keyError ∧ s'.polygon l = .ok p ∧
      (∀ l', l' ≠ l → s'.polygon l' = s.polygon l') ∧
      (∀ l' (e : ℕ) q, s.polygon l' = .ok q → s'.oppositeEdge l' e = s.oppositeEdge l' e) ∧
      (∀ e : ℕ, e < p.length → s'.oppositeEdge l e = .ok none) := by
  have spec := addPolygon_spec h.ginv.toShape p (none : Option L)
  unfold wp at spec
  split at spec
  · rename_i l s' heq
    obtain ⟨_, _, hs⟩ := spec
    have hkey : s.polygons.get l = none := (Dict.get_eq_none_iff _ _).2 hs.fresh
    have isE : ∀ l' e, s'.IsEdge l' e ↔ (l' = l ∧ e < nv p) ∨ (l' ≠ l ∧ s.IsEdge l' e) := by
      intro l' e
      unfold IsEdge
      rw [hs.polygons]
      by_cases hl : l' = l <;> simp [Dict.get_set, hl]
    refine ⟨l, s', heq, ?_, ?_, fun l' hl' => ?_, fun l' e q hq => ?_, fun e he => ?_⟩
    · simp [polygon, hkey]
    · rw [polygon_ok, hs.polygons, Dict.get_set]; simp
    · unfold polygon; rw [hs.polygons, Dict.get_set]; simp [hl']
    · have hne : l' ≠ l := by
        rintro rfl
        rw [polygon_ok] at hq
        rw [hkey] at hq; cases hq
      by_cases he : s.IsEdge l' e
      · rw [oppositeEdge_eq_opp hs.shape ((isE _ _).2 (Or.inr ⟨hne, he⟩)),
          oppositeEdge_eq_opp h.ginv.toShape he, hs.opp]
      · have he' : ¬ s'.IsEdge l' e := by
          rw [isE]; rintro (⟨h1, _⟩ | ⟨_, h1⟩)
          · exact hne h1
          · exact he h1
        rw [oppositeEdge_error hs.shape he', oppositeEdge_error h.ginv.toShape he, hs.polygons]
        simp [Dict.mem_keys_set, hne]
    · rw [oppositeEdge_eq_opp hs.shape ((isE _ _).2 (Or.inl ⟨rfl, he⟩)), hs.opp]
      have : s.opp l e = none := by
        unfold opp
        have hl := h.ginv.len l
        rw [hkey] at hl
        cases hg : s.gluings.get l with
        | none => rfl
        | some g => rw [hg] at hl; cases hl
      rw [this]
  · rename_i e s' heq
    rcases spec with ⟨_, ⟨_, hm'⟩ | ⟨_, l, hl, _⟩⟩
    · rw [hm] at hm'; cases hm'
    · cases hl

/-- **C19**, explicit labels: `add_polygon` with a label fails with a `ValueError` and without any effect
if the label is in use, and otherwise uses exactly this label. -/
theorem C19_explicit_label {s : MSurf L (Poly K)} (h : Reachable s) (hm : s.mutable = true) (p : Poly K)
    (l : L) :
    (∀ q, s.polygon l = .ok q → addPolygon p (some l) s = .error .valueError s) ∧
    (s.polygon l = .error .keyError → ∃ s', addPolygon p (some l) s = .ok l s' ∧ s'.polygon l = .ok p ∧
      ∀ l', l' ≠ l → s'.polygon l' = s.polygon l') := by
  have spec := addPolygon_spec h.ginv.toShape p (some l)
  unfold wp at spec
  constructor
  · intro q hq
    rw [polygon_ok] at hq
    split at spec
    · rename_i l' s' heq
      obtain ⟨_, hl, hs⟩ := spec
      exfalso
      have := hs.fresh
      rw [hl l rfl] at this
      rw [← Dict.get_eq_none_iff, hq] at this
      cases this
    · rename_i e s' heq
      obtain ⟨rfl, hc⟩ := spec
      rcases hc with ⟨_, hm'⟩ | ⟨rfl, _⟩
      · rw [hm] at hm'; cases hm'
      · exact heq
  · intro hk
    have hk' : l ∉ s.polygons.keys := by
      rw [← Dict.get_eq_none_iff]
      unfold polygon at hk
      cases hg : s.polygons.get l with
      | none => rfl
      | some q => rw [hg] at hk; cases hk
    split at spec
    · rename_i l' s' heq
      obtain ⟨_, hl, hs⟩ := spec
      have hll := hl l rfl
      subst hll
      refine ⟨s', heq, ?_, fun l' hl' => ?_⟩
      · rw [polygon_ok, hs.polygons, Dict.get_set]; simp
      · unfold polygon; rw [hs.polygons, Dict.get_set]; simp [hl']
    · rename_i e s' heq
      rcases spec with ⟨_, ⟨_, hm'⟩ | ⟨_, l', hl', hmem⟩⟩
      · rw [hm] at hm'; cases hm'
      · injection hl' with hl'
        subst hl'
        exact absurd hmem hk'

example : ∃ s', addPolygon tri none exTorus = .ok 2 s' := ⟨_, rfl⟩

end MSurf
end Flat
