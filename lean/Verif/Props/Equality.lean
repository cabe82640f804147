import Verif.Lemmas.Content
import Verif.Props.Gluing

/-!
# C22: equality and hash of surfaces
-/

namespace Flat
namespace MSurf
variable {L K : Type} [LinearOrder L] [LabelNum L] [Field K] [LinearOrder K] [IsStrictOrderedRing K]

theorem eq_iff_content {s t : MSurf L (Poly K)} (hs : Shape s) (ht : Shape t) :
    s.eq t = true ↔ SameContent s t ∧ s.roots = t.roots ∧ s.mutable = t.mutable := by
  unfold eq
  simp only [Bool.and_eq_true, decide_eq_true_eq, Dict.pyEq_iff hs.nodupP ht.nodupP,
    Dict.pyEq_iff hs.nodupG ht.nodupG]
  constructor
  · rintro ⟨⟨⟨h1, h2⟩, h3⟩, h4⟩; exact ⟨⟨h1, h4⟩, h2, h3⟩
  · rintro ⟨⟨h1, h4⟩, h2, h3⟩; exact ⟨⟨⟨h1, h2⟩, h3⟩, h4⟩

/-- An immutable surface was made by `set_immutable`. -/
theorem Reachable.immutable {s : MSurf L (Poly K)} (h : Reachable s) (hm : s.mutable = false) :
    ∃ s0, Reachable s0 ∧ s0.mutable = true ∧ setImmutable s0 = .ok () s := by
  cases h with
  | empty => cases hm
  | step s0 op h0 hm0 hop ht =>
    have hs : Good s0 := ⟨h0.ginv, hm0, h0.rootsOK⟩
    have of : ∀ (m : Act L (Poly K) Unit), Keeps m s0 → (stateOf (m s0)).mutable = true := by
      intro m hk
      exact ((wp_stateOf m Good s0).1 hk).2.1
    have no : ∀ {P : Prop} (m : Act L (Poly K) Unit), Keeps m s0 → (stateOf (m s0)).mutable = false → P := by
      intro P m hk h'
      rw [of m hk] at h'; cases h'
    cases op with
    | addPolygon p label =>
      exact no _ (keeps_bind (keeps_addPolygon hs p label) fun _ s' h' => keeps_pure h') hm
    | removePolygon l => exact no _ (keeps_removePolygon hs l) hm
    | glue x y => exact no _ (keeps_glue hs x y hop.1 hop.2) hm
    | unglue l e => exact no _ (keeps_unglue hs l e hop) hm
    | replacePolygon l p => exact no _ (keeps_replacePolygon hs l p) hm
    | changePolygon l p gl => exact no _ (keeps_changePolygon hs l p gl hop) hm
    | changePolygonGluings l gl => exact no _ (keeps_changePolygonGluings hs l 0 gl hop) hm
    | setRoot r => exact no _ (keeps_setRoot hs r) hm
    | setRoots rs => exact no _ (keeps_setRoots hs rs) hm
    | setVertexZero l v => exact no _ (keeps_setVertexZero hs l v) hm
    | relabel f => exact no _ (keeps_relabel hs f) hm
    | joinPolygons l e => exact no _ (keeps_joinPolygons hs l e) hm
    | subdividePolygon l v1 v2 nl => exact no _ (keeps_subdividePolygon hs l v1 v2 nl) hm
    | triangleFlip l e => exact no _ (keeps_triangleFlip hs l e) hm
    | refinePolygon l t gl => exact no _ (keeps_refinePolygon hs l t (ht l t gl rfl).ginv gl hop) hm
    | setImmutable =>
      refine ⟨s0, h0, hm0, ?_⟩
      have fr := setImmutable_frame s0
      unfold wp at fr
      revert hm fr
      simp only [Op.run]
      cases setImmutable s0 with
      | ok a s' => intro _ _; rfl
      | error e s' =>
        intro hm fr
        simp only [stateOf] at hm fr
        rw [fr, hm0] at hm
        cases hm

/-- The state after `set_immutable`. -/
theorem setImmutable_result {s s' : MSurf L (Poly K)} (hm : s.mutable = true)
    (h : setImmutable s = .ok () s') :
    ∃ rs, s.rootsList = .ok rs ∧ s' = { s with roots := rs, mutable := false } := by
  have : wp setImmutable (fun _ s' => ∃ rs, s.rootsList = .ok rs ∧ s' = { s with roots := rs, mutable := false })
      (fun _ _ => True) s := by
    unfold setImmutable
    rw [wp_bind, wp_get, wp_ite]
    refine ⟨fun _ => ?_, fun h' => absurd hm h'⟩
    rw [wp_bind, wp_liftE]
    refine ⟨fun rs hrs => ?_, fun _ _ => trivial⟩
    rw [wp_bind]
    refine wp_mono (setRoots_frame rs s) ?_ (fun _ _ _ => trivial)
    rintro _ s' ⟨rfl, _⟩
    rw [wp_bind, wp_get, wp_set]
    exact ⟨rs, hrs, rfl⟩
  unfold wp at this
  rw [h] at this
  exact this

/-- When every component has an explicit root, `roots()` are these roots. -/
theorem rootsList_of_cover {s : MSurf L (Poly K)} (h : GInv s) (hr : RootsOK s)
    (hc : ∀ l ∈ s.polygons.keys, ∃ r ∈ s.roots, s.Conn r l) : s.rootsList = .ok s.roots := by
  obtain ⟨rs, h1, h2, h3, h4⟩ := rootsList_spec h hr
  have : rs = [] := by
    cases rs with
    | nil => rfl
    | cons a rs =>
      obtain ⟨r, hrr, hra⟩ := hc a (h2 a (by simp))
      rw [List.pairwise_append] at h3
      exact absurd hra (h3.2.2 r hrr a (by simp))
  rw [this, List.append_nil] at h1
  exact h1

/-- The roots of an immutable surface are explicit. -/
theorem Reachable.immutable_roots {s : MSurf L (Poly K)} (h : Reachable s) (hm : s.mutable = false) :
    s.rootsList = .ok s.roots := by
  obtain ⟨s0, h0, hm0, himm⟩ := h.immutable hm
  obtain ⟨rs, hrs, rfl⟩ := setImmutable_result hm0 himm
  obtain ⟨rs', h1, h2, h3, h4⟩ := rootsList_spec h0.ginv h0.rootsOK
  rw [hrs] at h1
  injection h1 with h1
  refine rootsList_of_cover h.ginv h.rootsOK ?_
  intro l hl
  obtain ⟨r, hr, hc⟩ := h4 l hl
  refine ⟨r, by rw [h1]; exact hr, ?_⟩
  exact (conn_congr (s := s0) (fun _ _ => rfl)).2 hc

/-- **C22.** Two immutable surfaces are equal iff they have the same polygons, the same gluings and the
same roots (in the same order); the way in which they were built does not matter. -/
theorem C22_eq_iff {s t : MSurf L (Poly K)} (hs : Reachable s) (ht : Reachable t)
    (hms : s.mutable = false) (hmt : t.mutable = false) :
    s.eq t = true ↔ (∀ l, s.polygon l = t.polygon l) ∧
      (∀ l (e : ℕ), s.oppositeEdge l (e : Int) = t.oppositeEdge l (e : Int)) ∧ s.rootsList = t.rootsList := by
  rw [eq_iff_content hs.ginv.toShape ht.ginv.toShape, sameContent_iff hs.ginv.toShape ht.ginv.toShape,
    hs.immutable_roots hms, ht.immutable_roots hmt, hms, hmt]
  simp only [Except.ok.injEq, and_true]
  exact and_assoc

/-- **C22**, equivalence relation (for mutable surfaces as well). -/
theorem C22_eq_equivalence {s t u : MSurf L (Poly K)} (hs : Reachable s) (ht : Reachable t) (hu : Reachable u) :
    s.eq s = true ∧ (s.eq t = true → t.eq s = true) ∧ (s.eq t = true → t.eq u = true → s.eq u = true) := by
  simp only [eq_iff_content hs.ginv.toShape ht.ginv.toShape, eq_iff_content hs.ginv.toShape hs.ginv.toShape,
    eq_iff_content ht.ginv.toShape hs.ginv.toShape, eq_iff_content ht.ginv.toShape hu.ginv.toShape,
    eq_iff_content hs.ginv.toShape hu.ginv.toShape]
  refine ⟨⟨⟨fun _ => rfl, fun _ => rfl⟩, trivial, trivial⟩, fun ⟨h1, h2, h3⟩ => ⟨h1.symm, h2.symm, h3.symm⟩,
    fun ⟨h1, h2, h3⟩ ⟨g1, g2, g3⟩ => ⟨⟨fun l => (h1.polygons l).trans (g1.polygons l),
      fun l => (h1.gluings l).trans (g1.gluings l)⟩, h2.trans g2, h3.trans g3⟩⟩

/-- **C22**, hash: equal surfaces have equal hashes (the hashed data are equal, not only the
hashes), and immutable surfaces can be hashed. -/
theorem C22_hash {s t : MSurf L (Poly K)} (hs : Reachable s) (ht : Reachable t) (h : s.eq t = true) :
    s.hashKey = t.hashKey := by
  rw [eq_iff_content hs.ginv.toShape ht.ginv.toShape] at h
  exact h.1.hashKey hs.ginv.toShape ht.ginv.toShape h.2.1 h.2.2

/-- Equal surfaces list their labels, components, polygons and gluings in the same order. -/
theorem C22_iteration {s t : MSurf L (Poly K)} (hs : Reachable s) (ht : Reachable t) (h : s.eq t = true) :
    s.labels = t.labels ∧ s.components = t.components ∧ s.polygonList = t.polygonList ∧
      s.gluingPairs = t.gluingPairs := by
  rw [eq_iff_content hs.ginv.toShape ht.ginv.toShape] at h
  obtain ⟨h1, h2, _⟩ := h
  exact ⟨h1.labels hs.ginv.toShape ht.ginv.toShape h2, h1.components hs.ginv.toShape ht.ginv.toShape h2,
    h1.polygonList hs.ginv.toShape ht.ginv.toShape h2, h1.gluingPairs hs.ginv.toShape ht.ginv.toShape h2⟩

/-- **C22**, independence of the order of construction: surfaces without explicit roots that have the same
polygons and gluings become equal surfaces with equal hashes when made immutable. -/
theorem C22_order_independent {s t s' t' : MSurf L (Poly K)} (hs : Reachable s) (ht : Reachable t)
    (hms : s.mutable = true) (hmt : t.mutable = true) (hrs : s.roots = []) (hrt : t.roots = [])
    (hp : ∀ l, s.polygon l = t.polygon l)
    (hg : ∀ l (e : ℕ), s.oppositeEdge l (e : Int) = t.oppositeEdge l (e : Int))
    (is : setImmutable s = .ok () s') (it : setImmutable t = .ok () t') :
    s'.eq t' = true ∧ s'.hashKey = t'.hashKey := by
  have hc := (sameContent_iff hs.ginv.toShape ht.ginv.toShape).2 ⟨hp, hg⟩
  obtain ⟨rs, hr1, rfl⟩ := setImmutable_result hms is
  obtain ⟨rt, hr2, rfl⟩ := setImmutable_result hmt it
  rw [hc.rootsList hs.ginv.toShape ht.ginv.toShape (hrs.trans hrt.symm), hr2] at hr1
  injection hr1 with hr1
  subst hr1
  have rs' : Reachable ({ s with roots := rt, mutable := false } : MSurf L (Poly K)) := by
    have := Reachable.step s .setImmutable hs hms trivial (by simp)
    simpa only [Op.run, is, stateOf] using this
  have rt' : Reachable ({ t with roots := rt, mutable := false } : MSurf L (Poly K)) := by
    have := Reachable.step t .setImmutable ht hmt trivial (by simp)
    simpa only [Op.run, it, stateOf] using this
  have he : eq ({ s with roots := rt, mutable := false } : MSurf L (Poly K)) { t with roots := rt, mutable := false }
      = true := by
    rw [eq_iff_content rs'.ginv.toShape rt'.ginv.toShape]
    exact ⟨⟨hc.polygons, hc.gluings⟩, rfl, rfl⟩
  exact ⟨he, C22_hash rs' rt' he⟩

/-- `set_immutable` always succeeds on the surfaces of `C22_order_independent`; the hash of an immutable
surface exists. -/
def exTorus' : MSurf ℕ (Poly ℚ) :=
  stateOf ((do
    let b ← addPolygon tri (some 1)
    let a ← addPolygon tri (some 0)
    glue (b, 2) (a, 2)
    glue (a, 0) (b, 0)
    glue (b, 1) (a, 1) : Act ℕ (Poly ℚ) Unit) empty)

theorem exTorus'_reachable : Reachable exTorus' := by
  have h0 : Reachable (MSurf.empty : MSurf ℕ (Poly ℚ)) := .empty
  have h1 := Reachable.step _ (.addPolygon tri (some 1)) h0 rfl trivial (by simp)
  have h2 := Reachable.step _ (.addPolygon tri (some 0)) h1 rfl trivial (by simp)
  have h3 := Reachable.step _ (.glue (1, 2) (0, 2)) h2 rfl ⟨by simp, by simp⟩ (by simp)
  have h4 := Reachable.step _ (.glue (0, 0) (1, 0)) h3 rfl ⟨by simp, by simp⟩ (by simp)
  have h5 := Reachable.step _ (.glue (1, 1) (0, 1)) h4 rfl ⟨by simp, by simp⟩ (by simp)
  exact h5

example : (stateOf (setImmutable exTorus)).eq (stateOf (setImmutable exTorus')) = true ∧
    exTorus.polygons ≠ exTorus'.polygons ∧
    ∃ s', setImmutable exTorus = .ok () s' ∧ ∃ k, s'.hashKey = .ok k :=
  ⟨by decide +kernel, by decide +kernel, _, rfl, _, rfl⟩

/-- Surfaces that differ are not equal. -/
example : (stateOf (setImmutable exTorus)).eq (stateOf (setImmutable (stateOf (unglue 0 1 exTorus)))) = false := by
  decide +kernel

/-- **C22**, a surface that can still change has no hash. -/
theorem C22_mutable_unhashable {s : MSurf L (Poly K)} (hm : s.mutable = true) : s.hashKey = .error .typeError := by
  simp [hashKey, hm, bind, Except.bind, throw, throwThe, MonadExceptOf.throw]

example : exTorus.hashKey = .error .typeError := C22_mutable_unhashable (by decide)

end MSurf
end Flat
