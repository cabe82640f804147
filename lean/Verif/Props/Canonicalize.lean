import Verif.Lemmas.TranslationIso

/-!
# C76: `canonicalize` finds a canonical form

Here `D` is the Delaunay decomposition of the surface, `canonicalize D` is the rest of `canonicalize()`.
-/

namespace Flat
namespace MSurf
variable {L K : Type} [LinearOrder L] [LabelNum L] [Field K] [LinearOrder K] [IsStrictOrderedRing K]
variable {C C' D E : MSurf L (Poly K)}

/-- A connected surface without boundary built from polygons. -/
structure ClosedSurface (D : MSurf L (Poly K)) : Prop where
  reachable : Reachable D
  connected : ∃ r, D.rootsList = .ok [r]
  valid : ∀ l p, D.polygon l = .ok p → p.Valid
  closed : Closed D

namespace ClosedSurface
variable (h : ClosedSurface D)
include h

theorem one : OnePiece D := by
  obtain ⟨r, hr⟩ := h.connected
  exact onePiece_of_rootsList h.reachable.ginv h.reachable.rootsOK hr

theorem allValid : AllValid D := fun l p hp => h.valid l p (polygon_ok.2 hp)

theorem noBorder : NoBorder D := h.closed.noBorder h.reachable.ginv

theorem spec (hC : canonicalize D = .ok C) : ∃ S ls, GInv S ∧ Std D S ∧ CanonNumbered S C ls :=
  canonicalize_spec h.reachable.ginv h.reachable.rootsOK h.allValid h.one h.noBorder hC

end ClosedSurface

theorem Std.atOrigin {S : MSurf L (Poly K)} (h : Std D S) (hv : AllValid D) : ∀ l q, S.polygons.get l = some q →
    q.vertex 0 = 0 ∧ ∀ i < q.length, 0 < (q.vertex i).2 ∨ (q.vertex i).2 = 0 ∧ 0 ≤ (q.vertex i).1 := by
  intro l q hq
  rw [h.polygons, Option.map_eq_some_iff] at hq
  obtain ⟨p, hp, rfl⟩ := hq
  have h3 := (hv l p hp).len3
  refine ⟨by rw [Poly.turned_vertex (by omega), zero_add, sub_self], fun i hi => ?_⟩
  rw [Poly.turned_length] at hi
  rw [Poly.turned_vertex (by omega)]
  have := (Poly.bestVertex_spec (p := p) (by omega)).2 ((i + p.bestVertex) % p.length) (Nat.mod_lt _ (by omega))
  rw [Poly.vertex_mod] at this
  unfold Poly.Before at this
  push Not at this
  rcases lt_or_eq_of_le this.1 with h1 | h1
  · exact Or.inl (sub_pos.2 h1)
  · exact Or.inr ⟨sub_eq_zero.2 h1.symm, sub_nonneg.2 (this.2 h1.symm)⟩

/-- **C76**, the result is the surface: it differs from the Delaunay decomposition only by the labels, the first vertices and the positions of the
polygons; the labels are `0, 1, 2, …` in the order in which the surface is listed from its root `0`; and each polygon has its lowest vertex, the
leftmost one of the lowest ones, as vertex 0 at the origin. -/
theorem C76_canonicalize_iso (h : ClosedSurface D) (hC : canonicalize D = .ok C) {ls : List L} (hls : D.labels = .ok ls) :
    (∃ f v, TranslationIso f v D C) ∧ C.mutable = false ∧ C.rootsList = .ok [LabelNum.num 0] ∧
      C.labels = .ok ((List.range ls.length).map LabelNum.num) ∧
      ∀ l q, C.polygon l = .ok q → q.vertex 0 = 0 ∧ ∀ i < q.length, 0 < (q.vertex i).2 ∨ (q.vertex i).2 = 0 ∧ 0 ≤ (q.vertex i).1 := by
  obtain ⟨S, ms, hS, st, num⟩ := h.spec hC
  have oS := st.onePiece h.reachable.ginv h.one
  have oC := num.relabeled.onePiece hS oS
  obtain ⟨hrl, hlab⟩ := labels_rooted num.ginv num.rootsOK oC num.roots
  refine ⟨⟨_, _, (st.iso h.reachable.ginv hS h.allValid).trans (num.relabeled.iso hS num.ginv)⟩, num.immutable, hrl, ?_, fun l q hq => ?_⟩
  · obtain ⟨r, hr, hc, h0⟩ := num.listing
    have := num.relabeled.component hS num.ginv hr hc
    rw [h0] at this
    rw [hlab, this, numAt_listing num.nodup]
    obtain ⟨ls', h1, h2, h3⟩ := labels_spec h.reachable.ginv h.reachable.rootsOK
    rw [hls] at h1
    injection h1 with h1
    subst h1
    have : ms.length = ls.length := by
      refine List.Perm.length_eq ?_
      rw [List.perm_ext_iff_of_nodup num.nodup h2]
      intro a
      rw [num.mem, h3, st.mem]
    rw [this]
  · obtain ⟨l', hl', rfl⟩ := (num.relabeled.keys l).1 (mem_of_polygon hq)
    exact st.atOrigin h.allValid l' q (by rw [← num.relabeled.polygons l' hl', polygon_ok.1 hq])

/-- **C76**, the result is canonical: isomorphic surfaces give equal surfaces with equal hashes. -/
theorem C76_canonicalize_canonical (hD : ClosedSurface D) (hE : ClosedSurface E) (hC : canonicalize D = .ok C) (hC' : canonicalize E = .ok C')
    {f : L → L} {v : L → ℕ} (iso : TranslationIso f v D E) : C.eq C' = true ∧ C.hashKey = C'.hashKey := by
  obtain ⟨S, ls, hS, st, num⟩ := hD.spec hC
  obtain ⟨T, ls', hT, st', num'⟩ := hE.spec hC'
  have rel := iso.std hD.reachable.ginv hE.reachable.ginv hD.noBorder hD.allValid hS hT st st'
  have oS := st.onePiece hD.reachable.ginv hD.one
  have bS := st.noBorder hD.reachable.ginv hD.noBorder
  have oT := st'.onePiece hE.reachable.ginv hE.one
  have bT := st'.noBorder hE.reachable.ginv hE.noBorder
  have hcode : code S ls = code T ls' := by
    refine le_antisymm ?_ ?_
    · obtain ⟨r, hr, hc, -⟩ := num.listing
      have := num'.maximal (f r) ((rel.keys _).2 ⟨r, hr, rfl⟩)
      rw [rel.codeAt hS hT oS bS hr] at this
      unfold codeAt at this
      rwa [hc] at this
    · obtain ⟨r, hr, hc, -⟩ := num'.listing
      obtain ⟨r0, hr0, rfl⟩ := (rel.keys r).1 hr
      have := num.maximal r0 hr0
      rw [← rel.codeAt hS hT oS bS hr0] at this
      unfold codeAt at this
      rwa [hc] at this
  have hlen : ls.length = ls'.length := by simpa [code] using congrArg List.length hcode
  have e1 := num.relabeled.code hS num.mem bS
  have e2 := num'.relabeled.code hT num'.mem bT
  rw [numAt_listing num.nodup] at e1
  rw [numAt_listing num'.nodup, ← hlen] at e2
  have hmem : ∀ {X Y : MSurf L (Poly K)} {ms : List L}, CanonNumbered X Y ms → ∀ l, l ∈ (List.range ms.length).map LabelNum.num ↔ l ∈ Y.polygons.keys := by
    intro X Y ms hn l
    rw [← numAt_listing hn.nodup, hn.relabeled.keys, List.mem_map]
    constructor
    · rintro ⟨a, ha, rfl⟩
      exact ⟨a, (hn.mem a).1 ha, rfl⟩
    · rintro ⟨a, ha, rfl⟩
      exact ⟨a, (hn.mem a).2 ha, rfl⟩
  have hor : ∀ {W X Y : MSurf L (Poly K)} {ms : List L}, Std W X → AllValid W → CanonNumbered X Y ms → AtOrigin Y := by
    intro W X Y ms hst hv hn l q hq
    obtain ⟨l', hl', rfl⟩ := (hn.relabeled.keys l).1 (by rw [Dict.mem_keys_iff, hq]; rfl)
    exact (hst.atOrigin hv l' q (by rw [← hn.relabeled.polygons l' hl', hq])).1
  have same : SameContent C C' := sameContent_of_code num.ginv num'.ginv (num.relabeled.noBorder bS) (num'.relabeled.noBorder bT)
    (hor st hD.allValid num) (hor st' hE.allValid num') (hmem num) (by rw [hlen]; exact hmem num') (by rw [e1, e2, hcode])
  have hroots : C.roots = C'.roots := by rw [num.roots, num'.roots]
  have hmut : C.mutable = C'.mutable := by rw [num.immutable, num'.immutable]
  exact ⟨(eq_iff_content num.ginv.toShape num'.ginv.toShape).2 ⟨same, hroots, hmut⟩,
    same.hashKey num.ginv.toShape num'.ginv.toShape hroots hmut⟩

/-- **C76**, the result decides isomorphism: the results for two surfaces are equal exactly when the surfaces differ only by the labels, the first
vertices and the positions of the polygons. -/
theorem C76_canonicalize_decides (hD : ClosedSurface D) (hE : ClosedSurface E) (hC : canonicalize D = .ok C) (hC' : canonicalize E = .ok C') :
    C.eq C' = true ↔ ∃ f v, TranslationIso f v D E := by
  refine ⟨fun h => ?_, fun ⟨f, v, h⟩ => (C76_canonicalize_canonical hD hE hC hC' h).1⟩
  obtain ⟨S, ls, hS, st, num⟩ := hD.spec hC
  obtain ⟨T, ls', hT, st', num'⟩ := hE.spec hC'
  obtain ⟨same, -, -⟩ := (eq_iff_content num.ginv.toShape num'.ginv.toShape).1 h
  have rel : Relabeled id C C' := by
    refine ⟨fun a _ b _ hab => hab, fun l _ => (same.polygons l).symm, fun l _ e => ?_, fun l => ?_⟩
    · rw [id, ← same.opp]
      cases C.opp l e <;> rfl
    · rw [Dict.mem_keys_iff, ← same.polygons, ← Dict.mem_keys_iff]
      simp
  have i1 := (st.iso hD.reachable.ginv hS hD.allValid).trans (num.relabeled.iso hS num.ginv)
  have i2 := i1.trans (rel.iso num.ginv num'.ginv)
  have i3 := (st'.iso hE.reachable.ginv hT hE.allValid).trans (num'.relabeled.iso hT num'.ginv)
  obtain ⟨g, w, i4⟩ := i3.symm hE.reachable.ginv num'.ginv hE.noBorder hE.allValid
  exact ⟨_, _, i2.trans i4⟩

/-- **C76**, success: when all polygons except possibly the one of the root already have their lowest leftmost vertex as vertex 0 at the origin,
then `canonicalize` does not fail. -/
theorem C76_canonicalize_succeeds_partial (hD : ClosedSurface D) {r : L} (hr : D.rootsList = .ok [r])
    (hstd : ∀ l p, l ≠ r → D.polygon l = .ok p → p.vertex 0 = 0 ∧ ∀ i < p.length, 0 < (p.vertex i).2 ∨ (p.vertex i).2 = 0 ∧ 0 ≤ (p.vertex i).1) :
    ∃ C, canonicalize D = .ok C := by
  have hG := hD.reachable.ginv
  have hR := hD.reachable.rootsOK
  obtain ⟨s, e1⟩ := fromSurface_succeeds hG hR empty
  obtain ⟨gs, rs, roots⟩ := fromSurface_copy hG hR e1
  have hroots : ∀ x ∈ s.roots, x = r := by
    obtain ⟨rs', h1, -⟩ := rootsList_spec hG hR
    rw [hr] at h1
    injection h1 with h1
    intro x hx
    rw [roots] at hx
    have : x ∈ [r] := by rw [h1]; exact List.mem_append_left _ hx
    exact List.mem_singleton.1 this
  have hv : AllValid s := fun l p hp => hD.allValid l p (by rwa [relabeled_get_id rs] at hp)
  have hb := rs.noBorder hD.noBorder
  -- the polygons are standardized
  have hst : ∃ t, exec standardizePolygons s = .ok t := by
    have : wp standardizePolygons (fun _ _ => True) (fun _ _ => False) s := by
      obtain ⟨ls, hls, hln, hlm⟩ := labels_spec gs.1 gs.2.2
      have hps : s.polygonList = .ok (ls.map s.polyAt) := by
        unfold polygonList
        simp only [hls, bind, Except.bind]
        rw [mapM_ok_iff, List.forall₂_map_right_iff]
        exact List.forall₂_same.2 fun l hl => polygon_polyAt ((hlm l).1 hl)
      have hcv : ∀ l ∈ ls, l ≠ r → canonicalVertex (l, s.polyAt l) = none := by
        intro l hl hlr
        obtain ⟨p, hp⟩ := polygon_of_mem ((hlm l).1 hl)
        rw [polygon_ok] at hp
        obtain ⟨h0, h1⟩ := hstd l p hlr (by rw [polygon_ok, ← relabeled_get_id rs, hp])
        have h3 := (hv l p hp).len3
        obtain ⟨b1, b2⟩ := Poly.bestVertex_spec (p := p) (by omega)
        have hbest : p.bestVertex = 0 := by
          by_contra hne
          have hvne : p.vertex 0 ≠ p.vertex p.bestVertex := fun h => hne (by
            have := (hv l p hp).vertex_inj h
            rw [Nat.mod_eq_of_lt b1, Nat.zero_mod] at this
            exact this.symm)
          rcases Poly.before_total (b2 0 (by omega)) hvne with h | ⟨h, h'⟩
          · rw [h0] at h
            rcases h1 _ b1 with h2 | ⟨h2, -⟩
            · exact absurd h (not_lt.2 h2.le)
            · rw [h2] at h
              exact lt_irrefl _ h
          · rw [h0] at h h'
            rcases h1 _ b1 with h2 | ⟨-, h2⟩
            · rw [h] at h2
              exact lt_irrefl _ h2
            · exact absurd h' (not_lt.2 h2)
        unfold canonicalVertex
        dsimp only
        rw [polyAt_eq hp, hbest, h0]
        simp
      have hlist : ∀ ms : List L, ms.Nodup → (∀ l ∈ ms, l ∈ ls) → ∃ o : Option ℕ, (ms.zip (ms.map s.polyAt)).filterMap canonicalVertex = (o.map fun v => (r, v)).toList ∧
          ∀ v, o = some v → r ∈ ms ∧ v = (s.polyAt r).bestVertex := by
        intro ms
        induction ms with
        | nil => intro _ _; exact ⟨none, rfl, by simp⟩
        | cons a ms ih =>
          intro hn hsub
          rw [List.nodup_cons] at hn
          obtain ⟨o, h1, h2⟩ := ih hn.2 (fun l hl => hsub l (by simp [hl]))
          rw [List.map_cons, List.zip_cons_cons, List.filterMap_cons, h1]
          by_cases har : a = r
          · subst har
            have ho : o = none := by
              cases o with
              | none => rfl
              | some v => exact absurd (h2 v rfl).1 hn.1
            subst ho
            unfold canonicalVertex
            by_cases hc : ¬ ((s.polyAt a).bestVertex = 0 ∧ (s.polyAt a).vertex (s.polyAt a).bestVertex = 0)
            · rw [if_pos hc]
              exact ⟨some (s.polyAt a).bestVertex, rfl, fun v hv' => ⟨by simp, by injection hv' with hv'; exact hv'.symm⟩⟩
            · rw [if_neg hc]
              exact ⟨none, rfl, by simp⟩
          · rw [hcv a (hsub a (by simp)) har]
            exact ⟨o, rfl, fun v hv' => ⟨by simp [(h2 v hv').1], (h2 v hv').2⟩⟩
      unfold standardizePolygons
      rw [wp_bind, wp_get, wp_bind, wp_liftE, hls]
      refine ⟨fun a ha => ?_, fun _ h => by cases h⟩
      injection ha with ha
      subst ha
      rw [wp_bind, wp_liftE, hps]
      refine ⟨fun a ha => ?_, fun _ h => by cases h⟩
      injection ha with ha
      subst ha
      obtain ⟨o, h1, h2⟩ := hlist ls hln (fun _ h => h)
      rw [h1]
      cases o with
      | none =>
        show wp (setVertexZeros []) _ _ s
        unfold setVertexZeros
        rw [wp_pure]
        trivial
      | some v =>
        obtain ⟨hrl, rfl⟩ := h2 v rfl
        obtain ⟨p, hp⟩ := polygon_of_mem ((hlm r).1 hrl)
        rw [polygon_ok] at hp
        have h3 := (hv r p hp).len3
        show wp (setVertexZeros [(r, _)]) _ _ s
        unfold setVertexZeros
        rw [wp_bind]
        refine wp_mono (setVertexZero_spec gs r _ p hp (by rw [polyAt_eq hp]; exact (Poly.bestVertex_spec (by omega)).1)) ?_ ?_
        · intro _ t _
          unfold setVertexZeros
          rw [wp_pure]
          trivial
        · rintro _ _ (h | ⟨e, he, h⟩ | ⟨x, hx, h⟩)
          · exact h (hv r p hp)
          · obtain ⟨c, hc⟩ := hb r p e hp he
            rw [hc] at h
            cases h
          · exact h (hroots x hx)
    obtain ⟨_, t, h1, -⟩ := wp_ok this
    exact ⟨t, exec_ok.2 h1⟩
  obtain ⟨t, e2⟩ := hst
  obtain ⟨gt, st⟩ := exec_wp (standardizePolygons_spec gs hv) e2
  have ot := st.onePiece gs.1 (rs.onePiece hG hD.one)
  have bt := st.noBorder gs.1 hb
  obtain ⟨_, u, e3, -⟩ := wp_ok (setImmutable_ok gt.1 gt.2.2)
  obtain ⟨x, hx, -, rfl⟩ := immutable_roots_unique gt ot (exec_ok.2 e3)
  obtain ⟨C, ls, hC, -⟩ := canonicalize_tail (S := { t with roots := [x], mutable := false }) (immutable_ginv gt.1 _ _)
    ((relabeled_roots t _ _).onePiece gt.1 ot) ((relabeled_roots t _ _).noBorder bt) hx rfl
  refine ⟨C, ?_⟩
  have hS' : standardized D = .ok { t with roots := [x], mutable := false } := by
    unfold standardized
    simp only [e1, e2, bind, Except.bind]
    exact exec_ok.2 e3
  unfold canonicalize
  simp only [hS', bind, Except.bind]
  exact hC

/-! ### Examples -/

/-- The effect of a list of calls. -/
def runCalls (ops : List (Op ℕ ℚ)) (s : MSurf ℕ (Poly ℚ)) : MSurf ℕ (Poly ℚ) :=
  ops.foldl (fun s op => if s.mutable then stateOf (op.run s) else s) s

theorem runCalls_reachable (ops : List (Op ℕ ℚ)) (h1 : ∀ op ∈ ops, op.NonNeg) (h2 : ∀ op ∈ ops, ∀ l t gl, op ≠ .refinePolygon l t gl)
    {s : MSurf ℕ (Poly ℚ)} (hs : Reachable s) : Reachable (runCalls ops s) := by
  induction ops generalizing s with
  | nil => exact hs
  | cons op ops ih =>
    refine ih (fun op' h => h1 op' (by simp [h])) (fun op' h => h2 op' (by simp [h])) ?_
    by_cases hm : s.mutable = true
    · simp only [hm, if_true]
      exact .step s op hs hm (h1 op (by simp)) (fun l t gl he => absurd he (h2 op (by simp) l t gl))
    · simp only [hm]
      exact hs

/-- A hexagon inscribed into a circle, starting at its vertex `i`. -/
def hexFrom (i : ℕ) : Poly ℚ := List.rotate [(-3, -4), (3, -4), (5, 0), (3, 4), (-3, 4), (-5, 0)] i

/-- A hexagon 0, starting at its vertex `i`, opposite edges of which are joined by rectangles 1, 2, 3, the other edges of which are glued to each
other, with root `r`. -/
def exHexOps (i : ℕ) (r : ℕ) : List (Op ℕ ℚ) :=
  let e (k : ℕ) : Int := ((k + 6 - i) % 6 : ℕ)
  [.addPolygon (hexFrom i) (some 0), .addPolygon [(0, 0), (6, 0), (6, 1), (0, 1)] (some 1), .addPolygon [(0, 0), (2, 4), (0, 5), (-2, 1)] (some 2),
   .addPolygon [(0, 0), (2, 1), (0, 5), (-2, 4)] (some 3),
   .glue (0, e 0) (1, 2), .glue (0, e 3) (1, 0), .glue (0, e 1) (2, 2), .glue (0, e 4) (2, 0), .glue (0, e 2) (3, 3), .glue (0, e 5) (3, 1),
   .glue (1, 1) (1, 3), .glue (2, 1) (2, 3), .glue (3, 0) (3, 2),
   .setRoots [r], .setImmutable]

def exHex (i r : ℕ) : MSurf ℕ (Poly ℚ) := runCalls (exHexOps i r) empty

/-- The error of a computation. -/
def errorOf {α : Type} : Except Err α → Option Err
  | .error e => some e
  | .ok _ => none

/-- **C76 is violated** in general: `canonicalize()` fails when the polygons that are left after removing a polygon form three components. -/
theorem C76_crash_violation : errorOf (canonicalize (exHex 1 3)) = some .assertionError := by decide +kernel

theorem exHex_reachable (i r : ℕ) : Reachable (exHex i r) := by
  refine runCalls_reachable _ ?_ ?_ .empty
  · intro op hop
    simp only [exHexOps, List.mem_cons, List.not_mem_nil, or_false] at hop
    rcases hop with rfl | rfl | rfl | rfl | rfl | rfl | rfl | rfl | rfl | rfl | rfl | rfl | rfl | rfl | rfl <;> simp [Op.NonNeg] <;> omega
  · intro op hop l t gl he
    simp [exHexOps, he] at hop

theorem exHex_polygons (r : ℕ) (hr : r < 4) (i : ℕ) (hi : i < 3) : (exHex i r).polygons =
    [(0, hexFrom i), (1, [(0, 0), (6, 0), (6, 1), (0, 1)]), (2, [(0, 0), (2, 4), (0, 5), (-2, 1)]), (3, [(0, 0), (2, 1), (0, 5), (-2, 4)])] := by
  set_option synthInstance.maxSize 1024 in
  have : ∀ i < 3, ∀ r < 4, @Eq (List (ℕ × List (ℚ × ℚ))) (exHex i r).polygons
      [(0, hexFrom i), (1, [(0, 0), (6, 0), (6, 1), (0, 1)]), (2, [(0, 0), (2, 4), (0, 5), (-2, 1)]), (3, [(0, 0), (2, 1), (0, 5), (-2, 4)])] := by
    decide +kernel
  exact this i hi r hr

theorem exHex_polygon {r : ℕ} (hr : r < 4) {i : ℕ} (hi : i < 3) {l : ℕ} {p : Poly ℚ} (h : (exHex i r).polygon l = .ok p) :
    l = 0 ∧ p = hexFrom i ∨ l = 1 ∧ p = [(0, 0), (6, 0), (6, 1), (0, 1)] ∨ l = 2 ∧ p = [(0, 0), (2, 4), (0, 5), (-2, 1)] ∨
      l = 3 ∧ p = [(0, 0), (2, 1), (0, 5), (-2, 4)] := by
  rw [polygon_ok, exHex_polygons r hr i hi] at h
  simp only [Dict.get, List.find?_cons] at h
  by_cases h0 : l = 0
  · subst h0
    exact Or.inl ⟨rfl, by simpa using h.symm⟩
  by_cases h1 : l = 1
  · subst h1
    exact Or.inr (Or.inl ⟨rfl, by simpa using h.symm⟩)
  by_cases h2 : l = 2
  · subst h2
    exact Or.inr (Or.inr (Or.inl ⟨rfl, by simpa using h.symm⟩))
  by_cases h3 : l = 3
  · subst h3
    exact Or.inr (Or.inr (Or.inr ⟨rfl, by simpa using h.symm⟩))
  · simp [Ne.symm h0, Ne.symm h1, Ne.symm h2, Ne.symm h3, h0, h1, h2, h3] at h

theorem exHex_closedSurface {r : ℕ} (hr : r < 4) {i : ℕ} (hi : i < 3) : ClosedSurface (exHex i r) := by
  refine ⟨exHex_reachable i r, ⟨r, ?_⟩, fun l p hp => ?_, fun l p e hp he => ?_⟩
  · have : ∀ i < 3, ∀ r < 4, (exHex i r).rootsList = .ok [r] := by decide +kernel
    exact this i hi r hr
  · rw [← Poly.check_iff]
    · have : ∀ i < 3, Poly.check (hexFrom i) = .ok () := by decide +kernel
      rcases exHex_polygon hr hi hp with ⟨-, rfl⟩ | ⟨-, rfl⟩ | ⟨-, rfl⟩ | ⟨-, rfl⟩
      · exact this i hi
      · decide +kernel
      · decide +kernel
      · decide +kernel
    · rcases exHex_polygon hr hi hp with ⟨-, rfl⟩ | ⟨-, rfl⟩ | ⟨-, rfl⟩ | ⟨-, rfl⟩ <;> simp [hexFrom]
  · have key : ∀ i < 3, ∀ r < 4, (∀ e < 6, ((exHex i r).oppositeEdge 0 ((e : ℕ) : Int)).toOption.join.isSome) ∧
        ∀ l < 3, ∀ e < 4, ((exHex i r).oppositeEdge (l + 1) ((e : ℕ) : Int)).toOption.join.isSome := by decide +kernel
    have fin : ∀ {x : Except Err (Option (ℕ × Int))}, x.toOption.join.isSome = true → ∃ c, x = .ok (some c) := by
      intro x hx
      cases x with
      | error _ => cases hx
      | ok o =>
        cases o with
        | none => cases hx
        | some c => exact ⟨c, rfl⟩
    obtain ⟨k1, k2⟩ := key i hi r hr
    rcases exHex_polygon hr hi hp with ⟨rfl, rfl⟩ | ⟨rfl, rfl⟩ | ⟨rfl, rfl⟩ | ⟨rfl, rfl⟩
    · exact fin (k1 e (by simpa [hexFrom] using he))
    · exact fin (k2 0 (by omega) e he)
    · exact fin (k2 1 (by omega) e he)
    · exact fin (k2 2 (by omega) e he)

/-- The surface that makes `canonicalize()` fail is a connected surface without boundary. -/
example : ClosedSurface (exHex 1 3) := exHex_closedSurface (by omega) (by omega)

/-- With another root, `canonicalize()` does not fail. -/
theorem exHex_succeeds {i : ℕ} (hi : i < 3) : ∃ C, canonicalize (exHex i 0) = .ok C := by
  refine C76_canonicalize_succeeds_partial (exHex_closedSurface (by omega) hi) (r := 0) ?_ fun l p hl hp => ?_
  · have : ∀ i < 3, (exHex i 0).rootsList = .ok [0] := by decide +kernel
    exact this i hi
  · rcases exHex_polygon (by omega) hi hp with ⟨rfl, -⟩ | ⟨-, rfl⟩ | ⟨-, rfl⟩ | ⟨-, rfl⟩
    · exact absurd rfl hl
    · decide +kernel
    · decide +kernel
    · decide +kernel

/-- Two different ways to write down the same surface. -/
theorem exHex_iso : TranslationIso id (fun l => if l = 0 then 1 else 0) (exHex 1 0) (exHex 2 0) := by
  refine ⟨fun a b p q _ _ h => h, fun m q hm => ?_, fun l p hp => ?_, fun l p e l' p' e' hp hp' he he' ho => ?_⟩
  · rcases exHex_polygon (by omega) (by omega) hm with ⟨rfl, -⟩ | ⟨rfl, -⟩ | ⟨rfl, -⟩ | ⟨rfl, -⟩
    · exact ⟨0, hexFrom 1, by decide +kernel, rfl⟩
    · exact ⟨1, _, by rw [polygon_ok, exHex_polygons 0 (by omega) 1 (by omega)]; rfl, rfl⟩
    · exact ⟨2, _, by rw [polygon_ok, exHex_polygons 0 (by omega) 1 (by omega)]; rfl, rfl⟩
    · exact ⟨3, _, by rw [polygon_ok, exHex_polygons 0 (by omega) 1 (by omega)]; rfl, rfl⟩
  · rcases exHex_polygon (by omega) (by omega) hp with ⟨rfl, rfl⟩ | ⟨rfl, rfl⟩ | ⟨rfl, rfl⟩ | ⟨rfl, rfl⟩
    · refine ⟨hexFrom 2, by decide +kernel, rfl, 0, fun i => ?_⟩
      have : hexFrom 2 = List.rotate (hexFrom 1) 1 := by unfold hexFrom; rw [List.rotate_rotate]
      rw [this, Poly.vertex_rotate, add_zero]
      rfl
    · exact ⟨_, by rw [polygon_ok, exHex_polygons 0 (by omega) 2 (by omega)]; rfl, rfl, 0, fun i => by simp⟩
    · exact ⟨_, by rw [polygon_ok, exHex_polygons 0 (by omega) 2 (by omega)]; rfl, rfl, 0, fun i => by simp⟩
    · exact ⟨_, by rw [polygon_ok, exHex_polygons 0 (by omega) 2 (by omega)]; rfl, rfl, 0, fun i => by simp⟩
  · have key : ((List.range 4).all fun l => (List.range 4).all fun l' => (List.range (if l = 0 then 6 else 4)).all fun e =>
        (List.range (if l' = 0 then 6 else 4)).all fun e' =>
          !decide ((exHex 1 0).oppositeEdge l ((e + (if l = 0 then 1 else 0)) % (if l = 0 then 6 else 4) : ℕ) =
            .ok (some (l', (((e' + (if l' = 0 then 1 else 0)) % (if l' = 0 then 6 else 4) : ℕ) : Int)))) ||
          decide ((exHex 2 0).oppositeEdge l (e : ℕ) = .ok (some (l', ((e' : ℕ) : Int))))) = true := by decide +kernel
    simp only [List.all_eq_true, List.mem_range] at key
    have hlen : ∀ {l : ℕ} {p : Poly ℚ}, (exHex 1 0).polygon l = .ok p → l < 4 ∧ p.length = if l = 0 then 6 else 4 := by
      intro l p hp
      rcases exHex_polygon (by omega) (by omega) hp with ⟨rfl, rfl⟩ | ⟨rfl, rfl⟩ | ⟨rfl, rfl⟩ | ⟨rfl, rfl⟩ <;> simp [hexFrom]
    obtain ⟨a1, a2⟩ := hlen hp
    obtain ⟨b1, b2⟩ := hlen hp'
    rw [a2] at he ho
    rw [b2] at he' ho
    have := key l a1 l' b1 e he e' he'
    rw [decide_eq_true ho] at this
    exact of_decide_eq_true (by simpa using this)

example : ∃ C C', canonicalize (exHex 1 0) = .ok C ∧ canonicalize (exHex 2 0) = .ok C' ∧ C.eq C' = true := by
  obtain ⟨C, hC⟩ := exHex_succeeds (i := 1) (by omega)
  obtain ⟨C', hC'⟩ := exHex_succeeds (i := 2) (by omega)
  exact ⟨C, C', hC, hC', (C76_canonicalize_canonical (exHex_closedSurface (by omega) (by omega)) (exHex_closedSurface (by omega) (by omega))
    hC hC' exHex_iso).1⟩

end MSurf
end Flat
