import Verif.Lemmas.VertexLoop
import Verif.Lemmas.AngleSum
import Verif.Props.Between
import Verif.Props.Intersection
import Verif.Props.TangentRotation

/-!
# C63: angles and turns at vertices
-/

namespace Flat
open Real

/-- **C63.** `angle(u, v)` is the angle of the counterclockwise rotation, in full turns, that takes the direction of `u` to the direction
of `v`. -/
theorem C63_angle {K : Type} [Field K] (ι : K →+* ℝ) {u v : Vec K} (hu : u ≠ 0) (hv : v ≠ 0) :
    0 ≤ angleOf ι u v ∧ angleOf ι u v < 1 ∧ ∃ r : ℝ, 0 < r ∧ ((ι v.1, ι v.2) : ℝ × ℝ) = r • rot (2 * π * angleOf ι u v) (ι u.1, ι u.2) := by
  refine ⟨angleOf_nonneg ι u v, angleOf_lt_one ι u v, ‖cplx ι v‖ / ‖cplx ι u‖, ?_, ?_⟩
  · exact div_pos (norm_pos_iff.2 (cplx_ne_zero ι hv)) (norm_pos_iff.2 (cplx_ne_zero ι hu))
  · have n1 := norm_pos_iff.2 (cplx_ne_zero ι hu)
    have s1 := norm_cplx_sq ι u
    obtain ⟨h1, h2⟩ := cos_sin_angleOf ι hu hv
    unfold rot
    generalize cos (2 * π * angleOf ι u v) = c at *
    generalize sin (2 * π * angleOf ι u v) = s at *
    generalize ‖cplx ι v‖ = y at *
    generalize ‖cplx ι u‖ = x at *
    ext
    · simp only [Prod.smul_fst, smul_eq_mul]
      refine mul_left_cancel₀ (mul_pos n1 n1).ne' ?_
      rw [show x * x * (y / x * (ι u.1 * c - ι u.2 * s)) = ι u.1 * (x * y * c) - ι u.2 * (x * y * s) by field_simp, h1, h2, s1]
      ring
    · simp only [Prod.smul_snd, smul_eq_mul]
      refine mul_left_cancel₀ (mul_pos n1 n1).ne' ?_
      rw [show x * x * (y / x * (ι u.1 * s + ι u.2 * c)) = ι u.1 * (x * y * s) + ι u.2 * (x * y * c) by field_simp, h1, h2, s1]
      ring

namespace RSurf
variable {L K : Type} [Field K] [LinearOrder K] [IsStrictOrderedRing K] {S : RSurf L K} {valid : L → Prop} {ι : K →+* ℝ} [DecidableEq L]

/-- The edges at a vertex in counterclockwise order with their vectors: `edges[::2]` are the edges that start at the vertex, `edges[1::2]`
the edges that end there. -/
structure IsEdgesCcw (S : RSurf L K) (valid : L → Prop) (M : Mat2 K → Prop) (d : L × ℕ) (E : List ((L × ℕ) × Vec K)) : Prop where
  /-- Each edge appears once. -/
  once : ((evens E).map Prod.fst).Nodup
  /-- All edges at the vertex appear. -/
  all : ∀ a, a ∈ (evens E).map Prod.fst ↔ S.SameVertex valid d a
  /-- An edge is followed by its counterclockwise neighbour. -/
  chain : ((evens E).map Prod.fst).IsChain (Step S.rotateCcw)
  /-- The edges in between are the previous edges of the same polygons. -/
  between : (odds E).map Prod.fst = ((evens E).map Prod.fst).map S.prevDart
  /-- The vectors of glued edges agree. -/
  agree : ((evens E).map Prod.snd).tail = ((odds E).map Prod.snd).dropLast
  /-- The two edges of a polygon are moved by the same matrix. -/
  corners : List.Forall₂ (S.CornerBy M) ((evens E).map Prod.fst) (((evens E).map Prod.snd).zip ((odds E).map Prod.snd))
  ne : ∀ x ∈ E, x.2 ≠ 0

theorem chain_next {α : Type} {R : α → α → Prop} : ∀ (l : List α) (x : α), (x :: l).IsChain R →
    (∀ z ∈ x :: l, z = l.getLastD x ∨ ∃ z' ∈ x :: l, R z z') ∧ ∀ z ∈ x :: l, z = x ∨ ∃ z' ∈ x :: l, R z' z
  | [], x, _ => by simp
  | y :: l, x, h => by
    obtain ⟨hxy, hl⟩ := List.isChain_cons_cons.1 h
    obtain ⟨h1, h2⟩ := chain_next l y hl
    rw [List.getLastD_cons]
    refine ⟨fun z hz => ?_, fun z hz => ?_⟩
    · rcases List.mem_cons.1 hz with rfl | hz
      · exact .inr ⟨y, by simp, hxy⟩
      · exact (h1 z hz).imp_right fun ⟨z', hz', h⟩ => ⟨z', List.mem_cons_of_mem _ hz', h⟩
    · rcases List.mem_cons.1 hz with rfl | hz
      · exact .inl rfl
      · rcases h2 z hz with rfl | ⟨z', hz', h⟩
        · exact .inr ⟨x, List.mem_cons_self, hxy⟩
        · exact .inr ⟨z', List.mem_cons_of_mem _ hz', h⟩

theorem getLastD_mem' {α : Type} : ∀ (l : List α) (x : α), l.getLastD x ∈ x :: l
  | [], x => by simp
  | y :: l, x => by rw [List.getLastD_cons]; exact List.mem_cons_of_mem _ (getLastD_mem' l y)

theorem Step.unique {rot : L × ℕ → Except Err (Option (L × ℕ))} {a b c : L × ℕ} (h : Step rot a b) (h' : Step rot a c) : b = c := by
  unfold Step at h h'
  rw [h] at h'
  injection h' with h'
  injection h'

theorem sameVertex_of_first (hS : S.Bordered valid) {start : L × ℕ} {Cs : List (L × ℕ)} (hv : ∀ a ∈ start :: Cs, S.IsDart valid a ∧ S.SameVertex valid start a)
    (hc : (start :: Cs).IsChain (Step S.rotateCcw)) (hl : Step S.rotateCcw (Cs.getLastD start) start ∨
      S.rotateCcw (Cs.getLastD start) = .ok none ∧ S.opp start.1 start.2 = .ok none) (a : L × ℕ) :
    a ∈ start :: Cs ↔ S.SameVertex valid start a := by
  obtain ⟨h1, h2⟩ := chain_next Cs start hc
  refine ⟨fun h => (hv a h).2, fun h => class_subset hS List.mem_cons_self ?_ ?_ h⟩
  · intro z hz z' hst
    have hz' := hS.cw_valid (hv z hz).1 hst
    have hst' := (hS.cw_ccw (hv z hz).1 hz').1 hst
    rcases h2 z hz with rfl | ⟨y, hy, hyz⟩
    · rcases hl with hl | ⟨-, hl⟩
      · have hm := getLastD_mem' Cs z
        rw [hS.ccw_inj hz' (hv _ hm).1 hst' hl]
        exact hm
      · exfalso
        obtain ⟨c, p, ho, -⟩ := step_cw_iff.1 hst
        rw [hl] at ho
        injection ho with ho
        cases ho
    · rw [hS.ccw_inj hz' (hv y hy).1 hst' hyz]
      exact hy
  · intro z hz z' hst
    rcases h1 z hz with rfl | ⟨y, hy, hyz⟩
    · rcases hl with hl | ⟨hl, -⟩
      · rw [hst.unique hl]; exact List.mem_cons_self
      · exfalso
        unfold Step at hst
        rw [hl] at hst
        injection hst with hst
        cases hst
    · rw [hst.unique hyz]; exact hy

/-- The part of `edges_ccw` after the choice of the first edge. -/
theorem edgesCcwFrom_spec {M : Mat2 K → Prop} (hM : S.Moves valid M) (hS : S.Bordered valid) {start : L × ℕ} (hs : S.IsDart valid start)
    (hfirst : S.IsFirst valid start) {ds : List (L × ℕ)} (hds : ∀ a, S.SameVertex valid start a → a ∈ ds) {fuel : ℕ} (hf : ds.length < fuel)
    {hol : Option (Vec K)} (hhol : ∀ h, hol = some h → h ≠ 0)
    (hMs : ∀ p m, S.polygon start.1 = .ok p → m.RS → m.mulVec (p.edge start.2) = hol.getD (p.edge start.2) → M m) :
    ∃ E h, S.edgesCcwFrom fuel start hol = .ok ((start, h) :: E) ∧ S.IsEdgesCcw valid M start ((start, h) :: E) ∧
      (∀ p, S.polygon start.1 = .ok p → h = hol.getD (p.edge start.2)) ∧
      (∀ ι : K →+* ℝ, pathAngle ι h ((evens E).map Prod.snd) = (((start :: (odds E).map Prod.fst)).map (S.cornerAngle ι)).sum) ∧
      (Step S.rotateCcw (((odds E).map Prod.fst).getLastD start) start ∨
        S.rotateCcw (((odds E).map Prod.fst).getLastD start) = .ok none ∧ S.opp start.1 start.2 = .ok none) := by
  obtain ⟨hl, p, hp, he⟩ := id hs
  have hne := (hS.valid_of_polygon hl hp).edge_ne start.2
  have hh : hol.getD (p.edge start.2) ≠ 0 := by
    cases hol with
    | none => exact hne
    | some h => exact hhol h rfl
  obtain ⟨m, hm, hrs, hmv, -⟩ := C03_similarityFromVectors (p.edge start.2) (hol.getD (p.edge start.2)) hne
  have hmrs : m.RS := .of_vec hrs (u := p.edge start.2) (by rw [hmv]; exact hh)
  obtain ⟨r, Cs, i1, i2, i3, i4, i5, i6, i7, i8, i9, i10, i11⟩ := ccwHolonomies_spec hM hS hfirst hds fuel m start [] p
    (by intro a ha; rw [List.mem_singleton] at ha; subst ha; exact ⟨hs, .refl _⟩) (List.nodup_singleton _)
    (by intro z hz hzs; rw [List.mem_singleton] at hz; exact absurd hz hzs) (hMs p m hp hmrs hmv) hp (by simpa using hf)
  refine ⟨r, hol.getD (p.edge start.2), ?_, ?_, ?_, ?_, ?_⟩
  · unfold edgesCcwFrom
    simp only [hp, MSurf.simFromVectors, hm, i1, bind, Except.bind, pure, Except.pure]
  · have hev : (evens ((start, hol.getD (p.edge start.2)) :: r)).map Prod.fst = start :: Cs := by rw [evens_cons, List.map_cons, i7]
    refine ⟨?_, ?_, ?_, ?_, ?_, ?_, ?_⟩
    · rw [hev, ← List.nodup_reverse, List.reverse_cons]
      exact i3
    · rw [hev]
      exact sameVertex_of_first hS i2 i4 i5
    · rw [hev]; exact i4
    · rw [hev, odds_cons, i6]
    · rw [evens_cons, odds_cons, List.map_cons, List.tail_cons, i8]
    · rw [hev, evens_cons, odds_cons, List.map_cons, ← hmv]; exact i11
    · intro x hx
      rcases List.mem_cons.1 hx with rfl | hx
      · exact hh
      · exact i9 x hx
  · intro q hq
    rw [hp] at hq; injection hq with hq; rw [hq]
  · intro ι; rw [i7, ← i10, hmv]
  · rw [i7]; exact i5

/-- The matrices for which nothing is known. -/
theorem moves_rs : S.Moves valid Mat2.RS := ⟨fun _ h => h, fun _ _ _ _ _ _ h _ _ _ _ h' _ => h.mul h'⟩

theorem isEdgesCcw_congr {M : Mat2 K → Prop} {d d' : L × ℕ} {E : List ((L × ℕ) × Vec K)} (h : S.IsEdgesCcw valid M d E) (hd : S.SameVertex valid d' d) :
    S.IsEdgesCcw valid M d' E :=
  ⟨h.once, fun a => (h.all a).trans ⟨fun k => .trans _ _ _ hd k, fun k => .trans _ _ _ (.symm _ _ hd) k⟩, h.chain, h.between, h.agree, h.corners, h.ne⟩

theorem isFirst_congr {d d' : L × ℕ} (h : ∀ a, S.SameVertex valid d a → ∃ b, Step S.rotateCcw a b) (hd : S.SameVertex valid d d') : S.IsFirst valid d' :=
  .inr fun a ha => h a (.trans _ _ _ hd ha)

/-- `edges_ccw`, and the angle that it describes. -/
theorem edgesCcw_angle {M : Mat2 K → Prop} (hM : S.Moves valid M) (hS : S.Bordered valid) {d : L × ℕ} (hd : S.IsDart valid d)
    {ds : List (L × ℕ)} (hds : ∀ a, S.SameVertex valid d a → a ∈ ds) {fuel : ℕ} (hf : ds.length < fuel)
    {se : Option (L × ℕ)} (hse : ∀ s, se = some s → S.SameVertex valid d s ∧ S.IsFirst valid s)
    {hol : Option (Vec K)} (hhol : ∀ h, hol = some h → h ≠ 0)
    (hMs : ∀ s p m, S.SameVertex valid d s → S.polygon s.1 = .ok p → m.RS → m.mulVec (p.edge s.2) = hol.getD (p.edge s.2) → M m) :
    ∃ start h E, S.edgesCcwVertex fuel d se hol = .ok ((start, h) :: E) ∧ S.IsEdgesCcw valid M d ((start, h) :: E) ∧
      S.IsFirst valid start ∧ S.SameVertex valid d start ∧ (∀ s, se = some s → start = s) ∧
      (∀ p, S.polygon start.1 = .ok p → h = hol.getD (p.edge start.2)) ∧
      (∀ ι : K →+* ℝ, pathAngle ι h ((evens E).map Prod.snd) = (((start :: (odds E).map Prod.fst)).map (S.cornerAngle ι)).sum) ∧
      (Step S.rotateCcw (((odds E).map Prod.fst).getLastD start) start ∨
        S.rotateCcw (((odds E).map Prod.fst).getLastD start) = .ok none ∧ S.opp start.1 start.2 = .ok none) := by
  suffices h : ∃ start, S.edgesCcwVertex fuel d se hol = S.edgesCcwFrom fuel start hol ∧ S.SameVertex valid d start ∧ S.IsFirst valid start ∧
      (∀ s, se = some s → start = s) by
    obtain ⟨start, h1, h2, h3, h4⟩ := h
    obtain ⟨E, h, i1, i2, i3, i4, i5⟩ := edgesCcwFrom_spec hM hS ((sameVertex_valid h2).1 hd) h3
      (fun a ha => hds a (.trans _ _ _ h2 ha)) hf hhol (fun p m => hMs start p m h2)
    exact ⟨start, h, E, h1.trans i1, isEdgesCcw_congr i2 h2, h3, h2, h4, i3, i4, i5⟩
  cases se with
  | some s => exact ⟨s, rfl, (hse s rfl).1, (hse s rfl).2, fun s' h => by injection h⟩
  | none =>
    obtain ⟨s, h1, h2, h3⟩ := cwToBoundary_spec hS hds fuel d [] (by
      intro a ha; rw [List.mem_singleton] at ha; subst ha; exact ⟨hd, .refl _⟩) List.mem_cons_self (List.nodup_singleton _)
      (by intro z hz hzs; rw [List.mem_singleton] at hz; exact absurd hz hzs) (by simp) (by simpa using hf)
    refine ⟨s, ?_, h2, h3, fun s' h => by cases h⟩
    unfold edgesCcwVertex
    simp only [h1, bind, Except.bind]

/-- **C63.** `edges_ccw()` lists the edges at a vertex, each once, in counterclockwise order.  The vectors of edges that are glued agree,
and the vectors of the two edges of a polygon are the vectors of the polygon up to a common rotation and scaling.  If a first edge is
requested, then the list starts there; otherwise, at the boundary if there is one.  If a vector is requested for the first edge, then it is used. -/
theorem C63_edges_ccw (hS : S.Bordered valid) {d : L × ℕ} (hd : S.IsDart valid d)
    {ds : List (L × ℕ)} (hds : ∀ a, S.SameVertex valid d a → a ∈ ds) {fuel : ℕ} (hf : ds.length < fuel)
    {se : Option (L × ℕ)} (hse : ∀ s, se = some s → S.SameVertex valid d s ∧ S.IsFirst valid s)
    {hol : Option (Vec K)} (hhol : ∀ h, hol = some h → h ≠ 0) :
    ∃ start h E, S.edgesCcwVertex fuel d se hol = .ok ((start, h) :: E) ∧ S.IsEdgesCcw valid Mat2.RS d ((start, h) :: E) ∧
      S.IsFirst valid start ∧ (∀ s, se = some s → start = s) ∧ (∀ p, S.polygon start.1 = .ok p → h = hol.getD (p.edge start.2)) := by
  obtain ⟨start, h, E, i1, i2, i3, -, i4, i5, -⟩ := edgesCcw_angle moves_rs hS hd hds hf hse hhol (fun _ _ _ _ _ h _ => h)
  exact ⟨start, h, E, i1, i2, i3, i4, i5⟩

theorem sum_class {f : L × ℕ → ℝ} {d : L × ℕ} {l l' : List (L × ℕ)} (hl : l.Nodup) (hl' : l'.Nodup) (h : ∀ a, a ∈ l ↔ S.SameVertex valid d a)
    (h' : ∀ a, a ∈ l' ↔ S.SameVertex valid d a) : (l.map f).sum = (l'.map f).sum :=
  ((List.perm_ext_iff_of_nodup hl hl').2 fun a => (h a).trans (h' a).symm).map f |>.sum_eq

theorem mem_evens {α : Type} (x : α) (l : List α) : (x ∈ evens l → x ∈ l) ∧ (x ∈ odds l → x ∈ l) := by
  induction l with
  | nil => exact ⟨id, id⟩
  | cons y l ih =>
    rw [evens_cons, odds_cons]
    refine ⟨fun h => ?_, fun h => List.mem_cons_of_mem _ (ih.1 h)⟩
    rcases List.mem_cons.1 h with rfl | h
    · exact List.mem_cons_self
    · exact List.mem_cons_of_mem _ (ih.2 h)

/-- The vertex angle and the turns. -/
theorem turns_angle (hι : StrictMono ι) {M : Mat2 K → Prop} (hM : S.Moves valid M) (hS : S.Bordered valid) {d : L × ℕ} (hd : S.IsDart valid d)
    {A : List (L × ℕ)} (hA : A.Nodup) (hAd : ∀ a, a ∈ A ↔ S.SameVertex valid d a) {fuel : ℕ} (hf : A.length < fuel)
    {se : Option (L × ℕ)} (hse : ∀ s, se = some s → S.SameVertex valid d s ∧ S.IsFirst valid s)
    {hol : Option (Vec K)} (hhol : ∀ h, hol = some h → h ≠ 0)
    (hMs : ∀ s p m, S.SameVertex valid d s → S.polygon s.1 = .ok p → m.RS → m.mulVec (p.edge s.2) = hol.getD (p.edge s.2) → M m) :
    ∃ start h E, S.edgesCcwVertex fuel d se hol = .ok ((start, h) :: E) ∧ S.IsEdgesCcw valid M d ((start, h) :: E) ∧ S.SameVertex valid d start ∧
      (∀ s, se = some s → start = s) ∧ (∀ p, S.polygon start.1 = .ok p → h = hol.getD (p.edge start.2)) ∧
      S.turns fuel d se hol = .ok (⌊(A.map (S.cornerAngle ι)).sum⌋₊, h, ((evens E).map Prod.snd).getLastD h) ∧
      (A.map (S.cornerAngle ι)).sum = ⌊(A.map (S.cornerAngle ι)).sum⌋₊ + angleOf ι h (((evens E).map Prod.snd).getLastD h) ∧
      (Step S.rotateCcw (((odds E).map Prod.fst).getLastD start) start ∨
        S.rotateCcw (((odds E).map Prod.fst).getLastD start) = .ok none ∧ S.opp start.1 start.2 = .ok none) := by
  obtain ⟨start, h, E, i1, i2, i3, i4, i5, i6, i7, i8⟩ := edgesCcw_angle hM hS hd (fun a ha => (hAd a).2 ha) hf hse hhol hMs
  have hsum := sum_class (f := S.cornerAngle ι) i2.once hA i2.all hAd
  rw [evens_cons, List.map_cons, ← i7 ι] at hsum
  obtain ⟨t1, t2, t3, -⟩ := turns_spec hι (start := h) (i2.ne _ List.mem_cons_self) ((evens E).map Prod.snd) (by
    intro v hv
    obtain ⟨x, hx, rfl⟩ := List.mem_map.1 hv
    exact i2.ne x (List.mem_cons_of_mem _ ((mem_evens x E).1 hx)))
  rw [hsum] at t1 t3
  refine ⟨start, h, E, i1, i2, i4, i5, i6, ?_, t3.symm, i8⟩
  unfold turns countTurns
  simp only [i1, bind, Except.bind]
  rw [odds_map, odds_cons, t1, t2]

/-- **C63.** `turns()` at a vertex, also at the boundary: the number of full turns is the integral part of the sum of the angles of the
polygons at the vertex, and the rest of this angle is the angle between the two vectors.  It does not depend on the edge that is requested as
the first edge, nor on the vector that is requested for it. -/
theorem C63_turns (hι : StrictMono ι) (hS : S.Bordered valid) {d : L × ℕ} (hd : S.IsDart valid d)
    {A : List (L × ℕ)} (hA : A.Nodup) (hAd : ∀ a, a ∈ A ↔ S.SameVertex valid d a) {fuel : ℕ} (hf : A.length < fuel)
    {se : Option (L × ℕ)} (hse : ∀ s, se = some s → S.SameVertex valid d s ∧ S.IsFirst valid s)
    {hol : Option (Vec K)} (hhol : ∀ h, hol = some h → h ≠ 0) :
    ∃ first last, S.turns fuel d se hol = .ok (⌊(A.map (S.cornerAngle ι)).sum⌋₊, first, last) ∧ (∀ h, hol = some h → first = h) ∧
      (A.map (S.cornerAngle ι)).sum = ⌊(A.map (S.cornerAngle ι)).sum⌋₊ + angleOf ι first last := by
  obtain ⟨start, h, E, i1, i2, i3, i4, i5, i6, i7, -⟩ := turns_angle hι moves_rs hS hd hA hAd hf hse hhol (fun _ _ _ _ _ h _ => h)
  refine ⟨h, _, i6, fun h' hh => ?_, i7⟩
  obtain ⟨-, p, hp, -⟩ := (sameVertex_valid i3).1 hd
  rw [i5 p hp, hh]
  rfl

/-- **C63.** The angle at a vertex is the sum of the angles of the polygons at the vertex. -/
theorem C63_vertex_angle (hι : StrictMono ι) (hS : S.Bordered valid) {d : L × ℕ} (hd : S.IsDart valid d)
    {A : List (L × ℕ)} (hA : A.Nodup) (hAd : ∀ a, a ∈ A ↔ S.SameVertex valid d a) {fuel : ℕ} (hf : A.length < fuel) :
    S.angleVertex ι fuel d = .ok (A.map (S.cornerAngle ι)).sum := by
  obtain ⟨first, last, h1, -, h2⟩ := C63_turns hι hS hd hA hAd hf (se := none) (hol := none) (fun s h => by cases h) (fun s h => by cases h)
  unfold angleVertex
  simp only [h1, bind, Except.bind, pure, Except.pure]
  rw [← h2]

/-- **C63.** The angles of the polygons at a vertex are positive and less than a full turn, so the angle at a vertex is positive. -/
theorem cornerAngle_pos (hι : StrictMono ι) (hS : S.Bordered valid) {d : L × ℕ} (hd : S.IsDart valid d) : 0 < S.cornerAngle ι d ∧ S.cornerAngle ι d < 1 := by
  obtain ⟨hl, p, hp, he⟩ := hd
  have hv := hS.valid_of_polygon hl hp
  rw [cornerAngle_eq hp]
  exact ⟨angleOf_ne_zero hι (hv.edge_ne _) (neg_ne_zero.2 (hv.edge_ne _)) (hv.not_parallel he), angleOf_lt_one ι _ _⟩

/-- **C63.** At a vertex on the boundary, an edge that is not on the boundary cannot be requested as the first edge: this is a `ValueError`. -/
theorem C63_start_edge (hS : S.Bordered valid) {d s b c : L × ℕ} (hd : S.IsDart valid d) (hs : S.SameVertex valid d s)
    (hc : S.opp s.1 s.2 = .ok (some c)) (hb : S.SameVertex valid d b) (hbn : S.opp b.1 b.2 = .ok none)
    {ds : List (L × ℕ)} (hds : ∀ a, S.SameVertex valid d a → a ∈ ds) {fuel : ℕ} (hf : ds.length < fuel)
    {hol : Option (Vec K)} (hhol : ∀ h, hol = some h → h ≠ 0) : S.turns fuel d (some s) hol = .error .valueError := by
  have hsd := (sameVertex_valid hs).1 hd
  obtain ⟨hl, p, hp, he⟩ := id hsd
  have hne := (hS.valid_of_polygon hl hp).edge_ne s.2
  obtain ⟨m, hm, -⟩ := C03_similarityFromVectors (p.edge s.2) (hol.getD (p.edge s.2)) hne
  -- the edge on the other side of the boundary
  have hlast : ∃ b', S.SameVertex valid s b' ∧ S.rotateCcw b' = .ok none := by
    by_contra hcon
    push Not at hcon
    have hfirst : S.IsFirst valid b := .inr fun a ha => by
      have hsa : S.SameVertex valid s a := .trans _ _ _ (.symm _ _ hs) (.trans _ _ _ hb ha)
      obtain ⟨o, ho, -⟩ := hS.rotateCcw_ok ((sameVertex_valid hsa).1 hsd)
      cases o with
      | none => exact absurd ho (hcon a hsa)
      | some x => exact ⟨x, ho⟩
    obtain ⟨start, h, E, -, i2, -, -, i4, -, -, i8⟩ := edgesCcw_angle moves_rs hS hd hds hf (se := some b) (hol := none)
      (fun s h => by injection h with h; subst h; exact ⟨hb, hfirst⟩) (fun s h => by cases h) (fun _ _ _ _ _ h _ => h)
    rcases i8 with i8 | ⟨i8, -⟩
    · obtain rfl := i4 b rfl
      obtain ⟨q, hq, ho⟩ := step_ccw_iff.1 i8
      have hm : ((odds E).map Prod.fst).getLastD start ∈ (evens ((start, h) :: E)).map Prod.fst := by
        rw [evens_cons, List.map_cons]; exact getLastD_mem' _ _
      have hx := (sameVertex_valid ((i2.all _).1 hm)).1 hd
      obtain ⟨hlx, q', hq', hlt⟩ := hx
      rw [hq] at hq'; injection hq' with hq'; subst hq'
      obtain ⟨-, q'', -, -, hback⟩ := hS.back hlx hq (Nat.mod_lt _ (by omega)) ho
      rw [hbn] at hback
      injection hback with hback
      cases hback
    · have hm : ((odds E).map Prod.fst).getLastD start ∈ (evens ((start, h) :: E)).map Prod.fst := by
        rw [evens_cons, List.map_cons]; exact getLastD_mem' _ _
      exact hcon _ (.trans _ _ _ (.symm _ _ hs) ((i2.all _).1 hm)) i8
  obtain ⟨b', hb', hbn'⟩ := hlast
  have := ccwHolonomies_error hS ⟨c, hc⟩ hb' hbn' (fun a ha => hds a (.trans _ _ _ hs ha)) fuel m s []
    (by intro a ha; rw [List.mem_singleton] at ha; subst ha; exact ⟨hsd, .refl _⟩) List.mem_cons_self (List.nodup_singleton _)
    (by intro z hz hzs; rw [List.mem_singleton] at hz; exact absurd hz hzs) (by simp) (by simpa using hf)
  unfold turns edgesCcwVertex edgesCcwFrom
  simp only [hp, MSurf.simFromVectors, hm, this, bind, Except.bind]

/-! ## Translation surfaces -/

theorem rs_unique {m : Mat2 K} (hm : m.RS) {u : Vec K} (hu : u ≠ 0) : (m.mulVec u = u → m = Mat2.one) ∧ (m.mulVec u = -u → m = ⟨-1, 0, 0, -1⟩) := by
  obtain ⟨m1, -, -, -, h1⟩ := C03_similarityFromVectors u u hu
  obtain ⟨m2, -, -, -, h2⟩ := C03_similarityFromVectors u (-u) hu
  refine ⟨fun h => (h1 m hm.shape h).trans (h1 _ ?_ ?_).symm, fun h => (h2 m hm.shape h).trans (h2 _ ?_ ?_).symm⟩
  · simp [Mat2.IsRotScale, Mat2.one]
  · exact one_mulVec u
  · simp [Mat2.IsRotScale]
  · ext <;> simp [Mat2.mulVec]

theorem moves_translation (hS : S.Bordered valid) (hT : S.GluedBy valid (fun u w => w = -u)) : S.Moves valid (fun m => m = Mat2.one) where
  rs := by
    rintro m rfl
    exact ⟨by simp [Mat2.IsRotScale, Mat2.one], fun v hv => by rw [one_mulVec]; exact hv⟩
  mul := by
    rintro m d c p q n rfl ⟨hl, p', hp', he⟩ hp ho hq hn hv
    rw [hp] at hp'; injection hp' with hp'; subst hp'
    obtain ⟨hc, -⟩ := hS.back hl hp he ho
    rw [← hT _ _ _ _ p q hl hp he ho hq] at hv
    rw [(rs_unique hn ((hS.valid_of_polygon hc hq).edge_ne _)).1 hv, one_mul_one]

/-- Half-translations. -/
def IsPM (m : Mat2 K) : Prop := m = Mat2.one ∨ m = ⟨-1, 0, 0, -1⟩

theorem IsPM.mulVec {m : Mat2 K} (h : IsPM m) (v : Vec K) : m.mulVec v = v ∨ m.mulVec v = -v := by
  rcases h with rfl | rfl
  · exact .inl (one_mulVec v)
  · right; ext <;> simp [Mat2.mulVec]

theorem moves_half (hS : S.Bordered valid) (hT : S.GluedBy valid (fun u w => w = -u ∨ w = u)) : S.Moves valid IsPM where
  rs := by
    rintro m (rfl | rfl)
    · exact ⟨by simp [Mat2.IsRotScale, Mat2.one], fun v hv => by rw [one_mulVec]; exact hv⟩
    · exact ⟨by simp [Mat2.IsRotScale], fun v hv => by
        rcases IsPM.mulVec (.inr rfl) v with h | h <;> rw [h]
        · exact hv
        · exact neg_ne_zero.2 hv⟩
  mul := by
    rintro m d c p q n hm ⟨hl, p', hp', he⟩ hp ho hq hn hv
    rw [hp] at hp'; injection hp' with hp'; subst hp'
    obtain ⟨hc, -⟩ := hS.back hl hp he ho
    have hn' : IsPM n := by
      have hne := (hS.valid_of_polygon hc hq).edge_ne c.2
      rcases hT _ _ _ _ p q hl hp he ho hq with h | h
      · rw [← h] at hv; exact .inl ((rs_unique hn hne).1 hv)
      · rw [← h] at hv; exact .inr ((rs_unique hn hne).2 hv)
    rcases hm with rfl | rfl <;> rcases hn' with rfl | rfl
    · exact .inl (by simp [Mat2.mul, Mat2.one])
    · exact .inr (by simp [Mat2.mul, Mat2.one])
    · exact .inr (by simp [Mat2.mul, Mat2.one])
    · exact .inl (by simp [Mat2.mul, Mat2.one])

theorem forall₂_last {α β : Type} {R : α → β × β → Prop} : ∀ (xs : List α) (x : α) (vs ws : List β) (h : β),
    List.Forall₂ R (x :: xs) (vs.zip ws) → ws.length = xs.length + 1 → ∃ y, R (xs.getLastD x) (y, ws.getLastD h)
  | [], x, vs, ws, h, hR, hl => by
    obtain ⟨w, rfl⟩ := List.length_eq_one_iff.1 hl
    cases vs with
    | nil => cases hR
    | cons v vs =>
      cases hR with
      | cons h1 _ => exact ⟨v, h1⟩
  | x' :: xs, x, vs, ws, h, hR, hl => by
    cases ws with
    | nil => simp at hl
    | cons w ws =>
      cases vs with
      | nil => cases hR
      | cons v vs =>
        cases hR with
        | cons _ h2 =>
          rw [List.getLastD_cons, List.getLastD_cons]
          exact forall₂_last xs x' vs ws w h2 (by simpa using hl)

/-- The last vector that is reported. -/
theorem last_corner {M : Mat2 K → Prop} {d start : L × ℕ} {h : Vec K} {E : List ((L × ℕ) × Vec K)} (i : S.IsEdgesCcw valid M d ((start, h) :: E)) :
    ∃ m p, M m ∧ S.polygon (((odds E).map Prod.fst).getLastD start).1 = .ok p ∧
      ((evens E).map Prod.snd).getLastD h = -m.mulVec (p.edge (((((odds E).map Prod.fst).getLastD start).2 + (p.length - 1)) % p.length)) := by
  have hc := i.corners
  have hb := congrArg List.length i.between
  rw [evens_cons, odds_cons, List.map_cons, List.map_cons] at hc
  rw [evens_cons, odds_cons] at hb
  simp only [List.length_map, List.length_cons] at hb
  obtain ⟨y, m, p, h1, h2, -, h3⟩ := forall₂_last _ _ _ _ h hc (by simpa using hb)
  exact ⟨m, p, h1, h2, h3⟩

theorem angleOf_self {u : Vec K} (hu : u ≠ 0) : angleOf ι u u = 0 := by
  have h := angleOf_vdir ι hu hu
  rw [sub_self] at h
  have h0 := angleOf_nonneg ι u u
  have h1 := angleOf_lt_one ι u u
  have hpi := Real.pi_pos
  have := eq_of_angle (a := 2 * π * angleOf ι u u) (b := 0) (by rw [h]; simp) (by nlinarith) (by nlinarith)
  have h2 : (2 * π) ≠ 0 := by positivity
  exact (mul_eq_zero.1 this).resolve_left h2

theorem angleOf_neg {u : Vec K} (hu : u ≠ 0) : angleOf ι u (-u) = 1 / 2 := by
  have h := angleOf_vdir ι hu (neg_ne_zero.2 hu)
  rw [vdir_neg ι hu, add_sub_cancel_left] at h
  have h0 := angleOf_nonneg ι u (-u)
  have h1 := angleOf_lt_one ι u (-u)
  have hpi := Real.pi_pos
  have := eq_of_angle h (by nlinarith) (by nlinarith)
  have h2 : π * (2 * angleOf ι u (-u) - 1) = 0 := by linear_combination this
  have := (mul_eq_zero.1 h2).resolve_left hpi.ne'
  linarith

/-- The two vectors of `turns` at a vertex that is not on the boundary. -/
theorem turns_closed (hι : StrictMono ι) {M : Mat2 K → Prop} (hM : S.Moves valid M) (hM1 : M Mat2.one) (hS : S.Closed valid) {d : L × ℕ} (hd : S.IsDart valid d)
    {A : List (L × ℕ)} (hA : A.Nodup) (hAd : ∀ a, a ∈ A ↔ S.SameVertex valid d a) :
    ∃ (start c : L × ℕ) (p q : Poly K) (m : Mat2 K), S.IsDart valid start ∧ S.IsDart valid c ∧ S.opp c.1 c.2 = .ok (some start) ∧
      S.polygon start.1 = .ok p ∧ S.polygon c.1 = .ok q ∧ M m ∧
      (A.map (S.cornerAngle ι)).sum = ⌊(A.map (S.cornerAngle ι)).sum⌋₊ + angleOf ι (p.edge start.2) (-m.mulVec (q.edge c.2)) := by
  obtain ⟨start, h, E, i1, i2, i3, i4, i5, i6, i7, i8⟩ := turns_angle hι hM hS.bordered hd hA hAd (Nat.lt_succ_self _) (se := none) (hol := none)
    (fun s h => by cases h) (fun s h => by cases h) (fun s p m hs hp hm hv => by
      obtain ⟨hl, -⟩ := (sameVertex_valid hs).1 hd
      rw [(rs_unique hm ((hS.bordered.valid_of_polygon hl hp).edge_ne s.2)).1 hv]
      exact hM1)
  have hsd := (sameVertex_valid i3).1 hd
  obtain ⟨hl, p, hp, he⟩ := id hsd
  obtain ⟨m, q, hm, hq, hlast⟩ := last_corner i2
  have hmem : ((odds E).map Prod.fst).getLastD start ∈ (evens ((start, h) :: E)).map Prod.fst := by
    rw [evens_cons, List.map_cons]; exact getLastD_mem' _ _
  obtain ⟨hlx, q', hq', hlt⟩ := (sameVertex_valid ((i2.all _).1 hmem)).1 hd
  rw [hq] at hq'; injection hq' with hq'; subst hq'
  rcases i8 with i8 | ⟨-, i8⟩
  · obtain ⟨q', hq', ho⟩ := step_ccw_iff.1 i8
    rw [hq] at hq'; injection hq' with hq'; subst hq'
    refine ⟨start, ((((odds E).map Prod.fst).getLastD start).1, ((((odds E).map Prod.fst).getLastD start).2 + (q.length - 1)) % q.length), p, q, m, hsd, ⟨hlx, q, hq, Nat.mod_lt _ (by omega)⟩, ho, hp, hq, hm, ?_⟩
    rw [hlast, i5 p hp] at i7
    exact i7
  · exfalso
    obtain ⟨l', e', p', h, -⟩ := hS.glue _ p _ hl hp he
    rw [i8] at h
    injection h with h
    cases h

theorem sum_class_pos (hι : StrictMono ι) (hS : S.Bordered valid) {d : L × ℕ} (hd : S.IsDart valid d)
    {A : List (L × ℕ)} (hAd : ∀ a, a ∈ A ↔ S.SameVertex valid d a) : 0 < (A.map (S.cornerAngle ι)).sum := by
  refine List.sum_pos _ ?_ ?_
  · intro x hx
    obtain ⟨a, ha, rfl⟩ := List.mem_map.1 hx
    exact (cornerAngle_pos hι hS ((sameVertex_valid ((hAd a).1 ha)).1 hd)).1
  · intro h
    have := (hAd d).2 (.refl _)
    rw [List.map_eq_nil_iff] at h
    rw [h] at this
    cases this

/-- **C63.** On a translation surface without boundary the angles at vertices are positive integers. -/
theorem C63_translation (hι : StrictMono ι) (hS : S.Closed valid) (hT : S.GluedBy valid (fun u w => w = -u)) {d : L × ℕ} (hd : S.IsDart valid d)
    {A : List (L × ℕ)} (hA : A.Nodup) (hAd : ∀ a, a ∈ A ↔ S.SameVertex valid d a) {fuel : ℕ} (hf : A.length < fuel) :
    ∃ n : ℕ, 0 < n ∧ S.angleVertex ι fuel d = .ok n := by
  obtain ⟨start, c, p, q, m, hs, hc, ho, hp, hq, rfl, h⟩ := turns_closed hι (moves_translation hS.bordered hT) rfl hS hd hA hAd
  have hne := (hS.bordered.valid_of_polygon hs.1 hp).edge_ne start.2
  obtain ⟨hcl, q', hq', hce⟩ := hc
  rw [hq] at hq'; injection hq' with hq'; subst hq'
  rw [one_mulVec, ← hT _ _ _ _ q p hcl hq hce ho hp, angleOf_self hne, add_zero] at h
  have h0 := sum_class_pos hι hS.bordered hd hAd
  refine ⟨⌊(A.map (S.cornerAngle ι)).sum⌋₊, ?_, ?_⟩
  · rw [h] at h0; exact_mod_cast h0
  · rw [C63_vertex_angle hι hS.bordered hd hA hAd hf, ← h]

/-- **C63.** On a half-translation surface without boundary the angles at vertices are positive multiples of a half turn. -/
theorem C63_half_translation (hι : StrictMono ι) (hS : S.Closed valid) (hT : S.GluedBy valid (fun u w => w = -u ∨ w = u)) {d : L × ℕ}
    (hd : S.IsDart valid d) {A : List (L × ℕ)} (hA : A.Nodup) (hAd : ∀ a, a ∈ A ↔ S.SameVertex valid d a) {fuel : ℕ} (hf : A.length < fuel) :
    ∃ n : ℕ, 0 < n ∧ S.angleVertex ι fuel d = .ok (n / 2) := by
  obtain ⟨start, c, p, q, m, hs, hc, ho, hp, hq, hm, h⟩ := turns_closed hι (moves_half hS.bordered hT) (.inl rfl) hS hd hA hAd
  have hne := (hS.bordered.valid_of_polygon hs.1 hp).edge_ne start.2
  obtain ⟨hcl, q', hq', hce⟩ := hc
  rw [hq] at hq'; injection hq' with hq'; subst hq'
  have hv : -m.mulVec (q.edge c.2) = p.edge start.2 ∨ -m.mulVec (q.edge c.2) = -p.edge start.2 := by
    rcases hm.mulVec (q.edge c.2) with k | k <;> rcases hT _ _ _ _ q p hcl hq hce ho hp with k' | k' <;> rw [k, k'] <;> simp
  have h0 := sum_class_pos hι hS.bordered hd hAd
  rw [C63_vertex_angle hι hS.bordered hd hA hAd hf]
  rcases hv with hv | hv
  · rw [hv, angleOf_self hne, add_zero] at h
    refine ⟨2 * ⌊(A.map (S.cornerAngle ι)).sum⌋₊, ?_, ?_⟩
    · rw [h] at h0
      have : 0 < ⌊(A.map (S.cornerAngle ι)).sum⌋₊ := by exact_mod_cast h0
      omega
    · push_cast
      rw [mul_div_cancel_left₀ _ (two_ne_zero), ← h]
  · rw [hv, angleOf_neg hne] at h
    refine ⟨2 * ⌊(A.map (S.cornerAngle ι)).sum⌋₊ + 1, by omega, ?_⟩
    push_cast
    congr 1
    linear_combination h

/-! ## Examples -/

theorem castHom_strictMono : StrictMono (Rat.castHom ℝ) := fun a b h => by simpa using h

/-- On the torus made of two triangles there is one full turn at the only vertex. -/
example : exTorus2.turns 7 (false, 0) none none = .ok (1, (1, 0), (1, 0)) := by decide +kernel

/-- The same with another first edge and another vector. -/
example : exTorus2.turns 7 (false, 0) (some (true, 2)) (some (3, 1)) = .ok (1, (3, 1), (3, 1)) := by decide +kernel

/-- All edges of the torus start at the same vertex. -/
theorem exTorus2_class (a : Bool × ℕ) : a ∈ [(false, 0), (false, 1), (false, 2), (true, 0), (true, 1), (true, 2)] ↔ exTorus2.SameVertex (fun _ => True) (false, 0) a := by
  rw [← exTorus2_dart]
  refine ⟨fun h => ?_, fun h => (sameVertex_valid h).1 ((exTorus2_dart _).2 (by decide))⟩
  obtain ⟨x, hx, hxa⟩ := exTorus2_starts.cover a h
  rw [List.mem_singleton] at hx
  rw [← hx]
  exact hxa

example : ∃ n : ℕ, 0 < n ∧ exTorus2.angleVertex (Rat.castHom ℝ) 7 (false, 0) = .ok n :=
  C63_translation castHom_strictMono exTorus2_closed exTorus2_translation ((exTorus2_dart _).2 (by decide)) (by decide) exTorus2_class (by decide)

theorem exFold_bordered : exFold.Bordered (fun _ => True) where
  poly _ _ := ⟨_, rfl, ((Poly.ofVertices_iff MSurf.tri MSurf.tri).1 (by decide +kernel)).2⟩
  glue l p e _ hp he := by
    by_cases h : e = 0
    · subst h
      exact .inr ⟨(), 0, p, rfl, trivial, hp, he, rfl⟩
    · left; simp [exFold, h]

/-- At a vertex on the boundary the first edge is on the boundary.  Other edges cannot be the first edge. -/
example : exFold.turns 4 ((), 0) none none = .ok (0, (-1, 1), (0, -1)) ∧ exFold.turns 4 ((), 0) (some ((), 0)) none = .error .valueError := by
  decide +kernel

example : exFold.turns 9 ((), 0) (some ((), 0)) none = .error .valueError := by
  have h0 : exFold.IsDart (fun _ => True) ((), 0) := ⟨trivial, _, rfl, by decide⟩
  have h1 : exFold.IsDart (fun _ => True) ((), 1) := ⟨trivial, _, rfl, by decide⟩
  refine C63_start_edge exFold_bordered h0 (.refl _) (c := ((), 0)) rfl (b := ((), 1))
    (sameVertex_cw h0 h1 (by unfold Step; decide +kernel)) (by decide +kernel) (ds := [((), 0), ((), 1), ((), 2)]) ?_ (by decide) (fun h hh => by cases hh)
  intro a ha
  obtain ⟨-, p, hp, he⟩ := (sameVertex_valid ha).1 h0
  injection hp with hp
  subst hp
  obtain ⟨⟨⟩, e⟩ := a
  have he : e < 3 := he
  interval_cases e <;> decide

end RSurf
end Flat
