import Verif.Lemmas.Stands

/-!
# C72: trajectories through interval maps are the trajectories

`StraightLineTrajectoryTranslation` follows lines on translation surfaces with the interval maps `flow_map` of the polygons.  On translation
surfaces built from convex polygons it does the same as `StraightLineTrajectory`, as long as it recognises the vertices that lines run into.
-/

namespace Flat

section
variable {K : Type} [Field K] [LinearOrder K] [IsStrictOrderedRing K] {p : Poly K} {d : Vec K}
open Poly

/-- **C72.** For every direction, a convex polygon has a map from the edges through which lines enter to the edges through which they leave.
It maps a point of an edge to the point of the boundary with which it spans a chord in this direction. -/
theorem C72_flow_map (hv : p.Valid) (hc : p.Convex) (hd : d ≠ 0) :
    ∃ T, p.flowMap d = .ok T ∧
      (∀ e x τ, e < p.length → 0 < p.width d e → 0 ≤ x → x ≤ p.width d e → 0 < τ →
        (∀ r : K, 0 < r → r < τ → p.pointPosition (p.botPoint d e x + r • d) = .interior) → (∃ i, p.botPoint d e x + τ • d ∈ p.side i) →
        ∃ j y, T.forwardImage e x = .ok (j, y) ∧ j < p.length ∧ p.width d j < 0 ∧ 0 ≤ y ∧ y ≤ -p.width d j ∧
          p.botPoint d e x + τ • d = p.topPoint d j y) ∧
      (∀ j y τ, j < p.length → p.width d j < 0 → 0 ≤ y → y ≤ -p.width d j → 0 < τ →
        (∀ r : K, 0 < r → r < τ → p.pointPosition (p.topPoint d j y + r • -d) = .interior) → (∃ i, p.topPoint d j y + τ • -d ∈ p.side i) →
        ∃ e x, T.backwardImage j y = .ok (e, x) ∧ e < p.length ∧ 0 < p.width d e ∧ 0 ≤ x ∧ x ≤ p.width d e ∧
          p.topPoint d j y + τ • -d = p.botPoint d e x) := by
  obtain ⟨T, left, hT⟩ := flowMap_isFlowMap hv hc hd
  exact ⟨T, hT.ok, fun e x τ h1 h2 h3 h4 h5 h6 h7 => forward_exit hv hc hd hT h1 h2 h3 h4 h5 h6 h7,
    fun j y τ h1 h2 h3 h4 h5 h6 h7 => backward_exit hv hc hd hT h1 h2 h3 h4 h5 h6 h7⟩

end

namespace RSurf
open Poly
variable {L K : Type} [Field K] [LinearOrder K] [IsStrictOrderedRing K] {S : RSurf L K} {valid : L → Prop}

/-! ## Triples and segments -/

theorem isSeg_of_stands {v : Vec K} {t : L × ℕ × K} {s : Seg L K} (h : S.Stands valid v t s) : S.IsSeg valid s :=
  let ⟨_, _, p, τ, hch, _⟩ := h
  .inl ⟨p, τ, hch⟩

theorem stands_position (hS : S.Closed valid) {v : Vec K} {t : L × ℕ × K} {s : Seg L K} (h : S.Stands valid v t s) :
    (t.2.2 = 0 ∧ s.start.position = .vertex t.2.1) ∨ (0 < t.2.2 ∧ s.start.position = .edgeInterior t.2.1) := by
  obtain ⟨hl, hvec, p, τ, hch, he, hw, x0, x1, hpt⟩ := h
  have hv := hS.bordered.valid_of_polygon hch.valid hch.polygon
  rw [hch.position, hpt]
  rcases botPoint_position hv he hw x0 x1.le with ⟨q0, q⟩ | ⟨q0, -, q⟩ | ⟨q, -⟩
  · exact .inl ⟨q0, q⟩
  · exact .inr ⟨q0, q⟩
  · exact absurd q x1.ne

theorem stands_singular (hS : S.Closed valid) {v : Vec K} {t : L × ℕ × K} {s : Seg L K} (h : S.Stands valid v t s) :
    t.2.2 = 0 ↔ s.start.singular = true := by
  rw [singular_iff]
  rcases stands_position hS h with ⟨h1, h2⟩ | ⟨h1, h2⟩
  · simp [h1, h2]
  · simp [h1.ne', h2]

/-- Triples for the same direction stand for the same segment if and only if they are equal. -/
theorem stands_inj (hS : S.Closed valid) {v : Vec K} {t t' : L × ℕ × K} {s s' : Seg L K} (h : S.Stands valid v t s) (h' : S.Stands valid v t' s') :
    t = t' ↔ s = s' := by
  constructor
  · rintro rfl
    obtain ⟨hl, hvec, p, τ, hch, he, hw, x0, x1, hpt⟩ := h
    obtain ⟨hl', hvec', p', τ', hch', -, -, -, -, hpt'⟩ := h'
    have hp := hch'.polygon
    rw [hl', ← hl, hch.polygon] at hp; injection hp with hp; subst hp
    refine isSeg_ext hS.bordered (.inl ⟨p, τ, hch⟩) (.inl ⟨p, τ', hch'⟩) ?_
    have e1 := hch.position
    have e2 := hch'.position
    obtain ⟨⟨a1, a2, a3, a4⟩, a5⟩ := s
    obtain ⟨⟨b1, b2, b3, b4⟩, b5⟩ := s'
    dsimp only at *
    obtain rfl : a1 = b1 := hl.trans hl'.symm
    obtain rfl : a2 = b2 := hpt.trans hpt'.symm
    obtain rfl : a3 = b3 := hvec.trans hvec'.symm
    rw [e1, e2]
  · rintro rfl
    have he : t.2.1 = t'.2.1 := by
      rcases stands_position hS h with ⟨-, h1⟩ | ⟨-, h1⟩ <;> rcases stands_position hS h' with ⟨-, h2⟩ | ⟨-, h2⟩ <;> rw [h1] at h2 <;> injection h2
    obtain ⟨hl, hvec, p, τ, hch, -, hw, x0, x1, hpt⟩ := h
    obtain ⟨hl', hvec', p', τ', hch', -, hw', -, -, hpt'⟩ := h'
    have hp := hch'.polygon
    rw [hch.polygon] at hp; injection hp with hp; subst hp
    have hx : t.2.2 = t'.2.2 := by
      have := congrArg (across v) (hpt.symm.trans hpt')
      rw [across_botPoint hw.ne', across_botPoint hw'.ne', he] at this
      exact add_left_cancel this
    exact Prod.ext (hl.symm.trans hl') (Prod.ext he hx)

/-- Segments with the same direction that differ by scaling are equal. -/
theorem stands_scale (hS : S.Closed valid) {v : Vec K} {t t' : L × ℕ × K} {s s' : Seg L K} (h : S.Stands valid v t s) (h' : S.Stands valid v t' s') {c : K}
    (hc : s' = s.scale c) : s = s' := by
  have hv : v ≠ 0 := by
    obtain ⟨hl, hvec, p, τ, hch, -⟩ := h
    rw [← hvec]; exact hch.ne
  have h1 : s'.start.vector = c • s.start.vector := by rw [hc]; rfl
  rw [h.vector, h'.vector] at h1
  have : c = 1 := by
    by_contra hne
    apply hv
    have h2 : (c - 1) • v = 0 := by rw [sub_smul, one_smul, ← h1, sub_self]
    exact (smul_eq_zero.1 h2).resolve_left (sub_ne_zero.2 hne)
  rw [hc, this]
  unfold Seg.scale TVec.scale
  simp

/-- **C72.** `segment` of a triple is the segment it stands for. -/
theorem C72_segment (hS : S.Closed valid) (hc : S.AllConvex valid) {v : Vec K} {t : L × ℕ × K} {s : Seg L K} (h : S.Stands valid v t s) :
    S.ttSegment v t = .ok s := by
  have hB := hS.bordered
  obtain ⟨p, T, left, j, y, hp, hv, hT, hF, k1, k2, k3, k4, k5, k6, k7⟩ := stands_stop hS hc h
  have hseg := isSeg_of_stands h
  obtain ⟨h1, h2⟩ := C67_ends hB hseg
  obtain ⟨hl, hvec, q, τ, hch, he, hw, x0, x1, hpt⟩ := h
  have hq := hch.polygon
  rw [hl, hp] at hq; injection hq with hq; subst hq
  have e1 : S.tangentVector t.1 (p.vertex t.2.1 + (t.2.2 / p.width v t.2.1) • p.edge t.2.1) v = .ok s.start := by
    have := h1.2
    rw [hl, hpt, hvec] at this
    exact this
  have e2 : S.tangentVector t.1 (p.vertex j + ((-p.width v j - y) / -p.width v j) • p.edge j) (-v) = .ok s.stop := by
    have := h2.2
    rw [hch.label, hl, k6, hch.vector, hvec] at this
    exact this
  unfold ttSegment
  simp only [hT, k1, hp, hF.lengthBot _ he hw, hF.lengthTop _ k2 k3, e1, e2, bind, Except.bind, pure, Except.pure]

/-! ## The trajectories -/

/-- A `StraightLineTrajectoryTranslation` and a `StraightLineTrajectory` that stand for the same trajectory. -/
def Mirrors (S : RSurf L K) (valid : L → Prop) (x : Traj L K) (y : TTraj L K) : Prop :=
  S.IsTraj valid x ∧ ((∃ s p p' e e' g, x.segments = [s] ∧ y = .edge s ∧ S.IsAlong valid s p p' e e' g) ∨
    ∃ v pts, y = .points v pts ∧ List.Forall₂ (S.Stands valid v) pts x.segments)

theorem linearityCoeff_smul {u : Vec K} (hu : u ≠ 0) (c : K) : linearityCoeff u (c • u) = .ok c := by
  obtain ⟨a, b⟩ := u
  unfold linearityCoeff
  simp only [Prod.smul_fst, Prod.smul_snd, smul_eq_mul]
  by_cases ha : a = 0
  · subst ha
    have hb : b ≠ 0 := fun hb => hu (by rw [hb]; rfl)
    rw [if_neg (by simp), if_neg (by simp), if_pos hb]
    congr 1
    field_simp
  · rw [if_pos ha]
    have : c * a / a = c := by field_simp
    rw [this, if_neg (by simp)]

/-- A chord starts on an edge to whose left it points. -/
theorem chord_start (hS : S.Closed valid) (hc : S.AllConvex valid) {s : Seg L K} {p : Poly K} {τ : K} (h : S.IsChord valid s p τ) :
    ∃ (e : ℕ) (u : K), (s.start.position = .edgeInterior e ∨ s.start.position = .vertex e) ∧ e < p.length ∧ 0 < p.width s.start.vector e ∧ 0 ≤ u ∧ u < 1 ∧
      s.start.point = p.vertex e + u • p.edge e := by
  have hv := hS.bordered.valid_of_polygon h.valid h.polygon
  have hcv := hc _ _ h.valid h.polygon
  have hon : ∀ k (t : K), p.left (p.vertex k + t • p.edge k) k = 0 := by
    intro k t
    unfold Poly.left ccw
    simp only [Prod.fst_sub, Prod.snd_sub, Prod.fst_add, Prod.snd_add, Prod.smul_fst, Prod.smul_snd, smul_eq_mul]
    ring
  have hw : ∀ k (t : K), s.start.point = p.vertex k + t • p.edge k → 0 < p.width s.start.vector k := by
    intro k t hk
    have h1 := interior_left hv hcv (h.interior (τ / 2) (half_pos h.pos) (half_lt_self h.pos)) k
    rw [left_add, hk, hon, zero_add] at h1
    exact (mul_pos_iff_of_pos_left (half_pos h.pos)).1 h1
  rcases (pointPosition_boundary hv).1 h.side with ⟨i, hi⟩ | ⟨e, he⟩
  · obtain ⟨hlt, hpt⟩ := (C12_vertex hv _ i).1 hi
    have hpt' : s.start.point = p.vertex i + (0 : K) • p.edge i := by rw [hpt]; simp
    exact ⟨i, 0, .inr (h.position.trans hi), hlt, hw i 0 hpt', le_rfl, one_pos, hpt'⟩
  · obtain ⟨hlt, u, u0, u1, hpt⟩ := (C12_edge hv _ e).1 he
    exact ⟨e, u, .inl (h.position.trans he), hlt, hw e u hpt, u0.le, u1, hpt⟩

/-- **C72.** From every tangent vector there is a trajectory through interval maps, and it stands for the trajectory. -/
theorem C72_new (hS : S.Closed valid) (hc : S.AllConvex valid) {t : TVec L K} (ht : S.IsTangent valid t) :
    ∃ x y, S.trajectory t = .ok x ∧ S.ttNew t = .ok y ∧ S.Mirrors valid x y := by
  have hB := hS.bordered
  obtain ⟨x, s, h1, h2, h3, h4⟩ := C67_trajectory hS ht
  obtain ⟨s', m1, m2, m3, m4, -⟩ := C67_segment hS ht
  rw [h2] at m1; injection m1 with m1; subst m1
  refine ⟨x, ?_⟩
  rcases m2 with ⟨p, τ, hch⟩ | ⟨p, p', e, e', g, hal⟩
  · obtain ⟨e, u, k1, k2, k3, k4, k5, k6⟩ := chord_start hS hc hch
    have hv := hB.valid_of_polygon hch.valid hch.polygon
    obtain ⟨T, left, hT⟩ := flowMap_isFlowMap hv (hc _ _ hch.valid hch.polygon) hch.ne
    have hedge : S.segIsEdge s = .ok false := by
      unfold segIsEdge
      rcases k1 with k1 | k1
      · rw [k1]; rfl
      · rw [k1]
        cases s.stop.position with
        | vertex i =>
          simp only [hch.polygon, bind, Except.bind, pure, Except.pure]
          congr 1
          rw [← Bool.not_eq_true, C05_isParallel_iff _ _ hch.ne]
          rintro ⟨c, c0, hcc⟩
          unfold width at k3
          rw [hcc] at k3
          unfold ccw at k3
          simp only [Prod.smul_fst, Prod.smul_snd, smul_eq_mul] at k3
          have : c * s.start.vector.1 * s.start.vector.2 - s.start.vector.1 * (c * s.start.vector.2) = 0 := by ring
          linarith
        | _ => rfl
    have hiet : S.ttIet t.vector s.start.label = .ok T := by
      unfold ttIet
      rw [hch.polygon, ← m4]
      exact hT.ok
    have hco : linearityCoeff (p.vertex (e + 1) - p.vertex e) (s.start.point - p.vertex e) = .ok u := by
      rw [k6, add_sub_cancel_left]
      exact linearityCoeff_smul (hv.edge_ne e) u
    refine ⟨.points t.vector [(s.start.label, e, u * p.width s.start.vector e)], h1, ?_, h4, .inr ⟨_, _, rfl, ?_⟩⟩
    · unfold ttNew
      rcases k1 with k1 | k1 <;>
        simp [h2, hedge, k1, hch.polygon, hiet, hco, hT.lengthBot e k2 k3, bind, Except.bind, pure, Except.pure]
    · rw [h3]
      refine .cons ⟨rfl, m4, p, τ, hch, ?_⟩ .nil
      rw [← m4]
      refine ⟨k2, k3, mul_nonneg k4 k3.le, by nlinarith, ?_⟩
      unfold botPoint
      rw [mul_div_cancel_right₀ _ k3.ne']
      exact k6
  · refine ⟨.edge s, h1, ?_, h4, .inl ⟨s, p, p', e, e', g, h3, rfl, hal⟩⟩
    have hv := hB.valid_of_polygon hal.valid hal.polygon
    obtain ⟨c, c0, hcc⟩ := (C05_isParallel_iff _ _ (hv.edge_ne e)).1 hal.parallel
    have hne : s.start.vector ≠ 0 := by
      rw [hcc]; exact smul_ne c0 (hv.edge_ne e)
    have hedge : S.segIsEdge s = .ok true := by
      unfold segIsEdge
      rw [hal.position, hal.position']
      simp only [hal.polygon, bind, Except.bind, pure, Except.pure]
      congr 1
      rw [C05_isParallel_iff _ _ hne]
      exact ⟨c⁻¹, inv_pos.2 c0, by rw [hcc, smul_smul, inv_mul_cancel₀ c0.ne', one_smul]⟩
    unfold ttNew
    simp [h2, hedge, bind, Except.bind, pure, Except.pure]

/-- **C72.** The segments are the same. -/
theorem C72_segments (hS : S.Closed valid) (hc : S.AllConvex valid) {x : Traj L K} {y : TTraj L K} (h : S.Mirrors valid x y) :
    S.ttSegments y = .ok x.segments := by
  obtain ⟨-, ⟨s, p, p', e, e', g, h1, rfl, -⟩ | ⟨v, pts, rfl, h⟩⟩ := h
  · rw [h1]; rfl
  · show pts.mapM (S.ttSegment v) = _
    generalize x.segments = l at h
    induction h with
    | nil => rfl
    | cons h1 _ ih => rw [List.mapM_cons, C72_segment hS hc h1, ih]; rfl

theorem along_none (hS : S.Closed valid) {x : Traj L K} (hx : S.IsTraj valid x) {s : Seg L K} {p p' : Poly K} {e e' : ℕ} {g : Similarity K}
    (hs : x.segments = [s]) (h : S.IsAlong valid s p p' e e' g) : x.forward = none ∧ x.backward = none := by
  obtain ⟨a, ha, h1⟩ := hx.forward
  obtain ⟨b, hb, h2⟩ := hx.backward
  rw [hs] at ha hb
  simp only [List.getLast?_singleton, List.head?_cons, Option.some.injEq] at ha hb
  subst ha
  subst hb
  rw [setup_none (singular_iff.2 ⟨e', h.position'⟩)] at h1
  rw [setup_none (singular_iff.2 ⟨e, h.position⟩)] at h2
  injection h1 with h1
  injection h2 with h2
  exact ⟨h1.symm, h2.symm⟩

theorem forall₂_getLast? {α β : Type} {R : α → β → Prop} {l : List α} {m : List β} (h : List.Forall₂ R l m) {b : β} (hb : m.getLast? = some b) :
    ∃ a, l.getLast? = some a ∧ R a b := by
  induction h with
  | nil => cases hb
  | @cons a' b' l' m' h1 h2 ih =>
    cases h2 with
    | nil => simp only [List.getLast?_singleton, Option.some.injEq] at hb; subst hb; exact ⟨a', rfl, h1⟩
    | cons h3 h4 =>
      rw [List.getLast?_cons_cons] at hb ⊢
      exact ih hb

theorem forall₂_head? {α β : Type} {R : α → β → Prop} {l : List α} {m : List β} (h : List.Forall₂ R l m) {b : β} (hb : m.head? = some b) :
    ∃ a, l.head? = some a ∧ R a b := by
  cases h with
  | nil => cases hb
  | cons h1 _ => simp only [List.head?_cons, Option.some.injEq] at hb; subst hb; exact ⟨_, rfl, h1⟩

theorem setup_forward (hS : S.Closed valid) {s : Seg L K} (hs : S.IsSeg valid s) {f : Option (TVec L K)} (h : S.setup s.stop = .ok f) :
    (f = none ∧ s.stop.singular = true) ∨ ∃ s', f = some s'.start ∧ s.stop.singular = false ∧ S.Follows s s' ∧ S.IsSeg valid s' := by
  rcases isSeg_setup hS hs with ⟨k1, k2⟩ | ⟨s', k1, k2, k3, -, k4, -⟩ <;> rw [h] at k2 <;> injection k2 with k2
  · exact .inl ⟨k2, k1⟩
  · exact .inr ⟨s', k2, k1, k3, k4⟩

/-- **C72.** A trajectory through interval maps recognises that it runs into a vertex if and only if no other vertex is in the way. -/
theorem C72_forward_separatrix (hS : S.Closed valid) (ht : S.Translation valid) (hc : S.AllConvex valid) {x : Traj L K} {y : TTraj L K}
    (h : S.Mirrors valid x y) {last : Seg L K} (hl : x.segments.getLast? = some last) :
    ∃ b, S.ttIsForwardSeparatrix y = .ok b ∧ (b = true → x.forward = none) ∧ (x.forward = none → S.Clear last → b = true) ∧
      (b = true → S.Clear last ∨ ∃ s, y = .edge s) := by
  obtain ⟨hx, ⟨s, p, p', e, e', g, h1, rfl, hal⟩ | ⟨v, pts, rfl, h⟩⟩ := h
  · exact ⟨true, rfl, fun _ => (along_none hS hx h1 hal).1, fun _ _ => rfl, fun _ => .inr ⟨s, rfl⟩⟩
  · obtain ⟨t, ht1, ht2⟩ := forall₂_getLast? h hl
    obtain ⟨t', k1, k2, k3⟩ := stands_next hS ht hc ht2
    refine ⟨decide (t'.2.2 = 0), ?_, ?_⟩
    · unfold ttIsForwardSeparatrix
      simp only [ht1, k1, bind, Except.bind, pure, Except.pure]
    obtain ⟨a, ha, hset⟩ := hx.forward
    rw [hl] at ha; injection ha with ha; subst ha
    rcases setup_forward hS (isSeg_of_stands ht2) hset with ⟨m1, m2⟩ | ⟨s', m1, m2, m3, m4⟩
    · simp only [decide_eq_true_eq, k3 m2, m1, implies_true, true_and]
      exact ⟨fun _ => id, .inl⟩
    · have := (k2 s' m4 m3).2
      simp [this, m1]

/-- **C72.** A trajectory through interval maps starts at a vertex if and only if the trajectory does. -/
theorem C72_backward_separatrix (hS : S.Closed valid) {x : Traj L K} {y : TTraj L K} (h : S.Mirrors valid x y) :
    ttIsBackwardSeparatrix y = .ok x.backward.isNone := by
  obtain ⟨hx, ⟨s, p, p', e, e', g, h1, rfl, hal⟩ | ⟨v, pts, rfl, h⟩⟩ := h
  · rw [(along_none hS hx h1 hal).2]; rfl
  · obtain ⟨a, ha, hset⟩ := hx.backward
    obtain ⟨t, ht1, ht2⟩ := forall₂_head? h ha
    unfold ttIsBackwardSeparatrix
    simp only [ht1]
    congr 1
    have hs := isSeg_invert hS.bordered (isSeg_of_stands ht2)
    rcases setup_forward hS hs hset with ⟨m1, m2⟩ | ⟨s', m1, m2, -⟩
    · have m2 : a.start.singular = true := m2
      simp [m1, (stands_singular hS ht2).2 m2]
    · have m2 : a.start.singular = false := m2
      have : ¬ t.2.2 = 0 := by rw [stands_singular hS ht2, m2]; simp
      simp [m1, this]

/-- **C72.** A trajectory through interval maps that does not miss the vertex it runs into is a saddle connection if and only if the trajectory is one. -/
theorem C72_saddle_connection_partial (hS : S.Closed valid) (ht : S.Translation valid) (hc : S.AllConvex valid) {x : Traj L K} {y : TTraj L K}
    (h : S.Mirrors valid x y) {last : Seg L K} (hl : x.segments.getLast? = some last) (hcl : x.forward = none → S.Clear last) :
    S.ttIsSaddleConnection y = .ok x.isSaddleConnection := by
  obtain ⟨b, k1, k2, k3, -⟩ := C72_forward_separatrix hS ht hc h hl
  have k4 := C72_backward_separatrix hS h
  have hb : b = x.forward.isNone := by
    rw [Bool.eq_iff_iff, Option.isNone_iff_eq_none]
    exact ⟨k2, fun h => k3 h (hcl h)⟩
  have hfin : (do if ← S.ttIsForwardSeparatrix y then ttIsBackwardSeparatrix y else return false : Except Err Bool) = .ok x.isSaddleConnection := by
    simp only [k1, k4, hb, bind, Except.bind, pure, Except.pure]
    unfold Traj.isSaddleConnection
    cases x.forward.isNone <;> rfl
  cases y with
  | points v pts => exact hfin
  | edge s =>
    rw [← hfin]
    rfl

variable [DecidableEq L]

/-- The trajectory is closed if and only if the triple that comes next is the first one. -/
theorem closed_next (hS : S.Closed valid) {x : Traj L K} (hx : S.IsTraj valid x) {v : Vec K} {t t' : L × ℕ × K} {first s' : Seg L K}
    (h1 : x.segments.head? = some first) (hfirst : S.Stands valid v t first) (hf : x.forward = some s'.start) (hs' : S.Stands valid v t' s') :
    x.isClosed = true ↔ t' = t := by
  rw [closed_iff x hf h1, differs_iff hS.bordered (isSeg_of_stands hs') (isSeg_of_stands hfirst), stands_inj hS hs' hfirst]
  constructor
  · rintro ⟨c, -, h⟩
    exact stands_scale hS hs' hfirst h
  · rintro rfl
    refine ⟨1, one_pos, ?_⟩
    unfold Seg.scale TVec.scale
    simp

/-- **C72.** As long as the trajectory does not run into a vertex, it is closed if and only if the trajectory through interval maps is. -/
theorem C72_closed_partial (hS : S.Closed valid) (ht : S.Translation valid) (hc : S.AllConvex valid) {x : Traj L K} {y : TTraj L K}
    (h : S.Mirrors valid x y) (hf : x.forward ≠ none) : S.ttIsClosed y = .ok x.isClosed := by
  obtain ⟨hx, ⟨s, p, p', e, e', g, h1, rfl, hal⟩ | ⟨v, pts, rfl, h⟩⟩ := h
  · exact absurd (along_none hS hx h1 hal).1 hf
  · obtain ⟨a, ha, hset⟩ := hx.forward
    obtain ⟨b, hb, -⟩ := hx.backward
    obtain ⟨t, ht1, ht2⟩ := forall₂_getLast? h ha
    obtain ⟨t0, ht3, ht4⟩ := forall₂_head? h hb
    obtain ⟨t', k1, k2, -⟩ := stands_next hS ht hc ht2
    rcases setup_forward hS (isSeg_of_stands ht2) hset with ⟨m1, -⟩ | ⟨s', m1, m2, m3, m4⟩
    · exact absurd m1 hf
    · unfold ttIsClosed
      simp only [ht1, ht3, k1, bind, Except.bind, pure, Except.pure]
      congr 1
      rw [Bool.eq_iff_iff, decide_eq_true_eq, closed_next hS hx hb ht4 m1 (k2 s' m4 m3).1]
      exact eq_comm

/-- To flow forward. -/
theorem mirrors_forward (hS : S.Closed valid) (ht : S.Translation valid) (hc : S.AllConvex valid) (n : ℕ) {x z : Traj L K} (hx : S.IsTraj valid x)
    {v : Vec K} {pts : List (L × ℕ × K)} (h : List.Forall₂ (S.Stands valid v) pts x.segments) {first t : L × ℕ × K} (h1 : pts.head? = some first)
    (h2 : pts.getLast? = some t) (hz : S.flowForward n x = .ok z)
    (hcl : z.forward = none → ∀ last, z.segments.getLast? = some last → S.Clear last) :
    ∃ r, S.ttForward v first n t = .ok r ∧ List.Forall₂ (S.Stands valid v) (pts ++ r) z.segments := by
  induction n generalizing x pts t with
  | zero =>
    injection hz with hz
    subst hz
    exact ⟨[], rfl, by rw [List.append_nil]; exact h⟩
  | succ n ih =>
    obtain ⟨a, ha, hset⟩ := hx.forward
    obtain ⟨b, hb, -⟩ := hx.backward
    obtain ⟨ta, ht1, ht2⟩ := forall₂_getLast? h ha
    obtain ⟨tb, ht3, ht4⟩ := forall₂_head? h hb
    rw [h2] at ht1; injection ht1 with ht1; subst ht1
    rw [h1] at ht3; injection ht3 with ht3; subst ht3
    obtain ⟨t', k1, k2, k3⟩ := stands_next hS ht hc ht2
    unfold flowForward at hz
    rcases setup_forward hS (isSeg_of_stands ht2) hset with ⟨m1, m2⟩ | ⟨s', m1, m2, m3, m4⟩
    · rw [m1] at hz
      injection hz with hz
      subst hz
      refine ⟨[], ?_, by rw [List.append_nil]; exact h⟩
      unfold ttForward
      simp only [k1, bind, Except.bind]
      rw [if_pos (.inr ((k3 m2).2 (hcl m1 a ha)))]
      rfl
    · obtain ⟨k4, k5⟩ := k2 s' m4 m3
      have hcn := closed_next hS hx hb ht4 m1 k4
      rw [m1] at hz
      dsimp only at hz
      by_cases hclo : x.isClosed = true
      · rw [if_pos hclo] at hz
        injection hz with hz
        subst hz
        refine ⟨[], ?_, by rw [List.append_nil]; exact h⟩
        unfold ttForward
        simp only [k1, bind, Except.bind]
        rw [if_pos (.inl (hcn.1 hclo))]
        rfl
      · rw [if_neg hclo] at hz
        obtain ⟨s, f', q1, q2, q3, q4, q5, -, q6⟩ := flowForward_step hS hx m1
        simp only [q1, q3, bind, Except.bind] at hz
        have hss : s = s' := isSeg_ext hS.bordered q4 m4 q2
        subst hss
        have hF : List.Forall₂ (S.Stands valid v) (pts ++ [t']) (x.segments ++ [s]) := List.rel_append h (.cons k4 .nil)
        obtain ⟨r, r1, r2⟩ := ih q6 hF (t := t') (by cases pts with | nil => cases h1 | cons => exact h1) (by simp) hz
        refine ⟨t' :: r, ?_, by rw [List.append_cons]; exact r2⟩
        unfold ttForward
        simp only [k1, bind, Except.bind]
        rw [if_neg (by rintro (h | h); exacts [hclo (hcn.2 h), k5 h])]
        simp only [r1, pure, Except.pure]

theorem start_singular (hS : S.Closed valid) {x : Traj L K} (hx : S.IsTraj valid x) {b : TVec L K} (hb : x.backward = some b) {s : Seg L K}
    (hs : s ∈ x.segments) : s.start.singular = false := by
  obtain ⟨a, ha, hset⟩ := hx.backward
  rw [hb] at hset
  have ha' : a.start.singular = false := by
    cases h : a.start.singular with
    | false => rfl
    | true => rw [setup_none h] at hset; injection hset with hset; cases hset
  have hch := hx.chain
  have hseg := hx.seg
  cases hl : x.segments with
  | nil => rw [hl] at hs; cases hs
  | cons c l =>
    rw [hl] at hs hch hseg ha
    simp only [List.head?_cons, Option.some.injEq] at ha
    subst ha
    have key : ∀ (l : List (Seg L K)) (c : Seg L K), c.start.singular = false → (c :: l).IsChain S.Follows → (∀ u ∈ c :: l, S.IsSeg valid u) →
        ∀ u ∈ c :: l, u.start.singular = false := by
      intro l
      induction l with
      | nil =>
        intro c hc _ _ u hu
        rw [List.mem_singleton] at hu
        rw [hu]; exact hc
      | cons d l ih =>
        intro c hc hch hseg u hu
        rcases List.mem_cons.1 hu with hu | hu
        · rw [hu]; exact hc
        · have hf : S.Follows c d := (List.isChain_cons_cons.1 hch).1
          obtain ⟨s', m1, -, -, m2, -⟩ := isSeg_next hS (hseg c (by simp)) hf.1
          rw [hf.2] at m1; injection m1 with m1
          exact ih d (by rw [m1]; exact m2) (List.isChain_cons_cons.1 hch).2 (fun u hu => hseg u (List.mem_cons_of_mem _ hu)) u hu
    exact key l c ha' hch hseg s hs

/-- To flow backward. -/
theorem mirrors_backward (hS : S.Closed valid) (ht : S.Translation valid) (hc : S.AllConvex valid) (n : ℕ) {x z : Traj L K} (hx : S.IsTraj valid x)
    {v : Vec K} {pts : List (L × ℕ × K)} (h : List.Forall₂ (S.Stands valid v) pts x.segments) {last t : L × ℕ × K} (h1 : pts.head? = some t)
    (h2 : pts.getLast? = some last) (hz : S.flowBackward n x = .ok z)
    (hcl : x.backward ≠ none → z.backward = none → ∀ first, z.segments.head? = some first → S.ClearBack first) :
    ∃ r, S.ttBackward v last n t = .ok r ∧ List.Forall₂ (S.Stands valid v) (r.reverse ++ pts) z.segments := by
  induction n generalizing x pts t with
  | zero =>
    injection hz with hz
    subst hz
    exact ⟨[], rfl, h⟩
  | succ n ih =>
    obtain ⟨a, ha, hseta⟩ := hx.forward
    obtain ⟨b, hb, hset⟩ := hx.backward
    obtain ⟨ta, ht1, ht2⟩ := forall₂_getLast? h ha
    obtain ⟨tb, ht3, ht4⟩ := forall₂_head? h hb
    rw [h2] at ht1; injection ht1 with ht1; subst ht1
    rw [h1] at ht3; injection ht3 with ht3; subst ht3
    unfold flowBackward at hz
    cases hbk : x.backward with
    | none =>
      rw [hbk] at hz
      injection hz with hz
      subst hz
      refine ⟨[], ?_, h⟩
      have hsing : b.start.singular = true := by
        rcases setup_forward hS (isSeg_invert hS.bordered (isSeg_of_stands ht4)) hset with ⟨-, m⟩ | ⟨s', m, -⟩
        · exact m
        · rw [hbk] at m; cases m
      unfold ttBackward
      rw [if_pos ((stands_singular hS ht4).2 hsing)]
      rfl
    | some bv =>
      rw [hbk] at hz
      dsimp only at hz
      obtain ⟨s, b', q1, q2, q3, q4, q5, ⟨a', qa1, qa2, qa3, qa4⟩, q6⟩ := flowBackward_step hS hx hbk
      rw [hb] at qa1; injection qa1 with qa1; subst qa1
      have hsi := isSeg_invert hS.bordered q4
      have hx0 : ¬ t.2.2 = 0 := by rw [stands_singular hS ht4, qa4]; simp
      obtain ⟨t', k1, k2, -⟩ := stands_previous hS ht hc ht4 hsi qa2
      -- the trajectory is closed if and only if the segment before is the last one
      have hlast : x.isClosed = true ↔ s.invert = a := by
        constructor
        · intro hclo
          rcases setup_forward hS (isSeg_of_stands ht2) hseta with ⟨m1, -⟩ | ⟨s', m1, m2, m3, m4⟩
          · unfold Traj.isClosed at hclo; rw [m1] at hclo; cases hclo
          · obtain ⟨t'', r1, r2, -⟩ := stands_next hS ht hc ht2
            obtain ⟨r3, -⟩ := r2 s' m4 m3
            have := (closed_next hS hx hb ht4 m1 r3).1 hclo
            have hsb := (stands_inj hS r3 ht4).1 this
            subst hsb
            have e1 := follows_back hS (isSeg_of_stands ht2) m4 m3
            have e1' : S.tvInvert s'.start = .ok a.stop := e1.2
            rw [qa3] at e1'
            injection e1' with e1'
            have : s = a.invert := isSeg_ext hS.bordered q4 (isSeg_invert hS.bordered (isSeg_of_stands ht2)) (by rw [q2, e1']; rfl)
            rw [this]; rfl
        · intro hsa
          have hfol : S.Follows a b := hsa ▸ qa2
          rcases setup_forward hS (isSeg_of_stands ht2) hseta with ⟨-, m2⟩ | ⟨s', m1, m2, m3, m4⟩
          · rw [hfol.1] at m2; cases m2
          · have e1 := m3.2
            rw [hfol.2] at e1
            injection e1 with e1
            have hbs : b = s' := isSeg_ext hS.bordered (isSeg_of_stands ht4) m4 e1
            subst hbs
            exact (closed_next hS hx hb ht4 m1 ht4).2 rfl
      by_cases hclo : x.isClosed = true
      · rw [if_pos hclo] at hz
        injection hz with hz
        subst hz
        refine ⟨[], ?_, h⟩
        have hsa := hlast.1 hclo
        have hns : s.invert.start.singular = false := by
          rw [hsa]; exact start_singular hS hx hbk (List.mem_of_getLast? ha)
        have hst := k2 (.inl hns)
        have htt : t' = last := (stands_inj hS hst ht2).2 hsa
        unfold ttBackward
        rw [if_neg hx0]
        simp only [k1, bind, Except.bind]
        rw [if_pos htt]
        rfl
      · rw [if_neg hclo] at hz
        have h3' : S.setup s.invert.start = .ok b' := q3
        simp only [q1, h3', bind, Except.bind] at hz
        have hor : s.invert.start.singular = false ∨ S.ClearBack s.invert := by
          rcases setup_forward hS q4 q3 with ⟨m1, m2⟩ | ⟨s', -, m2, -⟩
          · right
            subst m1
            have hzz : z = ⟨s.invert :: x.segments, x.forward, none⟩ := by
              cases n with
              | zero => injection hz with hz; exact hz.symm
              | succ n => unfold flowBackward at hz; injection hz with hz; exact hz.symm
            exact hcl (by rw [hbk]; simp) (by rw [hzz]) s.invert (by rw [hzz]; rfl)
          · exact .inl m2
        have hst := k2 hor
        have hne : t' ≠ last := fun he => hclo (hlast.2 ((stands_inj hS hst ht2).1 he))
        have hF : List.Forall₂ (S.Stands valid v) (t' :: pts) (s.invert :: x.segments) := .cons hst h
        obtain ⟨r, r1, r2⟩ := ih q6 hF (t := t') rfl (by cases pts with | nil => cases h1 | cons => rw [List.getLast?_cons_cons]; exact h2) hz
          (fun _ => hcl (by rw [hbk]; simp))
        refine ⟨t' :: r, ?_, by simpa using r2⟩
        unfold ttBackward
        rw [if_neg hx0]
        simp only [k1, bind, Except.bind]
        rw [if_neg hne]
        simp only [r1, pure, Except.pure]

/-- **C72.** A trajectory through interval maps flows like the trajectory, unless it misses the vertex into which the trajectory runs. -/
theorem C72_flow_partial (hS : S.Closed valid) (ht : S.Translation valid) (hc : S.AllConvex valid) {x z : Traj L K} {y : TTraj L K}
    (h : S.Mirrors valid x y) (n : ℤ) (hz : S.flowSteps n x = .ok z)
    (hcl : 0 ≤ n → z.forward = none → ∀ last, z.segments.getLast? = some last → S.Clear last)
    (hcl' : n < 0 → z.backward = none → x.backward ≠ none → ∀ first, z.segments.head? = some first → S.ClearBack first) :
    ∃ w, S.ttFlow n y = .ok w ∧ S.Mirrors valid z w := by
  obtain ⟨hx, h⟩ := h
  have hzt : S.IsTraj valid z := by
    unfold flowSteps at hz
    split_ifs at hz
    · obtain ⟨z', l, k1, k2, -⟩ := C67_flow_forward hS n.toNat hx
      rw [hz] at k1; injection k1 with k1; subst k1; exact k2
    · obtain ⟨z', l, k1, k2, -⟩ := C67_flow_backward hS (-n).toNat hx
      rw [hz] at k1; injection k1 with k1; subst k1; exact k2
  obtain ⟨s, p, p', e, e', g, h1, rfl, hal⟩ | ⟨v, pts, rfl, h⟩ := h
  · refine ⟨.edge s, rfl, hzt, .inl ⟨s, p, p', e, e', g, ?_, rfl, hal⟩⟩
    obtain ⟨n1, n2⟩ := along_none hS hx h1 hal
    have hzx : z = x := by
      unfold flowSteps at hz
      split_ifs at hz
      · cases hm : n.toNat with
        | zero => rw [hm] at hz; injection hz with hz; exact hz.symm
        | succ m => rw [hm] at hz; unfold flowForward at hz; rw [n1] at hz; injection hz with hz; exact hz.symm
      · cases hm : (-n).toNat with
        | zero => rw [hm] at hz; injection hz with hz; exact hz.symm
        | succ m => rw [hm] at hz; unfold flowBackward at hz; rw [n2] at hz; injection hz with hz; exact hz.symm
    rw [hzx, h1]
  · obtain ⟨a, ha, -⟩ := hx.forward
    obtain ⟨b, hb, -⟩ := hx.backward
    obtain ⟨ta, ht1, ht2⟩ := forall₂_getLast? h ha
    obtain ⟨tb, ht3, ht4⟩ := forall₂_head? h hb
    unfold flowSteps at hz
    unfold ttFlow
    simp only [ht1, ht3]
    by_cases hn : 0 ≤ n
    · rw [if_pos hn] at hz ⊢
      obtain ⟨r, r1, r2⟩ := mirrors_forward hS ht hc n.toNat hx h ht3 ht1 hz (hcl hn)
      exact ⟨.points v (pts ++ r), by simp only [r1, bind, Except.bind, pure, Except.pure], hzt, .inr ⟨_, _, rfl, r2⟩⟩
    · rw [if_neg hn] at hz ⊢
      obtain ⟨r, r1, r2⟩ := mirrors_backward hS ht hc (-n).toNat hx h ht3 ht1 hz (fun h1 h2 => hcl' (not_le.1 hn) h2 h1)
      exact ⟨.points v (r.reverse ++ pts), by simp only [r1, bind, Except.bind, pure, Except.pure], hzt, .inr ⟨_, _, rfl, r2⟩⟩

/-! ## Surfaces built from triangles -/

omit [DecidableEq L] in
/-- In triangles, no vertex is in the way. -/
theorem clear_triangle (hS : S.Closed valid) (hc : S.AllConvex valid) (h3 : ∀ l p, valid l → S.polygon l = .ok p → p.length = 3) {s : Seg L K}
    (hs : ∃ p τ, S.IsChord valid s p τ) : (s.stop.singular = true → S.Clear s) ∧ (s.start.singular = true → S.ClearBack s) := by
  obtain ⟨p, τ, hch⟩ := hs
  have hv := hS.bordered.valid_of_polygon hch.valid hch.polygon
  have hp3 := h3 _ _ hch.valid hch.polygon
  have hvm : ∀ {i j : ℕ}, i % 3 = j % 3 → p.vertex i = p.vertex j := fun {i j} h => by
    rw [← vertex_mod p i, ← vertex_mod p j, hp3, h]
  have hstop : across s.start.vector s.stop.point = across s.start.vector s.start.point := by rw [hch.stop, across_line]
  constructor
  · intro hsing q e k hq he hk hkw hbt
    rw [hch.polygon] at hq; injection hq with hq; subst hq
    obtain ⟨e', u, m1, m2, m3, m4, m5, m6⟩ := chord_start hS hc hch
    have hee : e = e' := by
      rcases he with he | he <;> rcases m1 with m1 | m1 <;> rw [he] at m1 <;> injection m1
    subst hee
    obtain ⟨i, hi⟩ := singular_iff.1 hsing
    rw [hch.position', C12_vertex hv] at hi
    obtain ⟨hi, hpt⟩ := hi
    rw [hpt] at hstop
    rw [m6, across_edge] at hbt hstop
    have hw : across s.start.vector (p.vertex (e + 1)) = across s.start.vector (p.vertex e) + p.width s.start.vector e := by rw [width_eq]; ring
    have hu : u * p.width s.start.vector e < p.width s.start.vector e := by nlinarith
    -- the vertex in the way is the third one
    have hk2 : (k + 1) % 3 = (e + 2) % 3 := by
      by_contra hne
      have : (k + 1) % 3 = e % 3 ∨ (k + 1) % 3 = (e + 1) % 3 := by omega
      rcases this with h | h
      · rw [hvm h] at hbt; exact lt_irrefl _ hbt.1
      · rw [hvm h] at hbt; linarith [hbt.2]
    have : i % 3 = e % 3 ∨ i % 3 = (e + 1) % 3 ∨ i % 3 = (e + 2) % 3 := by omega
    rcases this with h | h | h
    · rw [hvm h] at hstop; linarith [hbt.1, hbt.2]
    · rw [hvm h] at hstop; linarith
    · rw [hvm (h.trans hk2.symm)] at hstop; linarith [hbt.2]
  · intro hsing q j k hq hj hk hkw hbt
    rw [hch.polygon] at hq; injection hq with hq; subst hq
    have hi := isChord_invert hch
    obtain ⟨j', u, m1, m2, m3, m4, m5, m6⟩ := chord_start hS hc hi
    have m1 : s.stop.position = .edgeInterior j' ∨ s.stop.position = .vertex j' := m1
    have m3 : 0 < p.width s.stop.vector j' := m3
    have m6 : s.stop.point = p.vertex j' + u • p.edge j' := m6
    have hjj : j = j' := by
      rcases m1 with m1 | m1 <;> rw [hj] at m1 <;> injection m1
    subst hjj
    rw [hch.vector, width_neg] at m3
    obtain ⟨i, hi⟩ := singular_iff.1 hsing
    rw [hch.position, C12_vertex hv] at hi
    obtain ⟨hi, hpt⟩ := hi
    rw [m6, across_edge, hpt] at hstop
    rw [hpt] at hbt
    have hw : across s.start.vector (p.vertex (j + 1)) = across s.start.vector (p.vertex j) + p.width s.start.vector j := by rw [width_eq]; ring
    rw [hj] at m1
    have hu0 : 0 < u := by
      rw [hch.position'] at hj
      obtain ⟨-, u', u0', u1', hu'⟩ := (C12_edge hv _ j).1 hj
      rw [m6] at hu'
      have h1 := congrArg (across s.start.vector) hu'
      rw [across_edge, across_edge] at h1
      have : u = u' := by
        have := add_left_cancel h1
        exact mul_right_cancel₀ (by linarith) this
      rw [this]; exact u0'
    have hk2 : k % 3 = (j + 2) % 3 := by
      by_contra hne
      have : k % 3 = j % 3 ∨ k % 3 = (j + 1) % 3 := by omega
      rcases this with h | h
      · rw [hvm h] at hbt; nlinarith [hbt.2]
      · rw [hvm h] at hbt; exact lt_irrefl _ hbt.1
    have : i % 3 = j % 3 ∨ i % 3 = (j + 1) % 3 ∨ i % 3 = (j + 2) % 3 := by omega
    rcases this with h | h | h
    · rw [hvm h] at hstop; nlinarith
    · rw [hvm h] at hbt; linarith [hbt.1, hbt.2]
    · rw [hvm (h.trans hk2.symm)] at hbt; exact lt_irrefl _ hbt.2

omit [DecidableEq L] in
theorem chords_of_chain (hS : S.Closed valid) {z : Traj L K} (hz : S.IsTraj valid z) (h : ∃ s ∈ z.segments, ∃ p τ, S.IsChord valid s p τ) :
    ∀ s ∈ z.segments, ∃ p τ, S.IsChord valid s p τ := by
  have hch := hz.chain
  have hseg := hz.seg
  generalize z.segments = l at h hch hseg
  induction l with
  | nil => exact fun s hs => absurd hs (by simp)
  | cons c l ih =>
    cases l with
    | nil =>
      obtain ⟨s, hs, hc⟩ := h
      intro u hu
      rw [List.mem_singleton] at hs hu
      rw [hu, ← hs]; exact hc
    | cons d l =>
      have hf : S.Follows c d := (List.isChain_cons_cons.1 hch).1
      have h1 := hseg c (by simp)
      have h2 := follows_chord hS (hseg d (by simp)) hf h1
      have h3 := ih ⟨d, by simp, h2⟩ (List.isChain_cons_cons.1 hch).2 (fun u hu => hseg u (List.mem_cons_of_mem _ hu))
      intro u hu
      rcases List.mem_cons.1 hu with rfl | hu
      · rcases h1 with h1 | ⟨p, p', e, e', g, h1⟩
        · exact h1
        · have := hf.1
          rw [singular_iff.2 ⟨e', h1.position'⟩] at this
          cases this
      · exact h3 u hu

omit [DecidableEq L] in
theorem mirrors_chord {x : Traj L K} {y : TTraj L K} (h : S.Mirrors valid x y) :
    (∃ s p p' e e' g, x.segments = [s] ∧ y = .edge s ∧ S.IsAlong valid s p p' e e' g) ∨ ∀ s ∈ x.segments, ∃ p τ, S.IsChord valid s p τ := by
  obtain ⟨-, h | ⟨v, pts, rfl, h⟩⟩ := h
  · exact .inl h
  · right
    intro s hs
    obtain ⟨i, hi, rfl⟩ := List.getElem_of_mem hs
    obtain ⟨hlen, hget⟩ := List.forall₂_iff_get.1 h
    obtain ⟨-, -, p, τ, hch, -⟩ := hget i (hlen ▸ hi) hi
    exact ⟨p, τ, hch⟩

/-- **C72.** On translation surfaces built from triangles, trajectories through interval maps do the same as trajectories: from every
tangent vector, one can flow back and forth any number of times, and always has the same segments and recognises the same vertices. -/
theorem C72_triangles (hS : S.Closed valid) (ht : S.Translation valid) (hc : S.AllConvex valid)
    (h3 : ∀ l p, valid l → S.polygon l = .ok p → p.length = 3) {t : TVec L K} (htt : S.IsTangent valid t) (steps : List ℤ) :
    ∃ x0 y0 x y, S.trajectory t = .ok x0 ∧ S.ttNew t = .ok y0 ∧ steps.foldlM (fun x n => S.flowSteps n x) x0 = .ok x ∧
      steps.foldlM (fun y n => S.ttFlow n y) y0 = .ok y ∧ S.ttSegments y = .ok x.segments ∧
      S.ttIsForwardSeparatrix y = .ok x.forward.isNone ∧ ttIsBackwardSeparatrix y = .ok x.backward.isNone ∧
      S.ttIsSaddleConnection y = .ok x.isSaddleConnection ∧ (x.forward ≠ none → S.ttIsClosed y = .ok x.isClosed) := by
  obtain ⟨x0, y0, h1, h2, h4⟩ := C72_new hS hc htt
  have hstop : ∀ {x : Traj L K} {y : TTraj L K}, S.Mirrors valid x y → x.forward = none → ∀ last, x.segments.getLast? = some last →
      (∃ s, y = .edge s) ∨ S.Clear last := by
    intro x y h hf last hl
    rcases mirrors_chord h with ⟨s, -, -, -, -, -, -, hy, -⟩ | hall
    · exact .inl ⟨s, hy⟩
    · right
      obtain ⟨a, ha, hset⟩ := h.1.forward
      rw [hl] at ha; injection ha with ha; subst ha
      have hmem := List.mem_of_getLast? hl
      rcases setup_forward hS (h.1.seg _ hmem) hset with ⟨-, m⟩ | ⟨s', m, -⟩
      · exact (clear_triangle hS hc h3 (hall _ hmem)).1 m
      · rw [hf] at m; cases m
  have key : ∀ (steps : List ℤ) (x : Traj L K) (y : TTraj L K), S.Mirrors valid x y → ∃ x' y', steps.foldlM (fun x n => S.flowSteps n x) x = .ok x' ∧
      steps.foldlM (fun y n => S.ttFlow n y) y = .ok y' ∧ S.Mirrors valid x' y' := by
    intro steps
    induction steps with
    | nil => exact fun x y h => ⟨x, y, rfl, rfl, h⟩
    | cons n steps ih =>
      intro x y h
      have : ∃ z w, S.flowSteps n x = .ok z ∧ S.ttFlow n y = .ok w ∧ S.Mirrors valid z w := by
        have hz : ∃ z, S.flowSteps n x = .ok z ∧ S.IsTraj valid z ∧ ((∃ l, z.segments = x.segments ++ l) ∨ ∃ l, z.segments = l ++ x.segments) := by
          unfold flowSteps
          split_ifs
          · obtain ⟨z, l, k1, k2, k3, -⟩ := C67_flow_forward hS n.toNat h.1
            exact ⟨z, k1, k2, .inl ⟨l, k3⟩⟩
          · obtain ⟨z, l, k1, k2, k3, -⟩ := C67_flow_backward hS (-n).toNat h.1
            exact ⟨z, k1, k2, .inr ⟨l, k3⟩⟩
        obtain ⟨z, hz, hzt, hzl⟩ := hz
        rcases mirrors_chord h with ⟨s, p, p', e, e', g, hs, hy, hal⟩ | hall
        · -- along an edge, nothing happens
          obtain ⟨n1, n2⟩ := along_none hS h.1 hs hal
          have hzx : z = x := by
            unfold flowSteps at hz
            split_ifs at hz
            · cases hm : n.toNat with
              | zero => rw [hm] at hz; injection hz with hz; exact hz.symm
              | succ m => rw [hm] at hz; unfold flowForward at hz; rw [n1] at hz; injection hz with hz; exact hz.symm
            · cases hm : (-n).toNat with
              | zero => rw [hm] at hz; injection hz with hz; exact hz.symm
              | succ m => rw [hm] at hz; unfold flowBackward at hz; rw [n2] at hz; injection hz with hz; exact hz.symm
          refine ⟨z, y, hz, by rw [hy]; rfl, by rw [hzx]; exact h⟩
        · -- all segments are chords
          have hne : ∃ s ∈ z.segments, ∃ p τ, S.IsChord valid s p τ := by
            obtain ⟨a, ha, -⟩ := h.1.forward
            have hmem := List.mem_of_getLast? ha
            rcases hzl with ⟨l, hl⟩ | ⟨l, hl⟩
            · exact ⟨a, by rw [hl]; exact List.mem_append_left _ hmem, hall a hmem⟩
            · exact ⟨a, by rw [hl]; exact List.mem_append_right _ hmem, hall a hmem⟩
          have hzall := chords_of_chain hS hzt hne
          obtain ⟨w, k1, k2⟩ := C72_flow_partial hS ht hc h n hz
            (fun _ hf last hl => by
              obtain ⟨a, ha, hset⟩ := hzt.forward
              rw [hl] at ha; injection ha with ha; subst ha
              have hmem := List.mem_of_getLast? hl
              rcases setup_forward hS (hzt.seg _ hmem) hset with ⟨-, m⟩ | ⟨s', m, -⟩
              · exact (clear_triangle hS hc h3 (hzall _ hmem)).1 m
              · rw [hf] at m; cases m)
            (fun _ hb _ first hl => by
              obtain ⟨a, ha, hset⟩ := hzt.backward
              rw [hl] at ha; injection ha with ha; subst ha
              have hmem := List.mem_of_head? hl
              rcases setup_forward hS (isSeg_invert hS.bordered (hzt.seg _ hmem)) hset with ⟨-, m⟩ | ⟨s', m, -⟩
              · exact (clear_triangle hS hc h3 (hzall _ hmem)).2 m
              · rw [hb] at m; cases m)
          exact ⟨z, w, hz, k1, k2⟩
      obtain ⟨z, w, k1, k2, k3⟩ := this
      obtain ⟨x', y', m1, m2, m3⟩ := ih z w k3
      refine ⟨x', y', ?_, ?_, m3⟩
      · rw [List.foldlM_cons, k1]; exact m1
      · rw [List.foldlM_cons, k2]; exact m2
  obtain ⟨x, y, k1, k2, k3⟩ := key steps x0 y0 h4
  obtain ⟨last, hl, -⟩ := k3.1.forward
  obtain ⟨b, b1, b2, b3, -⟩ := C72_forward_separatrix hS ht hc k3 hl
  have hb : b = x.forward.isNone := by
    rw [Bool.eq_iff_iff, Option.isNone_iff_eq_none]
    refine ⟨b2, fun hf => ?_⟩
    rcases hstop k3 hf last hl with ⟨s, hs⟩ | hcl
    · rw [hs] at b1; injection b1 with b1; exact b1.symm
    · exact b3 hf hcl
  refine ⟨x0, y0, x, y, h1, h2, k1, k2, C72_segments hS hc k3, by rw [b1, hb], C72_backward_separatrix hS k3, ?_,
    fun hf => C72_closed_partial hS ht hc k3 hf⟩
  by_cases he : ∃ s, y = .edge s
  · obtain ⟨s, rfl⟩ := he
    have e1 : b = true := by injection b1 with b1; exact b1.symm
    have e2 := C72_backward_separatrix hS k3
    injection e2 with e2
    show Except.ok true = _
    unfold Traj.isSaddleConnection
    rw [← hb, e1, ← e2]
    rfl
  · exact C72_saddle_connection_partial hS ht hc k3 hl (fun hf => (hstop k3 hf last hl).resolve_left he)

end RSurf
end Flat
