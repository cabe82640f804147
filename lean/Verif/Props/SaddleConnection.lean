import Verif.Props.Saddle
import Verif.Props.SegmentEdge

/-!
# C68: the constructor of saddle connections
-/

namespace Flat
variable {L K : Type} [Field K] [LinearOrder K] [IsStrictOrderedRing K]

/-! ### The scaling of directions -/

theorem unitMax_smul {c : K} (hc : 0 < c) (v : Vec K) : unitMax (c • v) = unitMax v := by
  unfold unitMax
  simp only [Prod.smul_fst, Prod.smul_snd, smul_eq_mul, abs_mul, abs_of_pos hc, mul_lt_mul_iff_right₀ hc]
  split_ifs <;> ext <;> simp [mul_div_mul_left _ _ hc.ne']

theorem unitMax_eq {v : Vec K} (hv : v ≠ 0) : ∃ c : K, 0 < c ∧ unitMax v = c • v := by
  unfold unitMax
  split_ifs with h
  · have h0 : 0 < |v.1| := lt_of_le_of_lt (abs_nonneg _) h
    refine ⟨|v.1|⁻¹, inv_pos.2 h0, ?_⟩
    ext <;> simp [div_eq_inv_mul]
  · have h0 : 0 < |v.2| := by
      rcases (abs_nonneg v.2).lt_or_eq with h1 | h1
      · exact h1
      · exfalso
        push Not at h
        rw [← h1] at h
        have h2 := abs_eq_zero.1 h1.symm
        have h3 := abs_eq_zero.1 (le_antisymm h (abs_nonneg _))
        exact hv (Prod.ext h3 h2)
    refine ⟨|v.2|⁻¹, inv_pos.2 h0, ?_⟩
    ext <;> simp [div_eq_inv_mul]

theorem unitMax_neg (v : Vec K) : unitMax (-v) = -unitMax v := by
  unfold unitMax
  simp only [Prod.fst_neg, Prod.snd_neg, abs_neg]
  split_ifs <;> ext <;> simp [neg_div]

/-- **C68.** Two directions are scaled to the same direction if and only if they are parallel and point to the same side. -/
theorem C68_unitMax_iff {v w : Vec K} (hv : v ≠ 0) (hw : w ≠ 0) : unitMax v = unitMax w ↔ ∃ c : K, 0 < c ∧ w = c • v := by
  constructor
  · intro h
    obtain ⟨a, a0, ha⟩ := unitMax_eq hv
    obtain ⟨b, b0, hb⟩ := unitMax_eq hw
    rw [ha, hb] at h
    refine ⟨b⁻¹ * a, mul_pos (inv_pos.2 b0) a0, ?_⟩
    rw [← smul_smul, h, smul_smul, inv_mul_cancel₀ b0.ne', one_smul]
  · rintro ⟨c, c0, rfl⟩
    rw [unitMax_smul c0]

namespace RSurf
open Poly
variable {S : RSurf L K} {valid : L → Prop}

/-! ### Scaling of paths -/

theorem isChord_scale {s : Seg L K} {p : Poly K} {τ : K} (h : S.IsChord valid s p τ) {c : K} (hc : 0 < c) : S.IsChord valid (s.scale c) p (τ / c) := by
  refine ⟨h.valid, h.polygon, h.label, ?_, smul_ne hc h.ne, div_pos h.pos hc, ?_, h.side, h.side', ?_, h.position, h.position'⟩
  · show c • s.stop.vector = -(c • s.start.vector)
    rw [h.vector, smul_neg]
  · show s.stop.point = s.start.point + (τ / c) • c • s.start.vector
    rw [smul_smul, div_mul_cancel₀ _ hc.ne', h.stop]
  · intro r r0 r1
    show p.pointPosition (s.start.point + r • c • s.start.vector) = .interior
    rw [smul_smul]
    refine h.interior _ (mul_pos r0 hc) ?_
    rwa [lt_div_iff₀ hc] at r1

theorem follows_scaled (hS : S.Closed valid) {a b : Seg L K} (ha : S.IsSeg valid a) (hb : S.IsSeg valid b) (h : S.Follows a b) {c : K} (hc : 0 < c) :
    S.Follows (a.scale c) (b.scale c) := by
  obtain ⟨w, h1, -, h3, -⟩ := isSeg_next hS (isSeg_scale ha hc) (show (a.scale c).stop.singular = false from h.1)
  have hf : S.Follows (a.scale c) w := ⟨h.1, h1⟩
  have := follows_scale hS ha hb h3 h hf hc rfl
  rwa [this] at hf

theorem develops_scale {segs : List (Seg L K)} {G : Similarity K} (h : S.Develops segs G) (c : K) : S.Develops (segs.map (Seg.scale c)) G := by
  induction h with
  | single s => exact .single _
  | cons he he' hg _ ih => exact .cons (s := Seg.scale c _) he he' hg ih

theorem isDiagonal_scale (hS : S.Closed valid) {segs : List (Seg L K)} {a b : L × ℕ} {h k : Vec K} {first last : Seg L K} {G : Similarity K}
    (hd : S.IsDiagonal valid segs a h b k first last G) {c : K} (hc : 0 < c) :
    S.IsDiagonal valid (segs.map (Seg.scale c)) a h b k (first.scale c) (last.scale c) G where
  chord := by
    intro s hs
    rw [List.mem_map] at hs
    obtain ⟨x, hx, rfl⟩ := hs
    obtain ⟨p, τ, hch⟩ := hd.chord x hx
    exact ⟨p, τ / c, isChord_scale hch hc⟩
  chain := by
    rw [List.isChain_map]
    refine List.IsChain.imp_of_mem_imp ?_ hd.chain
    intro x y hx hy hf
    obtain ⟨p, τ, hx⟩ := hd.chord x hx
    obtain ⟨q, σ, hy⟩ := hd.chord y hy
    exact follows_scaled hS (.inl ⟨p, τ, hx⟩) (.inl ⟨q, σ, hy⟩) hf hc
  head := by rw [List.head?_map, hd.head]; rfl
  getLast := by rw [List.getLast?_map, hd.getLast]; rfl
  label := hd.label
  position := hd.position
  label' := hd.label'
  position' := hd.position'
  develops := develops_scale hd.develops c
  holonomy := hd.holonomy
  holonomy' := hd.holonomy'

theorem isAlong_scale {s : Seg L K} {p p' : Poly K} {e e' : ℕ} {g : Similarity K} (h : S.IsAlong valid s p p' e e' g) {c : K} (hc : 0 < c) :
    S.IsAlong valid (s.scale c) p p' e e' g := by
  refine ⟨h.valid, h.polygon, h.lt, h.opp, h.polygon', h.wf, h.sign, h.g1, h.g2, h.point, h.position, ?_, h.point', h.position', ?_⟩
  · show isParallel (p.edge e) (c • s.start.vector) = true
    have h1 := (isParallel_iff' _ _).1 h.parallel
    rw [isParallel_iff']
    constructor
    · have := h1.1; unfold ccw at *; simp; linear_combination c * this
    · have := mul_pos hc h1.2; unfold dot at *; simp; linarith
  · show c • s.stop.vector = -g.derivative.mulVec (c • s.start.vector)
    rw [h.vector]
    unfold Mat2.mulVec
    ext <;> simp <;> ring

/-! ### Holonomy -/

omit [LinearOrder K] [IsStrictOrderedRing K] in
theorem mulVec_smul (m : Mat2 K) (c : K) (v : Vec K) : m.mulVec (c • v) = c • m.mulVec v := by
  unfold Mat2.mulVec
  ext <;> simp <;> ring

/-- The two holonomies of a line through the inside of polygons. -/
theorem isDiagonal_holonomy (hS : S.Closed valid) {segs : List (Seg L K)} {a b : L × ℕ} {h k : Vec K} {first last : Seg L K} {G : Similarity K}
    (hd : S.IsDiagonal valid segs a h b k first last G) :
    k = -(G.inv.derivative.mulVec h) ∧ ∃ c : K, 0 < c ∧ h = c • first.start.vector ∧ k = c • last.stop.vector := by
  have wf := develops_wf hd.develops
  have hi : G.inv.sign = 1 := wf.2
  obtain ⟨⟨c, c0, h1⟩, h2⟩ := develops_straight hS hd.develops hd.chord hd.chain hd.head hd.getLast
  have hh : h = c • first.start.vector := by rw [hd.holonomy, h1, add_sub_cancel_left]
  have hk : k = -(G.inv.derivative.mulVec h) := by
    rw [← Similarity.call_add hi first.start.point, ← sub_eq_iff_eq_add'.1 hd.holonomy.symm, inv_call wf.1 wf.2 rfl, hd.holonomy', neg_sub]
  refine ⟨hk, c, c0, hh, ?_⟩
  obtain ⟨p, τ, hch⟩ := hd.chord last (List.mem_of_getLast? hd.getLast)
  rw [hk, hh, mulVec_smul, ← h2, (inv_deriv wf.1 wf.2 _).1, hch.vector, smul_neg]

/-- The similarity that the constructor computes. -/
theorem unfoldSegments_ok (hS : S.Closed valid) {segs : List (Seg L K)} {G : Similarity K} (h : S.Develops segs G) (hv : ∀ s ∈ segs, valid s.stop.label) :
    S.unfoldSegments segs.tail = .ok G := by
  have key : ∀ {segs : List (Seg L K)} {G : Similarity K}, S.Develops segs G → (∀ s ∈ segs, valid s.stop.label) → ∀ sim : Similarity K, sim.WF →
      segs.tail.foldlM (fun sim seg => do
        let e ← seg.start.position.getEdge
        return sim.mul (← S.edgeTransformation seg.start.label e)) sim = (.ok (sim.mul G) : Except Err (Similarity K)) := by
    intro segs G h
    induction h with
    | single s => intro _ sim _; rw [Similarity.C01_mul_one]; rfl
    | @cons s t rest k k' f G hk hk' hf h ih =>
      intro hv sim hsim
      obtain ⟨h1, h2⟩ := gluesTo_symm hS.bordered (hv s (by simp)) hf
      have h3 := edgeTransformation_of_glue hS h2 h1
      have h4 := ih (fun x hx => hv x (List.mem_cons_of_mem _ hx)) (sim.mul f.inv) (Similarity.C01_mul_wf _ _ hsim h1.wf)
      rw [Similarity.C01_mul_assoc _ _ _ hsim h1.wf] at h4
      rw [List.tail_cons, List.foldlM_cons]
      simp only [hk', Position.getEdge, h3, bind, Except.bind, pure, Except.pure] at h4 ⊢
      exact h4
  have := key h hv .one one_wf
  rw [Similarity.C01_one_mul] at this
  exact this

variable [DecidableEq L]

/-! ### The flow along a saddle connection -/

theorem flow_path (hS : S.Closed valid) (rest pre : List (Seg L K)) (cur : Seg L K) (x : Traj L K) (n : ℕ) (hx : S.IsTraj valid x)
    (hseg : x.segments = pre ++ [cur]) (hch : (cur :: rest).IsChain S.Follows) (hs : ∀ s ∈ rest, S.IsSeg valid s)
    (hl : ∀ s, (cur :: rest).getLast? = some s → s.stop.singular = true) (hb : ∀ s, x.segments.head? = some s → s.start.singular = true)
    (hn : rest.length ≤ n) : S.flowForward n x = .ok ⟨pre ++ cur :: rest, none, none⟩ := by
  have hB := hS.bordered
  induction rest generalizing pre cur x n with
  | nil =>
    obtain ⟨s, h1, h2⟩ := hx.forward
    rw [hseg] at h1
    simp at h1
    subst h1
    rw [setup_none (hl _ (by simp))] at h2
    injection h2 with h2
    obtain ⟨s, h3, h4⟩ := hx.backward
    rw [setup_none (hb _ h3)] at h4
    injection h4 with h4
    have : x = ⟨pre ++ [cur], none, none⟩ := Traj.ext hseg h2.symm h4.symm
    rw [this]
    cases n <;> rfl
  | cons s' rest ih =>
    obtain ⟨m, rfl⟩ : ∃ m, n = m + 1 := ⟨n - 1, by simp at hn; omega⟩
    rw [List.isChain_cons_cons] at hch
    obtain ⟨hf, hch⟩ := hch
    obtain ⟨s, h1, h2⟩ := hx.forward
    rw [hseg] at h1
    simp at h1
    subst h1
    rw [setup_some hf.1 hf.2] at h2
    injection h2 with h2
    obtain ⟨s, f', k1, k2, k3, k4, k5, ⟨-, -, -, -⟩, k7⟩ := flowForward_step hS hx h2.symm
    have hs' := hs s' (by simp)
    have : s = s' := isSeg_ext hB k4 hs' k2
    subst this
    obtain ⟨first, h3, -⟩ := hx.backward
    have hnc : ¬ x.isClosed = true := by
      rw [closed_iff x h2.symm h3, differsByScaling_iff hB (isSeg_tangent hB k4) (isSeg_tangent hB (hx.seg _ (List.mem_of_head? h3)))]
      rintro ⟨c, -, hc⟩
      have e := hb _ h3
      rw [hc] at e
      have e : s.start.singular = true := e
      rw [k5] at e
      cases e
    unfold flowForward
    rw [← h2]
    dsimp only
    rw [if_neg hnc]
    simp only [k1, k3, bind, Except.bind]
    have := ih (pre ++ [cur]) s ⟨x.segments ++ [s], f', x.backward⟩ m k7 (by dsimp only; rw [hseg]) hch (fun y hy => hs y (List.mem_cons_of_mem _ hy))
      (fun y hy => hl y (by rw [List.getLast?_cons_cons]; exact hy)) (fun y hy => hb y (by
        dsimp only at hy
        rw [List.head?_append, h3] at hy
        rw [h3]; exact hy)) (by simpa using hn)
    rw [this]
    simp

/-- The trajectory of a saddle connection. -/
theorem trajectory_path (hS : S.Closed valid) {first : Seg L K} {rest : List (Seg L K)} (hch : (first :: rest).IsChain S.Follows)
    (hs : ∀ s ∈ first :: rest, S.IsSeg valid s) (hl : ∀ s, (first :: rest).getLast? = some s → s.stop.singular = true)
    (hb : first.start.singular = true) {n : ℕ} (hn : rest.length ≤ n) :
    ∃ x, S.trajectory first.start = .ok x ∧ S.flowForward n x = .ok ⟨first :: rest, none, none⟩ := by
  have hB := hS.bordered
  have hf := hs first (by simp)
  obtain ⟨x, s, h1, h2, h3, h4⟩ := C67_trajectory hS (isSeg_tangent hB hf)
  rw [(C67_reverse hB hf).1] at h2
  injection h2 with h2
  subst h2
  refine ⟨x, h1, ?_⟩
  exact flow_path hS rest [] first x n h4 (by simpa using h3) hch (fun s h => hs s (List.mem_cons_of_mem _ h)) hl
    (fun s h => by rw [h3] at h; simp at h; rw [← h]; exact hb) hn

/-- The flow finds a saddle connection. -/
theorem flowSaddle_ok (hS : S.Closed valid) {segs : List (Seg L K)} {a b : L × ℕ} {h k : Vec K} (hs : S.IsSaddleVia valid segs a h b k) {c : K} (hc : 0 < c)
    {limit : ℕ} (hn : segs.length ≤ limit + 1) {stop : Option (L × ℕ)} {stopDirection holonomy stopHolonomy : Option (Vec K)}
    (h1 : ∀ x ∈ stop, x = b) (h2 : ∀ x ∈ stopDirection, x = unitMax k) (h3 : ∀ x ∈ holonomy, x = h) (h4 : ∀ x ∈ stopHolonomy, x = k) :
    S.flowSaddle a (c • h) stop stopDirection holonomy stopHolonomy limit = .ok ⟨a, c • h, b, unitMax k, h, k⟩ := by
  have hB := hS.bordered
  have a1 : stop.any (· ≠ b) = false := by cases stop <;> simp_all
  have a2 : stopDirection.any (· ≠ unitMax k) = false := by cases stopDirection <;> simp_all
  have a3 : holonomy.any (· ≠ h) = false := by cases holonomy <;> simp_all
  have a4 : stopHolonomy.any (· ≠ k) = false := by cases stopHolonomy <;> simp_all
  -- what is needed about the path
  suffices H : ∃ first rest last p, (first :: rest).IsChain S.Follows ∧ (∀ s ∈ first :: rest, S.IsSeg valid s) ∧ rest.length ≤ limit ∧
      (first :: rest).getLast? = some last ∧ S.polygon a.1 = .ok p ∧ first.start = ⟨a.1, p.vertex a.2, c • h, .vertex a.2⟩ ∧
      (last.stop.label, last.stop.position) = (b.1, .vertex b.2) ∧ (∃ r : K, 0 < r ∧ last.stop.vector = r • k) ∧
      S.trajHolonomy a b first last rest = .ok (h, k) by
    obtain ⟨first, rest, last, p, k1, k2, k3, k4, k5, k6, k7, ⟨r, r0, k8⟩, k9⟩ := H
    injection k7 with k7 k7'
    obtain ⟨x, x1, x2⟩ := trajectory_path hS k1 k2 (n := limit) (fun s hs => by
      rw [k4] at hs; injection hs with hs; rw [← hs]; exact singular_iff.2 ⟨_, k7'⟩) (by rw [k6]; rfl) k3
    have hT := (isSeg_tangent hB (k2 first (by simp))).2
    rw [k6] at x1 hT
    have hlast : (first :: rest).getLast (by simp) = last := by
      rw [List.getLast?_eq_some_getLast (by simp)] at k4
      injection k4
    have hd' : unitMax last.stop.vector = unitMax k := by rw [k8, unitMax_smul r0]
    have hb : (last.stop.label, b.2) = b := by rw [k7]
    unfold flowSaddle
    simp only [k5, bind, Except.bind, hT, x1, x2, Traj.isSaddleConnection, Option.isNone_none, Bool.and_self, Bool.not_true, hlast, k7',
      Position.getVertex, hb, hd', k9, a1, a2, a3, a4]
    rfl
  rcases hs with ⟨first, last, G, hd⟩ | ⟨s, p, p', e, e', g, rfl, hal, rfl, rfl, rfl, rfl⟩
  · obtain ⟨hk, r, r0, e1, e2⟩ := isDiagonal_holonomy hS hd
    have hcr := mul_pos hc r0
    have hd' := isDiagonal_scale hS hd hcr
    obtain ⟨rest, hsegs⟩ : ∃ rest, segs.map (Seg.scale (c * r)) = first.scale (c * r) :: rest := by
      have := hd'.head
      cases hh : segs.map (Seg.scale (c * r)) with
      | nil => rw [hh] at this; cases this
      | cons x y => rw [hh] at this; injection this with this; exact ⟨y, by rw [this]⟩
    rw [hsegs] at hd'
    obtain ⟨p, τ, hch⟩ := hd'.chord _ (List.mem_cons_self ..)
    obtain ⟨q, σ, hch'⟩ := hd'.chord _ (List.mem_of_getLast? hd'.getLast)
    have hv := hB.valid_of_polygon hch.valid hch.polygon
    have hpos := hch.position
    rw [hd'.position] at hpos
    obtain ⟨hi, hpt⟩ := (C12_vertex hv _ _).1 hpos.symm
    refine ⟨first.scale (c * r), rest, last.scale (c * r), p, hd'.chain, fun s hs => .inl (hd'.chord s hs), ?_, hd'.getLast, ?_, ?_, ?_, ?_, ?_⟩
    · have := congrArg List.length hsegs
      simp at this
      omega
    · rw [← hd'.label]; exact hch.polygon
    · rw [← hpt, ← hd'.position, ← hd'.label, e1, smul_smul]; rfl
    · rw [hd'.label', hd'.position']
    · exact ⟨c, hc, by rw [e2, smul_smul]; rfl⟩
    · have hedge : S.segIsEdge (first.scale (c * r)) = .ok false := by
        rcases C67_is_edge hB (.inl ⟨p, τ, hch⟩) with ⟨-, -, hx⟩ | ⟨hx, -⟩
        · exact absurd ⟨p, τ, hch⟩ hx
        · exact hx
      have hu := unfoldSegments_ok hS hd'.develops (fun s hs => by
        obtain ⟨p, τ, hc⟩ := hd'.chord s hs
        rw [hc.label]; exact hc.valid)
      rw [List.tail_cons] at hu
      have wf := develops_wf hd'.develops
      unfold trajHolonomy
      simp only [hedge, hu, bind, Except.bind, pure, Except.pure]
      rw [if_neg (by simp), ← hd'.holonomy, inverse_deriv wf.1 wf.2, ← hk]
  · have hv := hB.valid_of_polygon hal.valid hal.polygon
    obtain ⟨r, r0, hr⟩ := (C05_isParallel_iff _ _ (hv.edge_ne e)).1 hal.parallel
    have hq := div_pos hc r0
    have hal' := isAlong_scale hal hq
    have hvec : (s.scale (c / r)).start.vector = c • p.edge e := by
      show (c / r) • s.start.vector = _
      rw [hr, smul_smul, div_mul_cancel₀ _ r0.ne']
    refine ⟨s.scale (c / r), [], s.scale (c / r), p, .singleton _, fun x hx => ?_, Nat.zero_le _, rfl, hal.polygon, ?_, ?_, ⟨c, hc, ?_⟩, ?_⟩
    · rw [List.mem_singleton.1 hx]; exact .inr ⟨_, _, _, _, _, hal'⟩
    · rw [← hvec]
      show (s.scale (c / r)).start = ⟨s.start.label, p.vertex e, (c / r) • s.start.vector, .vertex e⟩
      rw [← hal.point, ← hal.position]; rfl
    · show (s.stop.label, s.stop.position) = _
      rw [hal.position']
    · rw [hal'.vector, hvec, mulVec_smul, derivative_edge hal.sign hal.g1 hal.g2, smul_neg, neg_neg]
    · have hedge : S.segIsEdge (s.scale (c / r)) = .ok true := by
        rcases C67_is_edge hB (.inr ⟨_, _, _, _, _, hal'⟩) with ⟨hx, -⟩ | ⟨-, -, -, hx⟩
        · exact hx
        · exact absurd ⟨_, _, _, _, _, hal'⟩ hx
      unfold trajHolonomy
      simp only [hedge, hal.polygon, hal.polygon', bind, Except.bind, pure, Except.pure]
      rfl

/-- Chords that follow each other can be unfolded. -/
theorem exists_develops (hS : S.Closed valid) (s : Seg L K) (rest : List (Seg L K)) (hc : ∀ x ∈ s :: rest, ∃ p τ, S.IsChord valid x p τ)
    (hf : (s :: rest).IsChain S.Follows) : ∃ G, S.Develops (s :: rest) G := by
  induction rest generalizing s with
  | nil => exact ⟨_, .single s⟩
  | cons t rest ih =>
    rw [List.isChain_cons_cons] at hf
    obtain ⟨G, hG⟩ := ih t (fun x hx => hc x (List.mem_cons_of_mem _ hx)) hf.2
    obtain ⟨p, τ, hch⟩ := hc s (by simp)
    obtain ⟨e, e', g, h1, h2, h3, -⟩ := follows_glue hS hch hf.1
    exact ⟨_, .cons h1 h2 h3 hG⟩

omit [DecidableEq L] in
/-- A trajectory that starts and ends at vertices is a saddle connection. -/
theorem isSaddle_of_traj (hS : S.Closed valid) {first last : Seg L K} {rest : List (Seg L K)} (hch : (first :: rest).IsChain S.Follows)
    (hs : ∀ s ∈ first :: rest, S.IsSeg valid s) (hl : (first :: rest).getLast? = some last) {i j : ℕ} (hi : first.start.position = .vertex i)
    (hj : last.stop.position = .vertex j) :
    ∃ h k, S.IsSaddleVia valid (first :: rest) (first.start.label, i) h (last.stop.label, j) k ∧ ∃ c : K, 0 < c ∧ h = c • first.start.vector := by
  classical
  have hB := hS.bordered
  -- no segment runs along an edge if there are several
  by_cases hall : ∀ x ∈ first :: rest, ∃ p τ, S.IsChord valid x p τ
  · obtain ⟨G, hG⟩ := exists_develops hS first rest hall hch
    have hd : S.IsDiagonal valid (first :: rest) (first.start.label, i) _ (last.stop.label, j) _ first last G :=
      ⟨hall, hch, rfl, hl, rfl, hi, rfl, hj, hG, rfl, rfl⟩
    obtain ⟨-, c, c0, h1, -⟩ := isDiagonal_holonomy hS hd
    exact ⟨_, _, .inl ⟨_, _, _, hd⟩, c, c0, h1⟩
  · push Not at hall
    obtain ⟨x, hx, hnc⟩ := hall
    have hal : ∃ p p' e e' g, S.IsAlong valid x p p' e e' g := by
      rcases hs x hx with ⟨p, τ, h⟩ | h
      · exact absurd h (hnc p τ)
      · exact h
    obtain ⟨p, p', e, e', g, hal⟩ := hal
    have hrest : rest = [] ∧ x = first := by
      obtain ⟨u, w, huw⟩ := List.append_of_mem hx
      have hu : u = [] := by
        rcases List.eq_nil_or_concat u with rfl | ⟨u', y, rfl⟩
        · rfl
        · exfalso
          rw [huw] at hch hs
          simp only [List.concat_eq_append, List.append_assoc, List.singleton_append] at hch hs
          rw [List.isChain_append] at hch
          have hf := (List.isChain_cons_cons.1 hch.2.1).1
          have hb := follows_back hS (hs y (by simp)) (hs x (by simp)) hf
          have := hb.1
          have this : x.start.singular = false := this
          rw [singular_iff.2 ⟨_, hal.position⟩] at this
          cases this
      subst hu
      simp at huw
      refine ⟨?_, huw.1.symm⟩
      rw [huw.2]
      cases w with
      | nil => rfl
      | cons y w =>
        exfalso
        rw [huw.1, huw.2] at hch
        have hf := (List.isChain_cons_cons.1 hch).1.1
        rw [singular_iff.2 ⟨_, hal.position'⟩] at hf
        cases hf
    obtain ⟨rfl, rfl⟩ := hrest
    simp at hl
    subst hl
    have hv := hB.valid_of_polygon hal.valid hal.polygon
    obtain ⟨r, r0, hr⟩ := (C05_isParallel_iff _ _ (hv.edge_ne e)).1 hal.parallel
    rw [hal.position] at hi
    rw [hal.position'] at hj
    injection hi with hi
    injection hj with hj
    subst hi hj
    exact ⟨p.edge e, p'.edge e', .inr ⟨x, p, p', e, e', g, rfl, hal, rfl, rfl, rfl, rfl⟩, r⁻¹, inv_pos.2 r0, by
      rw [hr, smul_smul, inv_mul_cancel₀ r0.ne', one_smul]⟩

end RSurf
end Flat
