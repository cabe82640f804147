import Verif.Props.SaddleConnection
import Verif.Props.TrajectoryCoding
import Verif.Props.TangentRotation

/-!
# C68: which saddle connections the constructor makes
-/

namespace Flat
variable {L K : Type} [Field K] [LinearOrder K] [IsStrictOrderedRing K]

theorem isBetween_smul {c : K} (hc : 0 < c) (x y v : Vec K) : isBetween x y (c • v) = isBetween x y v := by
  have hneg : ∀ z : K, c * z < 0 ↔ z < 0 := fun z => by
    constructor
    · intro h
      by_contra hz
      push Not at hz
      exact absurd (mul_nonneg hc.le hz) (not_le.2 h)
    · exact mul_neg_of_pos_of_neg hc
  unfold isBetween
  simp only [Prod.smul_fst, Prod.smul_snd, smul_eq_mul, mul_left_comm _ c, mul_assoc c, gt_iff_lt, mul_lt_mul_iff_right₀ hc, ne_eq,
    mul_right_inj' hc.ne', hneg]

namespace RSurf
open Poly
variable {S : RSurf L K} {valid : L → Prop}

/-- Glued edges are opposite to each other up to positive factors: a positive dilation surface. -/
abbrev PositiveDilation (S : RSurf L K) (valid : L → Prop) : Prop := S.GluedBy valid (fun u w => ∃ c : K, 0 < c ∧ w = -(c • u))

theorem gluesTo_positive (hS : S.Bordered valid) (hk : S.PositiveDilation valid) {l l' : L} {e e' : ℕ} {g : Similarity K} (hl : valid l)
    (h : S.GluesTo l e l' e' g) : ∃ c : K, 0 < c ∧ ∀ v, g.derivative.mulVec v = c • v := by
  obtain ⟨p, p', hp, hp', he, h1, h2⟩ := h.ends
  obtain ⟨c, c0, hc⟩ := hk l e l' e' p p' hl hp he h.opp hp'
  refine ⟨c, c0, fun v => ?_⟩
  have e1 := derivative_edge h.sign h1 h2
  rw [hc, neg_neg] at e1
  have hn := (normSq_pos' ((hS.valid_of_polygon hl hp).edge_ne e)).ne'
  generalize p.edge e = w at hn e1
  obtain ⟨a, b, s, t, σ⟩ := g
  have hs := h.sign
  dsimp only at hs
  subst hs
  unfold Similarity.derivative Mat2.mulVec at *
  simp only [Prod.ext_iff, Prod.smul_fst, Prod.smul_snd, smul_eq_mul] at e1 ⊢
  push_cast at e1 ⊢
  obtain ⟨e1, e2⟩ := e1
  have ha : a = c := by
    apply mul_left_cancel₀ hn
    linear_combination w.1 * e1 + w.2 * e2
  have hb : b = 0 := by
    apply mul_left_cancel₀ hn
    linear_combination -w.2 * e1 + w.1 * e2
  subst ha hb
  constructor <;> ring

theorem develops_positive (hS : S.Bordered valid) (hk : S.PositiveDilation valid) {segs : List (Seg L K)} {G : Similarity K} (h : S.Develops segs G)
    (hv : ∀ s ∈ segs, valid s.stop.label) : ∃ c : K, 0 < c ∧ ∀ v, G.derivative.mulVec v = c • v := by
  induction h with
  | single s =>
    refine ⟨1, one_pos, fun v => ?_⟩
    unfold Similarity.derivative Mat2.mulVec Similarity.one; ext <;> simp
  | @cons s t rest k k' f G hk1 hk2 hf h ih =>
    obtain ⟨c, c0, hc⟩ := ih fun x hx => hv x (List.mem_cons_of_mem _ hx)
    obtain ⟨h1, h2⟩ := gluesTo_symm hS (hv s (by simp)) hf
    obtain ⟨d, d0, hd⟩ := gluesTo_positive hS hk h2 h1
    exact ⟨d * c, mul_pos d0 c0, fun v => by rw [mul_deriv h1.sign (develops_wf h).2, hc, hd, smul_smul]⟩

/-- **C68.** On a positive dilation surface the two holonomies of a saddle connection point in opposite directions. -/
theorem C68_opposite (hS : S.Closed valid) (hk : S.PositiveDilation valid) {a b : L × ℕ} {h k : Vec K} (hs : S.IsSaddle valid a h b k) :
    ∃ c : K, 0 < c ∧ k = -(c • h) := by
  have hB := hS.bordered
  obtain ⟨segs, ⟨first, last, G, hd⟩ | ⟨s, p, p', e, e', g, rfl, hal, rfl, rfl, rfl, rfl⟩⟩ := hs
  · obtain ⟨h1, -⟩ := isDiagonal_holonomy hS hd
    have wf := develops_wf hd.develops
    obtain ⟨c, c0, hc⟩ := develops_positive hB hk hd.develops fun s hs => by
      obtain ⟨p, τ, hch⟩ := hd.chord s hs
      rw [hch.label]; exact hch.valid
    refine ⟨c⁻¹, inv_pos.2 c0, ?_⟩
    have e1 := (inv_deriv wf.1 wf.2 h).2
    rw [hc] at e1
    rw [h1, neg_inj, ← e1, smul_smul, inv_mul_cancel₀ c0.ne', one_smul, e1]
  · exact hk _ _ _ _ _ _ hal.valid hal.polygon hal.lt hal.opp hal.polygon'

/-- **C68.** On a translation surface they are negatives of each other. -/
theorem C68_translation (hS : S.Closed valid) (hk : S.Translation valid) {a b : L × ℕ} {h k : Vec K} (hs : S.IsSaddle valid a h b k) : k = -h := by
  have hB := hS.bordered
  obtain ⟨segs, ⟨first, last, G, hd⟩ | ⟨s, p, p', e, e', g, rfl, hal, rfl, rfl, rfl, rfl⟩⟩ := hs
  · obtain ⟨h1, -⟩ := isDiagonal_holonomy hS hd
    have wf := develops_wf hd.develops
    have key : ∀ {segs : List (Seg L K)} {G : Similarity K}, S.Develops segs G → (∀ s ∈ segs, valid s.stop.label) → ∀ v, G.derivative.mulVec v = v := by
      intro segs G h
      induction h with
      | single s => intro _ v; unfold Similarity.derivative Mat2.mulVec Similarity.one; ext <;> simp
      | @cons s t rest k k' f G hk1 hk2 hf h ih =>
        intro hv v
        obtain ⟨h1, h2⟩ := gluesTo_symm hB (hv s (by simp)) hf
        have hpd : S.PositiveDilation valid := fun l e l' e' p p' x1 x2 x3 x4 x5 => ⟨1, one_pos, by rw [one_smul]; exact hk l e l' e' p p' x1 x2 x3 x4 x5⟩
        obtain ⟨d, d0, hd⟩ := gluesTo_positive hB hpd h2 h1
        obtain ⟨p, p', hp, hp', he, g1, g2⟩ := h1.ends
        have e1 := derivative_edge h1.sign g1 g2
        rw [hd, hk _ _ _ _ _ _ h2 hp he h1.opp hp', neg_neg] at e1
        have hne := (hB.valid_of_polygon h2 hp).edge_ne k'
        have d1 : d = 1 := by
          by_contra hn
          have e2 : (d - 1) • p.edge k' = 0 := by rw [sub_smul, e1, one_smul, sub_self]
          apply hne
          rw [← one_smul K (p.edge k'), ← inv_mul_cancel₀ (sub_ne_zero.2 hn), ← smul_smul, e2, smul_zero]
        rw [mul_deriv h1.sign (develops_wf h).2, ih (fun x hx => hv x (List.mem_cons_of_mem _ hx)), hd, d1, one_smul]
    have hG := key hd.develops fun s hs => by
      obtain ⟨p, τ, hch⟩ := hd.chord s hs
      rw [hch.label]; exact hch.valid
    rw [h1]
    have e1 := (inv_deriv wf.1 wf.2 h).2
    rw [hG] at e1
    rw [e1]
  · exact hk _ _ _ _ _ _ hal.valid hal.polygon hal.lt hal.opp hal.polygon'

/-- The holonomies of a saddle connection are not zero. -/
theorem isSaddle_ne (hS : S.Closed valid) {a b : L × ℕ} {h k : Vec K} (hs : S.IsSaddle valid a h b k) : h ≠ 0 ∧ k ≠ 0 := by
  obtain ⟨segs, hv⟩ := hs
  obtain ⟨p, -, -, -, h1⟩ := C68_direction hS ⟨segs, hv⟩
  obtain ⟨q, -, -, -, h2⟩ := C68_direction hS ⟨_, C68_symm hS hv⟩
  exact ⟨h1.1, h2.1⟩

variable [DecidableEq L]

/-- The saddle connection with these ends and holonomies, as an object. -/
def saddleOf (a : L × ℕ) (h : Vec K) (b : L × ℕ) (k : Vec K) : Saddle L K := ⟨a, unitMax h, b, unitMax k, h, k⟩

/-- The guess of the end direction is right on positive dilation surfaces, and there is none otherwise when the end is not given. -/
theorem guessDirection_none (hS : S.Closed valid) {kinds : Kinds} (hk : kinds.positive = true → S.PositiveDilation valid) {a b : L × ℕ} {h k : Vec K}
    (hs : S.IsSaddle valid a h b k) : ∃ o, S.guessDirection kinds (unitMax h) none = .ok o ∧ ∀ x ∈ o, x = unitMax k := by
  unfold guessDirection
  cases hp : kinds.positive with
  | true =>
    refine ⟨_, rfl, fun x hx => ?_⟩
    obtain ⟨c, c0, hc⟩ := C68_opposite hS (hk hp) hs
    have hx : -unitMax h = x := Option.some.inj hx
    rw [← hx, hc, unitMax_neg, unitMax_smul c0]
  | false => exact ⟨none, by cases kinds.dilation <;> rfl, fun x hx => by cases hx⟩

/-- **C68.** The constructor, given a vertex and a direction in which there is a saddle connection, makes it.  The saddle connection may go
through at most `limit + 1` polygons. -/
theorem C68_constructor (hS : S.Closed valid) {kinds : Kinds} (hk : kinds.positive = true → S.PositiveDilation valid) {segs : List (Seg L K)}
    {a b : L × ℕ} {h k : Vec K} (hs : S.IsSaddleVia valid segs a h b k) {limit : ℕ} (hn : segs.length ≤ limit + 1) {c : K} (hc : 0 < c) (check : Bool) :
    S.saddleConnection kinds a (c • h) none none none none check limit = .ok (saddleOf a h b k) := by
  have hne := isSaddle_ne hS ⟨segs, hs⟩
  obtain ⟨o, h1, h2⟩ := guessDirection_none hS hk ⟨segs, hs⟩
  obtain ⟨d, d0, hd⟩ := unitMax_eq hne.1
  have h3 := flowSaddle_ok hS hs d0 hn (stop := none) (stopDirection := o) (holonomy := none) (stopHolonomy := none) (by simp) h2 (by simp) (by simp)
  rw [← hd] at h3
  unfold saddleConnection
  simp only [if_neg (smul_ne hc hne.1), unitMax_smul hc, h1, bind, Except.bind, pure, Except.pure]
  exact h3

/-- **C68.** There is at most one saddle connection that starts at a vertex in a direction. -/
theorem C68_unique (hS : S.Closed valid) {a b b' : L × ℕ} {h k h' k' : Vec K} (hs : S.IsSaddle valid a h b k) (hs' : S.IsSaddle valid a h' b' k') {c : K}
    (hc : 0 < c) (hh : h' = c • h) : h' = h ∧ b' = b ∧ k' = k := by
  obtain ⟨segs, hs⟩ := hs
  obtain ⟨segs', hs'⟩ := hs'
  have kk : (⟨false, false, false, false⟩ : Kinds).positive = true → S.PositiveDilation valid := fun h => by cases h
  have h1 := C68_constructor hS kk hs (limit := max segs.length segs'.length) (by omega) hc false
  have h2 := C68_constructor hS kk hs' (limit := max segs.length segs'.length) (by omega) one_pos false
  rw [one_smul, hh, h1] at h2
  injection h2 with h2
  unfold saddleOf at h2
  injection h2 with _ _ e3 _ e5 e6
  exact ⟨hh.trans e5.symm, e3.symm, e6.symm⟩

/-- What the flow finds is a saddle connection. -/
theorem flowSaddle_sound (hS : S.Closed valid) {a : L × ℕ} (hl : valid a.1) {p : Poly K} (hp : S.polygon a.1 = .ok p) (ha : a.2 < p.length) {d : Vec K}
    (hd : Points p (p.vertex a.2) d) {stop : Option (L × ℕ)} {stopDirection holonomy stopHolonomy : Option (Vec K)} {limit : ℕ} {x : Saddle L K}
    (hx : S.flowSaddle a d stop stopDirection holonomy stopHolonomy limit = .ok x) :
    ∃ segs h b k, S.IsSaddleVia valid segs a h b k ∧ segs.length ≤ limit + 1 ∧ x = ⟨a, d, b, unitMax k, h, k⟩ ∧ (∃ c : K, 0 < c ∧ d = c • h) ∧
      (∀ x ∈ stop, x = b) ∧ (∀ x ∈ stopDirection, x = unitMax k) ∧ (∀ x ∈ holonomy, x = h) ∧ ∀ x ∈ stopHolonomy, x = k := by
  have hB := hS.bordered
  have hv := hB.valid_of_polygon hl hp
  have hT := C45_fixed hB hl hp hd
  rw [(C12_vertex hv _ a.2).2 ⟨ha, rfl⟩] at hT
  have ht : S.IsTangent valid ⟨a.1, p.vertex a.2, d, .vertex a.2⟩ := ⟨hl, hT⟩
  obtain ⟨x0, s, t1, t2, t3, t4⟩ := C67_trajectory hS ht
  obtain ⟨s', u1, u2, -, -, -, u3, -⟩ := C67_segment hS ht
  have u3 := u3 ⟨_, rfl⟩
  rw [t2] at u1
  injection u1 with u1
  subst u1
  obtain ⟨y, l, y1, y2, y3, -, y4, -⟩ := C67_flow_forward hS limit t4
  rw [t3, List.singleton_append] at y3
  have hx0 := hx
  unfold flowSaddle at hx
  simp only [hp, hT, t1, y1, bind, Except.bind] at hx
  by_cases hsc : y.isSaddleConnection = true
  · obtain ⟨last, hlast⟩ : ∃ last, (s :: l).getLast? = some last := ⟨_, List.getLast?_eq_some_getLast (by simp)⟩
    obtain ⟨⟨i, hi⟩, j, hj⟩ := (C67_saddle_connection hS y2 (first := s) (last := last) (by rw [y3]; rfl) (by rw [y3]; exact hlast)).1 hsc
    obtain ⟨h, k, hvia, c, c0, hc⟩ := isSaddle_of_traj hS (by rw [← y3]; exact y2.chain) (by rw [← y3]; exact y2.seg) hlast hi hj
    rw [u3] at hi
    injection hi with hi
    subst hi
    rw [u3] at hvia hc
    dsimp only at hvia hc
    have hdh : d = c⁻¹ • h := by rw [hc, smul_smul, inv_mul_cancel₀ c0.ne', one_smul]
    have hlen : (s :: l).length ≤ limit + 1 := by simpa using y4
    have hok := flowSaddle_ok hS hvia (inv_pos.2 c0) hlen (stop := none) (stopDirection := none) (holonomy := none) (stopHolonomy := none)
      (by simp) (by simp) (by simp) (by simp)
    rw [← hdh] at hok
    unfold flowSaddle at hok
    simp only [hp, hT, t1, y1, bind, Except.bind, hsc, y3, Option.any_none] at hok hx
    simp only [Bool.not_true, Bool.false_eq_true, if_false] at hok hx
    cases hgv : (List.getLast (s :: l) (by simp)).stop.position.getVertex with
    | error e => rw [hgv] at hok; simp at hok
    | ok j' =>
      rw [hgv] at hok hx
      dsimp only at hok hx
      set b := ((List.getLast (s :: l) (by simp)).stop.label, j') with hb
      cases hth : S.trajHolonomy a b s (List.getLast (s :: l) (by simp)) l with
      | error e => rw [hth] at hok; simp [pure, Except.pure] at hok
      | ok hk =>
        rw [hth] at hok
        simp only [pure, Except.pure, Except.ok.injEq, Saddle.mk.injEq] at hok
        obtain ⟨-, -, o3, o4, o5, o6⟩ := hok
        by_cases b1 : (stop.any fun x => decide (x ≠ b)) = true
        · rw [if_pos b1] at hx; cases hx
        by_cases b2 : (stopDirection.any fun x => decide (x ≠ unitMax (List.getLast (s :: l) (by simp)).stop.vector)) = true
        · rw [if_neg b1, if_pos b2] at hx; cases hx
        rw [if_neg b1] at hx
        simp only [pure, Except.pure] at hx
        rw [if_neg b2, hth] at hx
        dsimp only at hx
        by_cases b3 : (holonomy.any fun x => decide (x ≠ hk.1)) = true
        · rw [if_pos b3] at hx; cases hx
        rw [if_neg b3] at hx
        by_cases b4 : (stopHolonomy.any fun x => decide (x ≠ hk.2)) = true
        · rw [if_pos b4] at hx; cases hx
        rw [if_neg b4] at hx
        injection hx with hx
        rw [o3] at b1 hx
        rw [o4] at b2 hx
        rw [o5] at b3 hx
        rw [o6] at b4 hx
        refine ⟨_, h, _, k, hvia, hlen, hx.symm, ⟨c⁻¹, inv_pos.2 c0, hdh⟩, ?_, ?_, ?_, ?_⟩
        · intro z hz; rw [Option.mem_def] at hz; subst hz; simpa using b1
        · intro z hz; rw [Option.mem_def] at hz; subst hz; simpa using b2
        · intro z hz; rw [Option.mem_def] at hz; subst hz; simpa using b3
        · intro z hz; rw [Option.mem_def] at hz; subst hz; simpa using b4
  · rw [Bool.not_eq_true] at hsc
    simp [hsc, throw, throwThe, MonadExceptOf.throw] at hx

/-- The constructor follows the flow if it is asked to check, or if the end is not given. -/
theorem saddleConnection_flow {kinds : Kinds} {a : L × ℕ} {d : Vec K} {stop : Option (L × ℕ)} {stopDirection holonomy stopHolonomy : Option (Vec K)}
    {check : Bool} {limit : ℕ} (hc : check = true ∨ stop = none) {x : Saddle L K}
    (hx : S.saddleConnection kinds a d stop stopDirection holonomy stopHolonomy check limit = .ok x) :
    d ≠ 0 ∧ ∃ sd k, S.flowSaddle a (unitMax d) stop sd holonomy k limit = .ok x ∧ (∀ v, stopDirection = some v → sd = some (unitMax v)) ∧
      ∀ v, stopHolonomy = some v → k = some v := by
  unfold saddleConnection at hx
  by_cases hd : d = 0
  · rw [if_pos hd] at hx; cases hx
  refine ⟨hd, ?_⟩
  rw [if_neg hd] at hx
  have key : ∀ sd : Option (Vec K), (∀ v, stopDirection = some v → sd = some (unitMax v)) →
      (match (generalizing := false) stop, sd, holonomy, (match (generalizing := false) stopHolonomy, holonomy with
        | none, some h => guessHolonomy kinds d sd h
        | k, _ => k), check with
      | some b, some d', some h, some k, false => Except.ok (⟨a, unitMax d, b, d', h, k⟩ : Saddle L K)
      | _, _, _, _, _ => S.flowSaddle a (unitMax d) stop sd holonomy (match (generalizing := false) stopHolonomy, holonomy with
        | none, some h => guessHolonomy kinds d sd h
        | k, _ => k) limit) = .ok x →
      ∃ sd k, S.flowSaddle a (unitMax d) stop sd holonomy k limit = .ok x ∧ (∀ v, stopDirection = some v → sd = some (unitMax v)) ∧
        ∀ v, stopHolonomy = some v → k = some v := by
    intro sd hsd hx
    cases holonomy with
    | none =>
      refine ⟨sd, stopHolonomy, ?_, hsd, fun v hv => hv⟩
      rcases hc with rfl | rfl
      · cases stopHolonomy <;> cases stop <;> cases sd <;> exact hx
      · cases stopHolonomy <;> cases sd <;> exact hx
    | some h =>
      cases stopHolonomy with
      | some k =>
        refine ⟨sd, some k, ?_, hsd, fun v hv => hv⟩
        rcases hc with rfl | rfl
        · cases stop <;> cases sd <;> exact hx
        · cases sd <;> exact hx
      | none =>
        refine ⟨sd, guessHolonomy kinds d sd h, ?_, hsd, fun v hv => by cases hv⟩
        dsimp only at hx
        generalize guessHolonomy kinds d sd h = G at hx ⊢
        rcases hc with rfl | rfl
        · cases stop <;> cases sd <;> cases G <;> exact hx
        · cases sd <;> cases G <;> exact hx
  cases stopDirection with
  | some v => exact key (some (unitMax v)) (fun w hw => by injection hw with hw; rw [hw]) hx
  | none =>
    cases hg : S.guessDirection kinds (unitMax d) stop with
    | error e => simp [hg, bind, Except.bind] at hx
    | ok sd =>
      simp only [hg, bind, Except.bind] at hx
      exact key sd (fun w hw => by cases hw) hx

/-- **C68.** What the constructor makes when it checks, or when it finds the end itself, is a saddle connection that starts in the given
direction and agrees with everything that was given.  (For directions that point into the polygon of the vertex; the direction of the first edge
of the sector counts, the direction of the last edge does not, see `C68_last_side_violation`.) -/
theorem C68_constructor_sound_partial (hS : S.Closed valid) {kinds : Kinds} {a : L × ℕ} (hl : valid a.1) {p : Poly K} (hp : S.polygon a.1 = .ok p)
    (ha : a.2 < p.length) {d : Vec K} (hd : Points p (p.vertex a.2) d) {stop : Option (L × ℕ)} {stopDirection holonomy stopHolonomy : Option (Vec K)}
    {check : Bool} {limit : ℕ} (hc : check = true ∨ stop = none) {x : Saddle L K}
    (hx : S.saddleConnection kinds a d stop stopDirection holonomy stopHolonomy check limit = .ok x) :
    ∃ h b k, S.IsSaddle valid a h b k ∧ x = saddleOf a h b k ∧ (∃ c : K, 0 < c ∧ d = c • h) ∧ (∀ x ∈ stop, x = b) ∧
      (∀ x ∈ stopDirection, unitMax x = unitMax k) ∧ (∀ x ∈ holonomy, x = h) ∧ ∀ x ∈ stopHolonomy, x = k := by
  have hv := hS.bordered.valid_of_polygon hl hp
  obtain ⟨hne, sd, k', h1, h2, h3⟩ := saddleConnection_flow hc hx
  obtain ⟨c, c0, hcd⟩ := unitMax_eq hne
  have hd' : Points p (p.vertex a.2) (unitMax d) := by
    obtain ⟨-, h⟩ := (points_vertex hv ha).1 hd
    rw [hcd, points_vertex hv ha]
    refine ⟨smul_ne c0 hne, ?_⟩
    rcases h with h | h
    · left
      obtain ⟨r, r0, hr⟩ := (C05_isParallel_iff _ _ (hv.edge_ne _)).1 h
      exact (C05_isParallel_iff _ _ (hv.edge_ne _)).2 ⟨c * r, mul_pos c0 r0, by rw [hr, smul_smul]⟩
    · right
      rw [isBetween_smul c0]
      exact h
  obtain ⟨segs, h, b, k, k1, -, k3, ⟨r, r0, k4⟩, k5, k6, k7, k8⟩ := flowSaddle_sound hS hl hp ha hd' h1
  refine ⟨h, b, k, ⟨segs, k1⟩, ?_, ⟨c⁻¹ * r, mul_pos (inv_pos.2 c0) r0, ?_⟩, k5, ?_, k7, ?_⟩
  · rw [k3]
    have : unitMax (unitMax d) = unitMax h := by rw [k4, unitMax_smul r0]
    rw [hcd, unitMax_smul c0] at this
    unfold saddleOf
    rw [this]
  · rw [← smul_smul, ← k4, hcd, smul_smul, inv_mul_cancel₀ c0.ne', one_smul]
  · intro z hz; exact k6 _ (h2 z hz)
  · intro z hz; exact k8 _ (h3 z hz)

/-- **C68.** The check of the constructor, when everything is given, accepts exactly the saddle connections (with at most `limit + 1`
segments). -/
theorem C68_check (hS : S.Closed valid) {kinds : Kinds} {a b : L × ℕ} (hl : valid a.1) {p : Poly K} (hp : S.polygon a.1 = .ok p) (ha : a.2 < p.length)
    {h k : Vec K} (hd : Points p (p.vertex a.2) h) (hk : k ≠ 0) (limit : ℕ) :
    ((∃ x, S.saddleConnection kinds a h (some b) (some k) (some h) (some k) true limit = .ok x) → S.IsSaddle valid a h b k) ∧
    ∀ segs, S.IsSaddleVia valid segs a h b k → segs.length ≤ limit + 1 →
      S.saddleConnection kinds a h (some b) (some k) (some h) (some k) true limit = .ok (saddleOf a h b k) := by
  constructor
  · rintro ⟨x, hx⟩
    obtain ⟨h', b', k', h1, -, -, h4, -, h6, h7⟩ := C68_constructor_sound_partial hS hl hp ha hd (.inl rfl) hx
    rw [h4 b rfl, h6 h rfl, h7 k rfl]
    exact h1
  · intro segs hs hn
    obtain ⟨d, d0, hdd⟩ := unitMax_eq hd.1
    have h3 := flowSaddle_ok hS hs d0 hn (stop := some b) (stopDirection := some (unitMax k)) (holonomy := some h) (stopHolonomy := some k)
      (by simp) (by simp) (by simp) (by simp)
    rw [← hdd] at h3
    unfold saddleConnection
    simp only [if_neg hd.1, bind, Except.bind, pure, Except.pure]
    exact h3

/-- **C68.** The inverse of a saddle connection is the saddle connection in the other direction, and its inverse is the saddle connection. -/
theorem C68_invert (hS : S.Closed valid) (kinds : Kinds) {a b : L × ℕ} {h k : Vec K} (hs : S.IsSaddle valid a h b k) :
    (saddleOf a h b k).invert S kinds = .ok (saddleOf b k a h) ∧ S.IsSaddle valid b k a h ∧
      (saddleOf b k a h).invert S kinds = .ok (saddleOf a h b k) := by
  have hne := isSaddle_ne hS hs
  have key : ∀ {a b : L × ℕ} {h k : Vec K}, h ≠ 0 → k ≠ 0 → (saddleOf a h b k).invert S kinds = .ok (saddleOf b k a h) := by
    intro a b h k hh hk
    obtain ⟨c, c0, hc⟩ := unitMax_eq hk
    obtain ⟨d, d0, hd⟩ := unitMax_eq hh
    have i1 : unitMax (unitMax k) = unitMax k := by rw [hc, unitMax_smul c0, hc]
    have i2 : unitMax (unitMax h) = unitMax h := by rw [hd, unitMax_smul d0, hd]
    unfold Saddle.invert saddleConnection saddleOf
    dsimp only
    rw [if_neg (by rw [hc]; exact smul_ne c0 hk), i1, i2]
    rfl
  obtain ⟨segs, hv⟩ := hs
  exact ⟨key hne.1 hne.2, ⟨_, C68_symm hS hv⟩, key hne.2 hne.1⟩

end RSurf
end Flat
