import Verif.Lemmas.Turns
import Verif.Props.Covers
import Verif.Props.Tangent
import Verif.Props.Euler

/-!
# The edges around a vertex, with their holonomies
-/

namespace Flat
open Real

section
variable {K : Type} [Field K] [LinearOrder K] [IsStrictOrderedRing K] {ι : K →+* ℝ}

/-- A rotation composed with a scaling. -/
structure Mat2.RS (m : Mat2 K) : Prop where
  shape : m.IsRotScale
  ne : ∀ v : Vec K, v ≠ 0 → m.mulVec v ≠ 0

theorem Mat2.RS.mul {m n : Mat2 K} (hm : m.RS) (hn : n.RS) : (m.mul n).RS where
  shape := by
    obtain ⟨h1, h2⟩ := hm.shape
    obtain ⟨h3, h4⟩ := hn.shape
    simp only [Mat2.IsRotScale, Mat2.mul, h1, h2, h3, h4]
    constructor <;> ring
  ne := fun v hv => by rw [Mat2.mulVec_mul]; exact hm.ne _ (hn.ne v hv)

theorem Mat2.RS.of_vec {m : Mat2 K} (h : m.IsRotScale) {u : Vec K} (hu : m.mulVec u ≠ 0) : m.RS where
  shape := h
  ne := by
    obtain ⟨h1, h2⟩ := h
    have hn : m.a * m.a + m.c * m.c ≠ 0 := by
      intro h0
      have ha : m.a = 0 := by nlinarith [mul_self_nonneg m.a, mul_self_nonneg m.c]
      have hc : m.c = 0 := by nlinarith [mul_self_nonneg m.a, mul_self_nonneg m.c]
      apply hu
      simp [Mat2.mulVec, h1, h2, ha, hc]
    intro v hv h0
    have e1 := congrArg Prod.fst h0
    have e2 := congrArg Prod.snd h0
    simp only [Mat2.mulVec, h1, h2, Prod.fst_zero, Prod.snd_zero] at e1 e2
    apply hv
    ext
    · refine (mul_eq_zero.1 (show (m.a * m.a + m.c * m.c) * v.1 = 0 by linear_combination m.a * e1 + m.c * e2)).resolve_left hn
    · refine (mul_eq_zero.1 (show (m.a * m.a + m.c * m.c) * v.2 = 0 by linear_combination m.a * e2 - m.c * e1)).resolve_left hn

theorem Mat2.RS.derivative {g : Similarity K} (hg : g.WF) (hs : g.sign = 1) : g.derivative.RS where
  shape := by simp [Mat2.IsRotScale, Similarity.derivative, hs]
  ne := by
    have hc : ∀ u v : Vec K, ccw (g.derivative.mulVec u) (g.derivative.mulVec v) = (g.a * g.a + g.b * g.b) * ccw u v :=
      Similarity.ccw_derivative hs
    have hn : g.a * g.a + g.b * g.b ≠ 0 := by
      have := Similarity.det_ne_zero g hg
      unfold Similarity.det at this
      rw [hs] at this
      intro h0; apply this; rw [h0, mul_zero]
    intro v hv h0
    have h1 := hc v (-v.2, v.1)
    rw [h0] at h1
    have h2 : ccw v (-v.2, v.1) ≠ 0 := by
      intro h3
      apply hv
      simp only [ccw] at h3
      ext
      · exact mul_self_eq_zero.1 (by nlinarith [mul_self_nonneg v.1, mul_self_nonneg v.2])
      · exact mul_self_eq_zero.1 (by nlinarith [mul_self_nonneg v.1, mul_self_nonneg v.2])
    refine mul_ne_zero hn h2 (h1.symm.trans ?_)
    simp [ccw]

theorem vdir_rs {m : Mat2 K} (hm : m.RS) {v : Vec K} (hv : v ≠ 0) : vdir ι (m.mulVec v) = vdir ι (m.a, m.c) + vdir ι v := by
  obtain ⟨h1, h2⟩ := hm.shape
  have hne : ((m.a, m.c) : Vec K) ≠ 0 := by
    have := hm.ne (1, 0) (by intro h; exact one_ne_zero (congrArg Prod.fst h))
    intro h
    apply this
    have e1 := congrArg Prod.fst h
    have e2 := congrArg Prod.snd h
    simp only [Prod.fst_zero, Prod.snd_zero] at e1 e2
    simp [Mat2.mulVec, e1, e2]
  unfold vdir
  rw [← Complex.arg_mul_coe_angle (cplx_ne_zero ι hne) (cplx_ne_zero ι hv)]
  congr 2
  apply Complex.ext
  · simp [cplx, Mat2.mulVec, h2]; ring
  · simp [cplx, Mat2.mulVec, h1]; ring

/-- Rotations and scalings do not change angles. -/
theorem angleOf_rs {m : Mat2 K} (hm : m.RS) {u v : Vec K} (hu : u ≠ 0) (hv : v ≠ 0) : angleOf ι (m.mulVec u) (m.mulVec v) = angleOf ι u v := by
  have hpi := Real.pi_pos
  have h1 := angleOf_vdir ι (hm.ne u hu) (hm.ne v hv)
  rw [vdir_rs hm hu, vdir_rs hm hv, show vdir ι (m.a, m.c) + vdir ι v - (vdir ι (m.a, m.c) + vdir ι u) = vdir ι v - vdir ι u by abel,
    ← angleOf_vdir ι hu hv] at h1
  have a0 := angleOf_nonneg ι u v
  have a1 := angleOf_lt_one ι u v
  have b0 := angleOf_nonneg ι (m.mulVec u) (m.mulVec v)
  have b1 := angleOf_lt_one ι (m.mulVec u) (m.mulVec v)
  have := eq_of_angle h1 (by nlinarith) (by nlinarith)
  exact mul_left_cancel₀ (by positivity) this

theorem mulVec_neg' (m : Mat2 K) (v : Vec K) : m.mulVec (-v) = -m.mulVec v := by
  ext <;> simp [Mat2.mulVec] <;> ring

end

theorem evens_map {α β : Type} (g : α → β) : ∀ l : List α, evens (l.map g) = (evens l).map g
  | [] => rfl
  | [x] => rfl
  | x :: y :: l => by simp only [List.map_cons, evens, evens_map g l]

theorem odds_map {α β : Type} (g : α → β) (l : List α) : odds (l.map g) = (odds l).map g := by
  unfold odds
  rw [← evens_map]
  cases l <;> rfl

theorem odds_cons {α : Type} (x : α) (l : List α) : odds (x :: l) = evens l := rfl

theorem evens_cons {α : Type} (x : α) (l : List α) : evens (x :: l) = x :: odds l := by
  cases l with
  | nil => rfl
  | cons y l => rfl

namespace RSurf
variable {L K : Type} [Field K] [LinearOrder K] [IsStrictOrderedRing K] {S : RSurf L K} {valid : L → Prop} {ι : K →+* ℝ}

/-- The angle of a polygon at the vertex at which an edge starts. -/
noncomputable def cornerAngle (S : RSurf L K) (ι : K →+* ℝ) (d : L × ℕ) : ℝ :=
  match S.polygon d.1 with
  | .ok p => p.angle ι d.2
  | .error _ => 0

/-- The edge before an edge. -/
def prevDart (S : RSurf L K) (d : L × ℕ) : L × ℕ :=
  match S.polygon d.1 with
  | .ok p => (d.1, (d.2 + (p.length - 1)) % p.length)
  | .error _ => d

theorem cornerAngle_eq {d : L × ℕ} {p : Poly K} (hp : S.polygon d.1 = .ok p) : S.cornerAngle ι d = p.angle ι d.2 := by
  unfold cornerAngle; rw [hp]

theorem prevDart_eq {d : L × ℕ} {p : Poly K} (hp : S.polygon d.1 = .ok p) : S.prevDart d = (d.1, (d.2 + (p.length - 1)) % p.length) := by
  unfold prevDart; rw [hp]

theorem sameVertex_cw {a b : L × ℕ} (ha : S.IsDart valid a) (hb : S.IsDart valid b) (h : Step S.rotateCw a b) : S.SameVertex valid a b :=
  .rel _ _ ⟨ha, hb, h⟩

theorem Bordered.ccw_inj (hS : S.Bordered valid) {a b c : L × ℕ} (ha : S.IsDart valid a) (hb : S.IsDart valid b) (h1 : Step S.rotateCcw a c)
    (h2 : Step S.rotateCcw b c) : a = b := by
  have hc := hS.ccw_valid ha h1
  have k1 := (hS.cw_ccw hc ha).2 h1
  have k2 := (hS.cw_ccw hc hb).2 h2
  unfold Step at k1 k2
  rw [k1] at k2
  injection k2 with k2
  injection k2

theorem Bordered.cw_inj (hS : S.Bordered valid) {a b c : L × ℕ} (ha : S.IsDart valid a) (hb : S.IsDart valid b) (h1 : Step S.rotateCw a c)
    (h2 : Step S.rotateCw b c) : a = b := by
  have hc := hS.cw_valid ha h1
  have k1 := (hS.cw_ccw ha hc).1 h1
  have k2 := (hS.cw_ccw hb hc).1 h2
  unfold Step at k1 k2
  rw [k1] at k2
  injection k2 with k2
  injection k2

/-- A set of edges that contains an edge, and with each edge its neighbours, contains all edges at the vertex. -/
theorem class_subset (hS : S.Bordered valid) {d : L × ℕ} {Z : List (L × ℕ)} (hd : d ∈ Z) (hcw : ∀ z ∈ Z, ∀ z', Step S.rotateCw z z' → z' ∈ Z)
    (hccw : ∀ z ∈ Z, ∀ z', Step S.rotateCcw z z' → z' ∈ Z) {a : L × ℕ} (h : S.SameVertex valid d a) : a ∈ Z := by
  have key : ∀ a b, S.SameVertex valid a b → (a ∈ Z ↔ b ∈ Z) := by
    intro a b hab
    induction hab with
    | rel a b h => exact ⟨fun hz => hcw a hz b h.2.2, fun hz => hccw b hz a ((hS.cw_ccw h.1 h.2.1).1 h.2.2)⟩
    | refl => rfl
    | symm _ _ _ ih => exact ih.symm
    | trans _ _ _ _ _ ih1 ih2 => exact ih1.trans ih2
  exact (key d a h).1 hd

/-- The first edge: on the boundary, or the vertex is not on the boundary. -/
def IsFirst (S : RSurf L K) (valid : L → Prop) (d : L × ℕ) : Prop :=
  S.opp d.1 d.2 = .ok none ∨ ∀ a, S.SameVertex valid d a → ∃ b, Step S.rotateCcw a b

section
variable [DecidableEq L]

theorem cwToBoundary_spec (hS : S.Bordered valid) {d : L × ℕ} {ds : List (L × ℕ)} (hds : ∀ a, S.SameVertex valid d a → a ∈ ds) :
    ∀ (fuel : ℕ) (cur : L × ℕ) (acc : List (L × ℕ)), (∀ a ∈ cur :: acc, S.IsDart valid a ∧ S.SameVertex valid d a) → d ∈ cur :: acc →
      (cur :: acc).Nodup → (∀ z ∈ cur :: acc, z ≠ d → ∃ z' ∈ acc, Step S.rotateCw z' z) → (∀ z ∈ acc, ∃ z' ∈ cur :: acc, Step S.rotateCw z z') →
      ds.length < fuel + acc.length →
      ∃ s, S.cwToBoundary d fuel cur = .ok s ∧ S.SameVertex valid d s ∧ S.IsFirst valid s := by
  intro fuel
  induction fuel with
  | zero =>
    intro cur acc hv _ hn _ _ hf
    exfalso
    have : (cur :: acc) ⊆ ds := fun a ha => hds a (hv a ha).2
    have := (hn.subperm this).length_le
    simp only [List.length_cons] at this
    omega
  | succ fuel ih =>
    intro cur acc hv hd hn hpred hsucc hf
    have hcur := hv cur List.mem_cons_self
    obtain ⟨o, ho, hval⟩ := hS.rotateCw_ok hcur.1
    rw [cwToBoundary]
    simp only [ho, bind, Except.bind, pure, Except.pure]
    cases o with
    | none =>
      refine ⟨cur, rfl, hcur.2, .inl ?_⟩
      obtain ⟨hl, p, hp, he⟩ := hcur.1
      rcases hS.glue cur.1 p cur.2 hl hp he with h | ⟨m, f, p', h, hm, hp', hf, hb⟩
      · exact h
      · exfalso
        unfold rotateCw at ho
        simp only [h, hp', bind, Except.bind, pure, Except.pure] at ho
        injection ho with ho
        cases ho
    | some nxt =>
      have hstep : Step S.rotateCw cur nxt := ho
      have hnv := hval nxt rfl
      by_cases hnd : nxt = d
      · simp only [if_pos hnd]
        subst hnd
        refine ⟨nxt, rfl, .refl _, .inr (fun a ha => ?_)⟩
        -- the edges form a cycle
        have hcw : ∀ z ∈ cur :: acc, ∃ z' ∈ cur :: acc, Step S.rotateCw z z' := by
          intro z hz
          rcases List.mem_cons.1 hz with rfl | hz
          · exact ⟨nxt, hd, hstep⟩
          · exact hsucc z hz
        have hccw : ∀ z ∈ cur :: acc, ∃ z' ∈ cur :: acc, Step S.rotateCcw z z' := by
          intro z hz
          by_cases hzn : z = nxt
          · subst hzn
            exact ⟨cur, List.mem_cons_self, (hS.cw_ccw hcur.1 hnv).1 hstep⟩
          · obtain ⟨z', hz', hst⟩ := hpred z hz hzn
            exact ⟨z', List.mem_cons_of_mem _ hz', (hS.cw_ccw (hv z' (List.mem_cons_of_mem _ hz')).1 (hv z hz).1).1 hst⟩
        have hmem := class_subset hS hd (fun z hz z' h => by
          obtain ⟨z2, hz2, h2⟩ := hcw z hz
          unfold Step at h h2; rw [h] at h2; injection h2 with h2; injection h2 with h2; rw [h2]; exact hz2) (fun z hz z' h => by
          obtain ⟨z2, hz2, h2⟩ := hccw z hz
          unfold Step at h h2; rw [h] at h2; injection h2 with h2; injection h2 with h2; rw [h2]; exact hz2) ha
        obtain ⟨b, -, hb⟩ := hccw a hmem
        exact ⟨b, hb⟩
      · simp only [if_neg hnd]
        refine ih nxt (cur :: acc) ?_ (List.mem_cons_of_mem _ hd) ?_ ?_ ?_ (by simp only [List.length_cons]; omega)
        · intro a ha
          rcases List.mem_cons.1 ha with rfl | ha
          · exact ⟨hnv, .trans _ _ _ hcur.2 (sameVertex_cw hcur.1 hnv hstep)⟩
          · exact hv a ha
        · refine List.nodup_cons.2 ⟨fun hmem => ?_, hn⟩
          obtain ⟨z', hz', hst⟩ := hpred nxt hmem hnd
          have := hS.cw_inj (hv z' (List.mem_cons_of_mem _ hz')).1 hcur.1 hst hstep
          subst this
          exact (List.nodup_cons.1 hn).1 hz'
        · intro z hz hzd
          rcases List.mem_cons.1 hz with rfl | hz
          · exact ⟨cur, List.mem_cons_self, hstep⟩
          · obtain ⟨z', hz', hst⟩ := hpred z hz hzd
            exact ⟨z', List.mem_cons_of_mem _ hz', hst⟩
        · intro z hz
          rcases List.mem_cons.1 hz with rfl | hz
          · exact ⟨nxt, List.mem_cons_self, hstep⟩
          · obtain ⟨z', hz', hst⟩ := hsucc z hz
            exact ⟨z', List.mem_cons_of_mem _ hz', hst⟩

/-- The linear part of the gluing of an edge. -/
theorem derivative_spec (hS : S.Bordered valid) {d c : L × ℕ} {p q : Poly K} (hd : S.IsDart valid d) (hp : S.polygon d.1 = .ok p)
    (ho : S.opp d.1 d.2 = .ok (some c)) (hq : S.polygon c.1 = .ok q) :
    ∃ g, S.edgeTransformation c.1 c.2 = .ok g ∧ g.derivative.RS ∧ g.derivative.mulVec (q.edge c.2) = -p.edge d.2 := by
  obtain ⟨hc, hb⟩ := hS.opp_symm hd ho
  obtain ⟨g, h1, h2, h3, h4, h5⟩ := edgeTransformation_ok (l' := d.1) (e' := d.2) hb hq hp
    ((hS.valid_of_polygon hc.1 hq).edge_ne _) ((hS.valid_of_polygon hd.1 hp).edge_ne _)
  refine ⟨g, h1, .derivative h2 h3, ?_⟩
  have := Similarity.call_add h3 (q.vertex c.2) (q.edge c.2)
  rw [show q.vertex c.2 + q.edge c.2 = q.vertex (c.2 + 1) by unfold Poly.edge; abel, h4, h5] at this
  rw [← this]
  unfold Poly.edge
  abel

/-- The vectors that are reported for the two edges of a polygon at a vertex are the vectors of these edges, moved by a matrix from `M`. -/
def CornerBy (S : RSurf L K) (M : Mat2 K → Prop) (c : L × ℕ) (v : Vec K × Vec K) : Prop :=
  ∃ m p, M m ∧ S.polygon c.1 = .ok p ∧ v.1 = m.mulVec (p.edge c.2) ∧ v.2 = -m.mulVec (p.edge ((c.2 + (p.length - 1)) % p.length))

/-- A set of rotations with scalings that contains with a matrix its products with the linear parts of the gluings. -/
structure Moves (S : RSurf L K) (valid : L → Prop) (M : Mat2 K → Prop) : Prop where
  rs : ∀ m, M m → m.RS
  mul : ∀ m d c p q n, M m → S.IsDart valid d → S.polygon d.1 = .ok p → S.opp d.1 d.2 = .ok (some c) → S.polygon c.1 = .ok q → n.RS →
    n.mulVec (q.edge c.2) = -p.edge d.2 → M (m.mul n)

/-- The loop around the vertex. -/
theorem ccwHolonomies_spec {M : Mat2 K → Prop} (hM : S.Moves valid M) (hS : S.Bordered valid) {start : L × ℕ} (hfirst : S.IsFirst valid start) {ds : List (L × ℕ)}
    (hds : ∀ a, S.SameVertex valid start a → a ∈ ds) :
    ∀ (fuel : ℕ) (sim : Mat2 K) (cur : L × ℕ) (acc : List (L × ℕ)) (p : Poly K),
      (∀ a ∈ cur :: acc, S.IsDart valid a ∧ S.SameVertex valid start a) → (cur :: acc).Nodup →
      (∀ z ∈ cur :: acc, z ≠ start → ∃ z' ∈ acc, Step S.rotateCcw z' z) → M sim → S.polygon cur.1 = .ok p → ds.length < fuel + acc.length →
      ∃ r Cs, S.ccwHolonomies start fuel sim cur = .ok r ∧ (∀ a ∈ cur :: Cs, S.IsDart valid a ∧ S.SameVertex valid start a) ∧
        (Cs.reverse ++ cur :: acc).Nodup ∧ (cur :: Cs).IsChain (Step S.rotateCcw) ∧
        (Step S.rotateCcw (Cs.getLastD cur) start ∨ S.rotateCcw (Cs.getLastD cur) = .ok none ∧ S.opp start.1 start.2 = .ok none) ∧
        (evens r).map Prod.fst = (cur :: Cs).map S.prevDart ∧ (odds r).map Prod.fst = Cs ∧
        (odds r).map Prod.snd = ((evens r).map Prod.snd).dropLast ∧ (∀ x ∈ r, x.2 ≠ 0) ∧
        (∀ ι : K →+* ℝ, pathAngle ι (sim.mulVec (p.edge cur.2)) ((evens r).map Prod.snd) = ((cur :: Cs).map (S.cornerAngle ι)).sum) ∧
        List.Forall₂ (S.CornerBy M) (cur :: Cs) ((sim.mulVec (p.edge cur.2) :: (odds r).map Prod.snd).zip ((evens r).map Prod.snd)) := by
  intro fuel
  induction fuel with
  | zero =>
    intro sim cur acc p hv hn _ _ _ hf
    exfalso
    have : (cur :: acc) ⊆ ds := fun a ha => hds a (hv a ha).2
    have := (hn.subperm this).length_le
    simp only [List.length_cons] at this
    omega
  | succ fuel ih =>
    intro sim cur acc p hv hn hpred hMsim hp hf
    have hsim := hM.rs sim hMsim
    have hcur := hv cur List.mem_cons_self
    have hlt : cur.2 < p.length := by
      obtain ⟨-, p', hp', he⟩ := hcur.1
      rw [hp] at hp'; injection hp' with hp'; subst hp'; exact he
    have hpv := hS.valid_of_polygon hcur.1.1 hp
    have h3 := hpv.len3
    set ex : L × ℕ := (cur.1, (cur.2 + (p.length - 1)) % p.length) with hex
    have hexd : S.IsDart valid ex := ⟨hcur.1.1, p, hp, Nat.mod_lt _ (by omega)⟩
    have hrot : S.rotateCcw cur = S.opp ex.1 ex.2 := by
      unfold rotateCcw
      simp only [hp, bind, Except.bind]
      rfl
    have hne : -sim.mulVec (p.edge ex.2) ≠ 0 := neg_ne_zero.2 (hsim.ne _ (hpv.edge_ne _))
    have hang : ∀ ι : K →+* ℝ, angleOf ι (sim.mulVec (p.edge cur.2)) (-sim.mulVec (p.edge ex.2)) = S.cornerAngle ι cur := by
      intro ι
      rw [← mulVec_neg', angleOf_rs hsim (hpv.edge_ne _) (neg_ne_zero.2 (hpv.edge_ne _)), cornerAngle_eq hp]
      rfl
    have hprev : S.prevDart cur = ex := prevDart_eq hp
    rw [ccwHolonomies]
    simp only [hp, bind, Except.bind, ← hex]
    cases hopp : S.opp ex.1 ex.2 with
    | error e =>
      exfalso
      rcases hS.opp_ok hexd with h | ⟨c, h, -⟩ <;> rw [hopp] at h <;> cases h
    | ok o =>
      cases o with
      | none =>
        have hnone : S.opp start.1 start.2 = .ok none := by
          rcases hfirst with h | h
          · exact h
          · obtain ⟨b, hb⟩ := h cur hcur.2
            unfold Step at hb
            rw [hrot, hopp] at hb
            injection hb with hb
            cases hb
        simp only [hnone, pure, Except.pure, Option.isSome_none, Bool.false_eq_true, if_false]
        refine ⟨_, [], rfl, ?_, by simpa using hn, by simp, .inr ⟨by rw [List.getLastD_nil, hrot, hopp], trivial⟩, ?_, rfl, rfl, ?_, ?_, .cons ⟨sim, p, hMsim, hp, rfl, rfl⟩ .nil⟩
        · intro a ha
          rw [List.mem_singleton] at ha
          subst ha
          exact hcur
        · simp [evens, hprev]
        · intro x hx
          rw [List.mem_singleton] at hx
          subst hx
          exact hne
        · intro ι; simp only [evens, List.map_cons, List.map_nil, pathAngle, List.sum_cons, List.sum_nil]; rw [← hang]
      | some enter =>
        have hstep : Step S.rotateCcw cur enter := by unfold Step; rw [hrot, hopp]
        have hev := hS.ccw_valid hcur.1 hstep
        obtain ⟨q, hq, hqe⟩ := hev.2
        obtain ⟨g, hg, hgrs, hgv⟩ := derivative_spec hS hexd hp hopp hq
        simp only [hg]
        by_cases hes : enter = start
        · simp only [if_pos hes, pure, Except.pure]
          refine ⟨_, [], rfl, ?_, by simpa using hn, by simp, .inl (by rw [List.getLastD_nil, ← hes]; exact hstep), ?_, rfl, rfl, ?_, ?_, .cons ⟨sim, p, hMsim, hp, rfl, rfl⟩ .nil⟩
          · intro a ha
            rw [List.mem_singleton] at ha
            subst ha
            exact hcur
          · simp [evens, hprev]
          · intro x hx
            rw [List.mem_singleton] at hx
            subst hx
            exact hne
          · intro ι; simp only [evens, List.map_cons, List.map_nil, pathAngle, List.sum_cons, List.sum_nil]; rw [← hang]
        · simp only [if_neg hes, hq]
          have hsv : S.SameVertex valid start enter :=
            .trans _ _ _ hcur.2 (.symm _ _ (sameVertex_cw hev hcur.1 ((hS.cw_ccw hev hcur.1).2 hstep)))
          obtain ⟨r, Cs, i1, i2, i3, i4, i5, i6, i7, i8, i9, i10, i11⟩ := ih (sim.mul g.derivative) enter (cur :: acc) q (by
              intro a ha
              rcases List.mem_cons.1 ha with rfl | ha
              · exact ⟨hev, hsv⟩
              · exact hv a ha) (by
              refine List.nodup_cons.2 ⟨fun hmem => ?_, hn⟩
              obtain ⟨z', hz', hst⟩ := hpred enter hmem hes
              have := hS.ccw_inj (hv z' (List.mem_cons_of_mem _ hz')).1 hcur.1 hst hstep
              subst this
              exact (List.nodup_cons.1 hn).1 hz') (by
              intro z hz hzd
              rcases List.mem_cons.1 hz with rfl | hz
              · exact ⟨cur, List.mem_cons_self, hstep⟩
              · obtain ⟨z', hz', hst⟩ := hpred z hz hzd
                exact ⟨z', List.mem_cons_of_mem _ hz', hst⟩) (hM.mul sim ex enter p q g.derivative hMsim hexd hp hopp hq hgrs hgv) hq (by simp only [List.length_cons]; omega)
          have hhol : (sim.mul g.derivative).mulVec (q.edge enter.2) = -sim.mulVec (p.edge ex.2) := by
            rw [Mat2.mulVec_mul, hgv, mulVec_neg']
          simp only [i1, pure, Except.pure]
          refine ⟨_, enter :: Cs, rfl, ?_, ?_, ?_, ?_, ?_, ?_, ?_, ?_, ?_, ?_⟩
          · intro a ha
            rcases List.mem_cons.1 ha with rfl | ha
            · exact hcur
            · exact i2 a ha
          · rw [List.reverse_cons, List.append_assoc]; exact i3
          · exact List.IsChain.cons_cons hstep i4
          · rw [List.getLastD_cons]; exact i5
          · rw [evens_cons, odds_cons, List.map_cons, i6, List.map_cons, List.map_cons, List.map_cons, hprev]
          · rw [odds_cons, evens_cons, List.map_cons, i7]
          · rw [odds_cons, evens_cons, evens_cons, odds_cons, List.map_cons, List.map_cons, i8, List.dropLast_cons_of_ne_nil]
            · rw [hhol]
            · intro h
              have := congrArg List.length i6
              rw [List.map_eq_nil_iff] at h
              rw [h] at this
              simp at this
          · intro x hx
            rcases List.mem_cons.1 hx with rfl | hx
            · exact hne
            · rcases List.mem_cons.1 hx with rfl | hx
              · rw [hhol]; exact hne
              · exact i9 x hx
          · intro ι; rw [evens_cons, odds_cons, List.map_cons, pathAngle, hang, List.map_cons, List.sum_cons, ← i10, hhol]
          · rw [odds_cons, evens_cons, evens_cons, odds_cons, List.map_cons, List.map_cons, List.zip_cons_cons]
            exact .cons ⟨sim, p, hMsim, hp, rfl, rfl⟩ i11

/-- At a boundary vertex the loop only succeeds if it starts at the boundary. -/
theorem ccwHolonomies_error (hS : S.Bordered valid) {start : L × ℕ} (hglued : ∃ c, S.opp start.1 start.2 = .ok (some c)) {b : L × ℕ}
    (hb : S.SameVertex valid start b) (hnone : S.rotateCcw b = .ok none) {ds : List (L × ℕ)} (hds : ∀ a, S.SameVertex valid start a → a ∈ ds) :
    ∀ (fuel : ℕ) (sim : Mat2 K) (cur : L × ℕ) (acc : List (L × ℕ)),
      (∀ a ∈ cur :: acc, S.IsDart valid a ∧ S.SameVertex valid start a) → start ∈ cur :: acc → (cur :: acc).Nodup →
      (∀ z ∈ cur :: acc, z ≠ start → ∃ z' ∈ acc, Step S.rotateCcw z' z) → (∀ z ∈ acc, ∃ z' ∈ cur :: acc, Step S.rotateCcw z z') →
      ds.length < fuel + acc.length → S.ccwHolonomies start fuel sim cur = .error .valueError := by
  intro fuel
  induction fuel with
  | zero =>
    intro sim cur acc hv _ hn _ _ hf
    exfalso
    have : (cur :: acc) ⊆ ds := fun a ha => hds a (hv a ha).2
    have := (hn.subperm this).length_le
    simp only [List.length_cons] at this
    omega
  | succ fuel ih =>
    intro sim cur acc hv hd hn hpred hsucc hf
    have hcur := hv cur List.mem_cons_self
    obtain ⟨hl, p, hp, hlt⟩ := hcur.1
    have h3 := (hS.valid_of_polygon hl hp).len3
    set ex : L × ℕ := (cur.1, (cur.2 + (p.length - 1)) % p.length) with hex
    have hexd : S.IsDart valid ex := ⟨hl, p, hp, Nat.mod_lt _ (by omega)⟩
    have hrot : S.rotateCcw cur = S.opp ex.1 ex.2 := by
      unfold rotateCcw
      simp only [hp, bind, Except.bind]
      rfl
    rw [ccwHolonomies]
    simp only [hp, bind, Except.bind, ← hex]
    rcases hS.opp_ok hexd with hopp | ⟨enter, hopp, hev, -⟩
    · obtain ⟨c, hc⟩ := hglued
      replace hopp : S.opp cur.1 ((cur.2 + (p.length - 1)) % p.length) = .ok none := hopp
      simp only [hopp, hc, Option.isSome_some, if_true]
      rfl
    · have hstep : Step S.rotateCcw cur enter := by unfold Step; rw [hrot, hopp]
      obtain ⟨q, hq, hqe⟩ := id hev.2
      obtain ⟨g, hg, -, -⟩ := derivative_spec hS hexd hp hopp hq
      replace hopp : S.opp cur.1 ((cur.2 + (p.length - 1)) % p.length) = .ok (some enter) := hopp
      simp only [hopp, hg]
      by_cases hes : enter = start
      · exfalso
        subst hes
        have hccw : ∀ z ∈ cur :: acc, ∃ z' ∈ cur :: acc, Step S.rotateCcw z z' := by
          intro z hz
          rcases List.mem_cons.1 hz with rfl | hz
          · exact ⟨enter, hd, hstep⟩
          · exact hsucc z hz
        have hcw : ∀ z ∈ cur :: acc, ∃ z' ∈ cur :: acc, Step S.rotateCw z z' := by
          intro z hz
          by_cases hzn : z = enter
          · subst hzn
            exact ⟨cur, List.mem_cons_self, (hS.cw_ccw hev hcur.1).2 hstep⟩
          · obtain ⟨z', hz', hst⟩ := hpred z hz hzn
            exact ⟨z', List.mem_cons_of_mem _ hz', (hS.cw_ccw (hv z hz).1 (hv z' (List.mem_cons_of_mem _ hz')).1).2 hst⟩
        have hmem := class_subset hS hd (fun z hz z' h => by
          obtain ⟨z2, hz2, h2⟩ := hcw z hz
          unfold Step at h h2; rw [h] at h2; injection h2 with h2; injection h2 with h2; rw [h2]; exact hz2) (fun z hz z' h => by
          obtain ⟨z2, hz2, h2⟩ := hccw z hz
          unfold Step at h h2; rw [h] at h2; injection h2 with h2; injection h2 with h2; rw [h2]; exact hz2) hb
        obtain ⟨b', -, hb'⟩ := hccw b hmem
        unfold Step at hb'
        rw [hnone] at hb'
        injection hb' with hb'
        cases hb'
      · simp only [if_neg hes, hq]
        have hsv : S.SameVertex valid start enter :=
          .trans _ _ _ hcur.2 (.symm _ _ (sameVertex_cw hev hcur.1 ((hS.cw_ccw hev hcur.1).2 hstep)))
        rw [ih (sim.mul g.derivative) enter (cur :: acc) (by
              intro a ha
              rcases List.mem_cons.1 ha with rfl | ha
              · exact ⟨hev, hsv⟩
              · exact hv a ha) (List.mem_cons_of_mem _ hd) (by
              refine List.nodup_cons.2 ⟨fun hmem => ?_, hn⟩
              obtain ⟨z', hz', hst⟩ := hpred enter hmem hes
              have := hS.ccw_inj (hv z' (List.mem_cons_of_mem _ hz')).1 hcur.1 hst hstep
              subst this
              exact (List.nodup_cons.1 hn).1 hz') (by
              intro z hz hzd
              rcases List.mem_cons.1 hz with rfl | hz
              · exact ⟨cur, List.mem_cons_self, hstep⟩
              · obtain ⟨z', hz', hst⟩ := hpred z hz hzd
                exact ⟨z', List.mem_cons_of_mem _ hz', hst⟩) (by
              intro z hz
              rcases List.mem_cons.1 hz with rfl | hz
              · exact ⟨enter, List.mem_cons_self, hstep⟩
              · obtain ⟨z', hz', hst⟩ := hsucc z hz
                exact ⟨z', List.mem_cons_of_mem _ hz', hst⟩) (by simp only [List.length_cons]; omega)]

end
end RSurf
end Flat
