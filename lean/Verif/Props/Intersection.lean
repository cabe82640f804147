import Verif.Props.Homology
import Mathlib.Dynamics.PeriodicPts.Lemmas
import Mathlib.Tactic.LinearCombination
import Mathlib.Tactic.IntervalCases

/-!
# C40: the algebraic intersection of closed curves
-/

namespace Flat
namespace RSurf
variable {L K : Type} [Field K] [LinearOrder K] [IsStrictOrderedRing K] {S : RSurf L K} {valid : L → Prop}

/-- Counterclockwise rotation about a vertex. -/
theorem Closed.ccw_perm (hS : S.Closed valid) (d : {d // S.IsDart valid d}) :
    S.rotateCcw d.1 = .ok (some (((nextPerm hS.bordered * oppPerm hS)⁻¹ d : {d // S.IsDart valid d})).1) := by
  have h1 : Step S.rotateCw ((nextPerm hS.bordered * oppPerm hS)⁻¹ d).1 d.1 := (step_perm hS _ _).2 (by simp)
  have h2 := (hS.bordered.cw_ccw (Subtype.prop _) d.2).1 h1
  exact h2

section
variable [DecidableEq L]

theorem ccwLoop_eq (hS : S.Closed valid) (x : {d // S.IsDart valid d}) {n : ℕ}
    (hn : n = Function.minimalPeriod ((nextPerm hS.bordered * oppPerm hS)⁻¹ : Equiv.Perm _) x) : ∀ (m j fuel : ℕ), j + m + 1 = n → m < fuel →
    S.ccwLoop x.1 fuel (((nextPerm hS.bordered * oppPerm hS)⁻¹ : Equiv.Perm _)^[j] x).1 =
      .ok ((List.range' j (m + 1)).map (fun k => ((((nextPerm hS.bordered * oppPerm hS)⁻¹ : Equiv.Perm _)^[k] x) : {d // S.IsDart valid d}).1)) := by
  intro m
  induction m with
  | zero =>
    intro j fuel hj hf
    obtain ⟨fuel, rfl⟩ := Nat.exists_eq_succ_of_ne_zero (Nat.pos_iff_ne_zero.1 hf)
    have h := hS.ccw_perm ((((nextPerm hS.bordered * oppPerm hS)⁻¹ : Equiv.Perm _)^[j]) x)
    rw [← Function.iterate_succ_apply' (f := (((nextPerm hS.bordered * oppPerm hS)⁻¹ : Equiv.Perm {d // S.IsDart valid d}) : _ → _))] at h
    have hx : (((nextPerm hS.bordered * oppPerm hS)⁻¹ : Equiv.Perm _)^[j + 1]) x = x := by
      have : j + 1 = n := by omega
      rw [this, hn]; exact Function.isPeriodicPt_minimalPeriod _ _
    rw [hx] at h
    rw [ccwLoop]
    simp only [h, bind, Except.bind, if_true, pure, Except.pure]
    rfl
  | succ m ih =>
    intro j fuel hj hf
    obtain ⟨fuel, rfl⟩ := Nat.exists_eq_succ_of_ne_zero (by omega : fuel ≠ 0)
    have h := hS.ccw_perm ((((nextPerm hS.bordered * oppPerm hS)⁻¹ : Equiv.Perm _)^[j]) x)
    rw [← Function.iterate_succ_apply' (f := (((nextPerm hS.bordered * oppPerm hS)⁻¹ : Equiv.Perm {d // S.IsDart valid d}) : _ → _))] at h
    have hx : ((((nextPerm hS.bordered * oppPerm hS)⁻¹ : Equiv.Perm _)^[j + 1]) x).1 ≠ x.1 := by
      intro he
      have := Function.not_isPeriodicPt_of_pos_of_lt_minimalPeriod (f := (((nextPerm hS.bordered * oppPerm hS)⁻¹ : Equiv.Perm {d // S.IsDart valid d}) : _ → _))
        (x := x) (n := j + 1) (by omega) (by omega)
      exact this (Subtype.ext he)
    have ih' := ih (j + 1) fuel (by omega) (by omega)
    rw [ccwLoop]
    simp only [h, bind, Except.bind, if_neg hx, pure, Except.pure, ih']
    conv_rhs => rw [List.range'_succ, List.map_cons]

/-- `edges_ccw` at a vertex: the edges that leave the vertex, each once, in counterclockwise order. -/
theorem edgesCcw_spec (hS : S.Closed valid) {es : List (L × ℕ)} (hes : ∀ d, d ∈ es ↔ S.IsDart valid d) {fuel : ℕ} (hf : es.length < fuel)
    {x : L × ℕ} (hx : S.IsDart valid x) : ∃ (g : ℕ → L × ℕ) (n : ℕ), S.edgesCcw fuel x = .ok ((List.range' 0 n).map g) ∧
      g n = g 0 ∧ ((List.range' 0 n).map g).Nodup ∧ (∀ y, y ∈ (List.range' 0 n).map g ↔ S.SameVertex valid x y) ∧
      (∀ k, S.IsDart valid (g k)) ∧ ∀ k, (S.oppF (g (k + 1))).1 = (g k).1 := by
  classical
  have hfin := dart_finite hes
  set τ : Equiv.Perm {d // S.IsDart valid d} := (nextPerm hS.bordered * oppPerm hS)⁻¹ with hτ
  set n := Function.minimalPeriod τ ⟨x, hx⟩ with hn
  have hper : (⟨x, hx⟩ : {d // S.IsDart valid d}) ∈ Function.periodicPts τ := by
    refine Function.mem_periodicPts.2 ⟨orderOf τ, orderOf_pos τ, ?_⟩
    show (τ : _ → _)^[orderOf τ] _ = _
    rw [← Equiv.Perm.coe_pow, pow_orderOf_eq_one]; rfl
  have hpos : 0 < n := Function.minimalPeriod_pos_of_mem_periodicPts hper
  have hinj : ∀ a b, a < n → b < n → τ^[a] ⟨x, hx⟩ = τ^[b] ⟨x, hx⟩ → a = b := fun a b ha hb h =>
    Function.iterate_injOn_Iio_minimalPeriod ha hb h
  have hnodup : ((List.range' 0 n).map (fun k => (τ^[k] ⟨x, hx⟩).1)).Nodup := by
    refine List.Nodup.map_on ?_ (List.nodup_range')
    intro a ha b hb h
    rw [List.mem_range'_1] at ha hb
    exact hinj a b (by omega) (by omega) (Subtype.ext h)
  have hle : n ≤ es.length := by
    have h1 : ((List.range' 0 n).map (fun k => (τ^[k] ⟨x, hx⟩).1)).toFinset ⊆ es.toFinset := by
      intro y hy
      rw [List.mem_toFinset] at hy ⊢
      obtain ⟨k, -, rfl⟩ := List.mem_map.1 hy
      exact (hes _).2 (Subtype.prop _)
    have h2 := Finset.card_le_card h1
    rw [List.toFinset_card_of_nodup hnodup] at h2
    simp only [List.length_map, List.length_range'] at h2
    exact h2.trans (List.toFinset_card_le _)
  refine ⟨fun k => (τ^[k] ⟨x, hx⟩).1, n, ?_, congrArg Subtype.val (Function.isPeriodicPt_minimalPeriod τ ⟨x, hx⟩), hnodup, ?_, fun k => Subtype.prop _, ?_⟩
  · obtain ⟨m, hm⟩ := Nat.exists_eq_succ_of_ne_zero (Nat.pos_iff_ne_zero.1 hpos)
    have := ccwLoop_eq hS ⟨x, hx⟩ hn m 0 fuel (by omega) (by omega)
    rw [hm]
    exact this
  · intro y
    constructor
    · intro hy
      obtain ⟨k, -, rfl⟩ := List.mem_map.1 hy
      refine (sameVertex_perm hS ⟨x, hx⟩ _).2 ⟨-(k : ℤ), ?_⟩
      rw [zpow_neg, ← inv_zpow, ← hτ, zpow_natCast, Equiv.Perm.coe_pow]
    · intro hy
      have hyd := (sameVertex_valid hy).1 hx
      have hsc := ((sameVertex_perm hS ⟨x, hx⟩ ⟨y, hyd⟩).1 hy).inv
      rw [← hτ] at hsc
      obtain ⟨i, hi⟩ := hsc.exists_nat_pow_eq
      rw [Equiv.Perm.coe_pow] at hi
      refine List.mem_map.2 ⟨i % n, ?_, ?_⟩
      · rw [List.mem_range'_1]; exact ⟨Nat.zero_le _, by have := Nat.mod_lt i hpos; omega⟩
      · have := Function.iterate_mod_minimalPeriod_eq (f := τ) (x := (⟨x, hx⟩ : {d // S.IsDart valid d})) (n := i)
        rw [← hn] at this
        rw [this, hi]
  · intro k
    have h := hS.ccw_perm ((τ^[k]) ⟨x, hx⟩)
    rw [← hτ, ← Function.iterate_succ_apply' (f := (τ : _ → _))] at h
    obtain ⟨hl, p, hp, he⟩ := (τ^[k] ⟨x, hx⟩).2
    unfold rotateCcw at h
    simp only [hp, bind, Except.bind] at h
    have hprev : S.IsDart valid ((τ^[k] ⟨x, hx⟩).1.1, ((τ^[k] ⟨x, hx⟩).1.2 + (p.length - 1)) % p.length) :=
      ⟨hl, p, hp, Nat.mod_lt _ (by omega)⟩
    have h2 := hS.opp_oppF hprev
    rw [h] at h2
    injection h2 with h2
    injection h2 with h2
    show (S.oppF (τ^[k + 1] ⟨x, hx⟩).1).1 = _
    rw [h2, hS.oppF_oppF hprev]

variable {R : Type} [CommRing R]

/-- The flow of a chain along an edge: the coefficient of the edge minus that of the opposite edge. -/
def flow (S : RSurf L K) (m : L × ℕ → R) (d : L × ℕ) : R := m d - m (S.oppF d)

/-- The contribution of the edges at a vertex. -/
def pairSum (S : RSurf L K) (m o : L × ℕ → R) : R → List (L × ℕ) → R
  | _, [] => 0
  | c, d :: ds => (c + m d) * S.flow o d + pairSum S m o (c + S.flow m d) ds

theorem crossLoop_eq (hS : S.Closed valid) (m o : L × ℕ → R) (ds : List (L × ℕ)) : ∀ (i c oc : R), (∀ d ∈ ds, S.IsDart valid d) →
    S.crossLoop m o (i, c, oc) ds = .ok (i + S.pairSum m o c ds, c + (ds.map (S.flow m)).sum, oc + (ds.map (S.flow o)).sum) := by
  induction ds with
  | nil => intro i c oc _; simp [crossLoop, pairSum]
  | cons d ds ih =>
    intro i c oc hd
    rw [crossLoop, hS.opp!_oppF (hd d List.mem_cons_self)]
    simp only [bind, Except.bind]
    rw [ih _ _ _ (fun e he => hd e (List.mem_cons_of_mem _ he))]
    simp only [pairSum, List.map_cons, List.sum_cons]
    have h1 : c + m d - m (S.oppF d) = c + S.flow m d := by unfold flow; ring
    rw [h1]
    refine congrArg Except.ok (Prod.ext ?_ (Prod.ext ?_ ?_))
    · simp only [flow]; ring
    · simp only [flow]; ring
    · simp only [flow]; ring

theorem pairSum_add_left (m m' o : L × ℕ → R) (ds : List (L × ℕ)) : ∀ c c' : R,
    S.pairSum (m + m') o (c + c') ds = S.pairSum m o c ds + S.pairSum m' o c' ds := by
  induction ds with
  | nil => intro c c'; simp [pairSum]
  | cons d ds ih =>
    intro c c'
    simp only [pairSum]
    have : c + c' + S.flow (m + m') d = (c + S.flow m d) + (c' + S.flow m' d) := by simp only [flow, Pi.add_apply]; ring
    rw [this, ih]
    simp only [Pi.add_apply]; ring

theorem pairSum_smul_left (r : R) (m o : L × ℕ → R) (ds : List (L × ℕ)) : ∀ c : R,
    S.pairSum (r • m) o (r * c) ds = r * S.pairSum m o c ds := by
  induction ds with
  | nil => intro c; simp [pairSum]
  | cons d ds ih =>
    intro c
    simp only [pairSum]
    have : r * c + S.flow (r • m) d = r * (c + S.flow m d) := by simp only [flow, Pi.smul_apply, smul_eq_mul]; ring
    rw [this, ih]
    simp only [Pi.smul_apply, smul_eq_mul]; ring

theorem pairSum_add_right (m o o' : L × ℕ → R) (ds : List (L × ℕ)) : ∀ c : R,
    S.pairSum m (o + o') c ds = S.pairSum m o c ds + S.pairSum m o' c ds := by
  induction ds with
  | nil => intro c; simp [pairSum]
  | cons d ds ih =>
    intro c
    simp only [pairSum, ih]
    simp only [flow, Pi.add_apply]; ring

theorem pairSum_smul_right (r : R) (m o : L × ℕ → R) (ds : List (L × ℕ)) : ∀ c : R,
    S.pairSum m (r • o) c ds = r * S.pairSum m o c ds := by
  induction ds with
  | nil => intro c; simp [pairSum]
  | cons d ds ih =>
    intro c
    simp only [pairSum, ih]
    simp only [flow, Pi.smul_apply, smul_eq_mul]; ring

/-- Exchanging the chains. -/
theorem pairSum_swap (m o : L × ℕ → R) (ds : List (L × ℕ)) : ∀ c c' : R, S.pairSum m o c ds + S.pairSum o m c' ds =
    (c + (ds.map (S.flow m)).sum) * (c' + (ds.map (S.flow o)).sum) - c * c' +
      (ds.map (fun d => m d * o d - m (S.oppF d) * o (S.oppF d))).sum := by
  induction ds with
  | nil => intro c c'; simp [pairSum]
  | cons d ds ih =>
    intro c c'
    have := ih (c + S.flow m d) (c' + S.flow o d)
    simp only [pairSum, List.map_cons, List.sum_cons]
    simp only [flow] at this ⊢
    linear_combination this

/-- If the flow along the edges is the difference of a function of the polygons on both sides, then so is the number of crossings. -/
theorem pairSum_boundary (hS : S.Closed valid) (m o : L × ℕ → R) (w : L → R)
    (hw : ∀ d, S.IsDart valid d → S.flow m d = w d.1 - w (S.oppF d).1) {g : ℕ → L × ℕ} (hg : ∀ k, S.IsDart valid (g k))
    (hg2 : ∀ k, (S.oppF (g (k + 1))).1 = (g k).1) (n : ℕ) : ∀ (j : ℕ) (c κ : R), c = w (S.oppF (g j)).1 + κ →
    S.pairSum m o c ((List.range' j n).map g) =
      (((List.range' j n).map g).map (fun d => (w (S.oppF d).1 + κ + m d) * S.flow o d)).sum := by
  induction n with
  | zero => intro j c κ _; simp [pairSum]
  | succ n ih =>
    intro j c κ hc
    simp only [List.range'_succ, List.map_cons, pairSum, List.sum_cons]
    rw [ih (j + 1) _ κ (by rw [hc, hw _ (hg j), hg2]; ring), hc]

/-- Around a vertex the differences between the polygons on both sides of the edges add up to zero. -/
theorem sum_flow_boundary (m : L × ℕ → R) (w : L → R)
    (hw : ∀ d, S.IsDart valid d → S.flow m d = w d.1 - w (S.oppF d).1) {g : ℕ → L × ℕ} {n : ℕ} (h0 : g n = g 0) (hg : ∀ k, S.IsDart valid (g k))
    (hg2 : ∀ k, (S.oppF (g (k + 1))).1 = (g k).1) : (((List.range' 0 n).map g).map (S.flow m)).sum = 0 := by
  have h : ∀ j n, (((List.range' (j + 1) n).map g).map (S.flow m)).sum = w (g (j + n)).1 - w (g j).1 := by
    intro j n
    induction n generalizing j with
    | zero => simp
    | succ n ih =>
      simp only [List.range'_succ, List.map_cons, List.sum_cons]
      rw [ih (j + 1), hw _ (hg _), hg2]
      have : j + 1 + n = j + (n + 1) := by omega
      rw [this]; ring
  rcases n with _ | n
  · rfl
  · simp only [List.range'_succ, List.map_cons, List.sum_cons, zero_add]
    have := h 0 n
    simp only [zero_add] at this
    rw [this, hw _ (hg 0), ← h0, hg2]
    ring

/-- The hypothesis that `vertices()` is the set of all vertices: of each vertex there is exactly one edge. -/
structure IsStarts (S : RSurf L K) (valid : L → Prop) (starts : List (L × ℕ)) : Prop where
  dart : ∀ d ∈ starts, S.IsDart valid d
  apart : starts.Pairwise (fun a b => ¬ S.SameVertex valid a b)
  cover : ∀ d, S.IsDart valid d → ∃ x ∈ starts, S.SameVertex valid x d

/-- The edges at the vertices in the order in which they are visited. -/
theorem fans (hS : S.Closed valid) {es : List (L × ℕ)} (hes : ∀ d, d ∈ es ↔ S.IsDart valid d) {fuel : ℕ} (hf : es.length < fuel)
    (starts : List (L × ℕ)) (hd : ∀ d ∈ starts, S.IsDart valid d) (ha : starts.Pairwise (fun a b => ¬ S.SameVertex valid a b)) :
    ∃ F : List (List (L × ℕ)), List.Forall₂ (fun x l => S.edgesCcw fuel x = .ok l ∧ ∃ (g : ℕ → L × ℕ) (n : ℕ), l = (List.range' 0 n).map g ∧
        g n = g 0 ∧ (∀ k, S.IsDart valid (g k)) ∧ ∀ k, (S.oppF (g (k + 1))).1 = (g k).1) starts F ∧ F.flatten.Nodup ∧
      ∀ y, y ∈ F.flatten ↔ ∃ x ∈ starts, S.SameVertex valid x y := by
  induction starts with
  | nil => exact ⟨[], .nil, by simp, by simp⟩
  | cons x starts ih =>
    obtain ⟨h1, h2⟩ := List.pairwise_cons.1 ha
    obtain ⟨F, k1, k2, k3⟩ := ih (fun d h => hd d (List.mem_cons_of_mem _ h)) h2
    obtain ⟨g, n, g1, g0, g2, g3, g4, g5⟩ := edgesCcw_spec hS hes hf (hd x List.mem_cons_self)
    refine ⟨_ :: F, .cons ⟨g1, g, n, rfl, g0, g4, g5⟩ k1, ?_, ?_⟩
    · rw [List.flatten_cons, List.nodup_append]
      refine ⟨g2, k2, ?_⟩
      rintro y hy z hz rfl
      obtain ⟨x', hx', hs⟩ := (k3 y).1 hz
      exact h1 x' hx' (.trans _ _ _ ((g3 y).1 hy) (.symm _ _ hs))
    · intro y
      rw [List.flatten_cons, List.mem_append, g3, k3]
      simp

/-- What the loop over the vertices computes. -/
theorem intersectionLoop_spec [DecidableEq R] (hS : S.Closed valid) {fuel : ℕ} (m o : L × ℕ → R) {starts : List (L × ℕ)}
    {F : List (List (L × ℕ))} (hF : List.Forall₂ (fun x l => S.edgesCcw fuel x = .ok l ∧ ∀ d ∈ l, S.IsDart valid d) starts F) : ∀ i : R,
    (∀ r, S.intersectionLoop fuel m o i starts = .ok r ↔
      (∀ l ∈ F, (l.map (S.flow m)).sum = 0 ∧ (l.map (S.flow o)).sum = 0) ∧ r = i + (F.map (S.pairSum m o 0)).sum) := by
  induction hF with
  | nil =>
    intro i r
    simp only [intersectionLoop, Except.ok.injEq]
    simp [eq_comm]
  | cons hx _ ih =>
    rename_i x l starts F _
    intro i r
    rw [intersectionLoop]
    simp only [hx.1, crossLoop_eq hS m o l i 0 0 hx.2, bind, Except.bind, zero_add]
    by_cases h1 : (l.map (S.flow m)).sum = 0
    · by_cases h2 : (l.map (S.flow o)).sum = 0
      · simp only [h1, h2, ne_eq, not_true_eq_false, if_false, pure, Except.pure]
        rw [ih]
        simp only [List.mem_cons, forall_eq_or_imp, h1, h2, List.map_cons, List.sum_cons, true_and, and_self, add_assoc]
      · simp [h1, h2, throw, throwThe, MonadExceptOf.throw, pure, Except.pure]
    · simp [h1, throw, throwThe, MonadExceptOf.throw]

theorem sum_opp (hS : S.Closed valid) {fl : List (L × ℕ)} (hn : fl.Nodup) (hm : ∀ d, d ∈ fl ↔ S.IsDart valid d) (f : L × ℕ → R) :
    (fl.map (fun d => f (S.oppF d))).sum = (fl.map f).sum := by
  have h : (fl.map S.oppF).Perm fl := by
    rw [List.perm_ext_iff_of_nodup _ hn]
    · intro d
      rw [List.mem_map]
      constructor
      · rintro ⟨c, hc, rfl⟩; exact (hm _).2 (hS.oppF_dart ((hm _).1 hc))
      · intro hd
        exact ⟨S.oppF d, (hm _).2 (hS.oppF_dart ((hm _).1 hd)), hS.oppF_oppF ((hm _).1 hd)⟩
    · refine List.Nodup.map_on ?_ hn
      intro a ha b hb hab
      rw [← hS.oppF_oppF ((hm _).1 ha), hab, hS.oppF_oppF ((hm _).1 hb)]
  have h2 := (h.map f).sum_eq
  rw [List.map_map] at h2
  exact h2

theorem sum_flatten_map {A : Type} {B : Type} [AddCommMonoid B] (F : List (List A)) (f : A → B) :
    (F.flatten.map f).sum = (F.map (fun l => (l.map f).sum)).sum := by
  induction F with
  | nil => rfl
  | cons l F ih => rw [List.flatten_cons, List.map_append, List.sum_append, ih, List.map_cons, List.sum_cons]

/-- The vertices and the loop together. -/
theorem algebraicIntersection_spec [DecidableEq R] (hS : S.Closed valid) {es : List (L × ℕ)} (hes : ∀ d, d ∈ es ↔ S.IsDart valid d) {fuel : ℕ}
    (hf : es.length < fuel) {starts : List (L × ℕ)} (hst : S.IsStarts valid starts) : ∃ F : List (List (L × ℕ)),
      (∀ m o : L × ℕ → R, ∀ r, S.algebraicIntersection fuel starts m o = .ok r ↔
        (∀ l ∈ F, (l.map (S.flow m)).sum = 0 ∧ (l.map (S.flow o)).sum = 0) ∧ r = (F.map (S.pairSum m o 0)).sum) ∧
      F.flatten.Nodup ∧ (∀ d, d ∈ F.flatten ↔ S.IsDart valid d) ∧
      (∀ l ∈ F, ∃ (g : ℕ → L × ℕ) (n : ℕ), l = (List.range' 0 n).map g ∧
        g n = g 0 ∧ (∀ k, S.IsDart valid (g k)) ∧ ∀ k, (S.oppF (g (k + 1))).1 = (g k).1) ∧
      (∀ l ∈ F, ∃ x, S.IsDart valid x ∧ ∀ y, y ∈ l ↔ S.SameVertex valid x y) ∧
      List.Forall₂ (fun x l => S.edgesCcw fuel x = .ok l ∧ ∀ d ∈ l, S.IsDart valid d) starts F := by
  obtain ⟨F, h1, h2, h3⟩ := fans hS hes hf starts hst.dart hst.apart
  have h4 : List.Forall₂ (fun x l => S.edgesCcw fuel x = .ok l ∧ ∀ d ∈ l, S.IsDart valid d) starts F := by
    refine h1.imp ?_
    rintro x l ⟨hx, g, n, rfl, -, hg, -⟩
    refine ⟨hx, ?_⟩
    intro d hd
    obtain ⟨k, -, rfl⟩ := List.mem_map.1 hd
    exact hg k
  have hx : ∀ l ∈ F, ∃ x ∈ starts, S.edgesCcw fuel x = .ok l ∧ ∃ (g : ℕ → L × ℕ) (n : ℕ), l = (List.range' 0 n).map g ∧
        g n = g 0 ∧ (∀ k, S.IsDart valid (g k)) ∧ ∀ k, (S.oppF (g (k + 1))).1 = (g k).1 := by
    clear h2 h3 h4 hst
    induction h1 with
    | nil => simp
    | cons h _ ih =>
      intro l hl
      rcases List.mem_cons.1 hl with rfl | hl
      · exact ⟨_, List.mem_cons_self, h⟩
      · obtain ⟨x, hx, h⟩ := ih l hl
        exact ⟨x, List.mem_cons_of_mem _ hx, h⟩
  refine ⟨F, ?_, h2, ?_, fun l hl => (hx l hl).choose_spec.2.2, ?_, h4⟩
  · intro m o r
    have := intersectionLoop_spec hS m o h4 0 r
    rw [zero_add] at this
    exact this
  · intro d
    rw [h3]
    constructor
    · rintro ⟨x, hx, hs⟩; exact (sameVertex_valid hs).1 (hst.dart x hx)
    · exact hst.cover d
  · intro l hl
    obtain ⟨x, hx, he, -⟩ := hx l hl
    obtain ⟨g, n, g1, -, -, g3, -⟩ := edgesCcw_spec hS hes hf (hst.dart x hx)
    rw [he] at g1; injection g1 with g1
    exact ⟨x, hst.dart x hx, by rw [g1]; exact g3⟩

theorem sum_flow_add (m m' : L × ℕ → R) (l : List (L × ℕ)) :
    (l.map (S.flow (m + m'))).sum = (l.map (S.flow m)).sum + (l.map (S.flow m')).sum := by
  rw [← List.sum_map_add]
  congr 2
  funext d
  simp only [flow, Pi.add_apply]; ring

theorem sum_flow_smul (r : R) (m : L × ℕ → R) (l : List (L × ℕ)) : (l.map (S.flow (r • m))).sum = r * (l.map (S.flow m)).sum := by
  induction l with
  | nil => simp
  | cons d l ih => simp only [List.map_cons, List.sum_cons, ih, flow, Pi.smul_apply, smul_eq_mul]; ring

variable [DecidableEq R]

/-- **C40.** The pairing is additive and homogeneous in the first chain. -/
theorem C40_left (hS : S.Closed valid) {es : List (L × ℕ)} (hes : ∀ d, d ∈ es ↔ S.IsDart valid d) {fuel : ℕ}
    (hf : es.length < fuel) {starts : List (L × ℕ)} (hst : S.IsStarts valid starts) {m m' o : L × ℕ → R} {r r' : R}
    (h : S.algebraicIntersection fuel starts m o = .ok r) (h' : S.algebraicIntersection fuel starts m' o = .ok r') (c : R) :
    S.algebraicIntersection fuel starts (m + m') o = .ok (r + r') ∧ S.algebraicIntersection fuel starts (c • m) o = .ok (c * r) := by
  obtain ⟨F, hF, -⟩ := algebraicIntersection_spec (R := R) hS hes hf hst
  rw [hF] at h h'
  obtain ⟨h1, rfl⟩ := h
  obtain ⟨h1', rfl⟩ := h'
  rw [hF, hF]
  refine ⟨⟨fun l hl => ⟨?_, (h1 l hl).2⟩, ?_⟩, ⟨fun l hl => ⟨?_, (h1 l hl).2⟩, ?_⟩⟩
  · rw [sum_flow_add, (h1 l hl).1, (h1' l hl).1, add_zero]
  · rw [← List.sum_map_add]
    congr 2
    funext l
    have := pairSum_add_left (S := S) m m' o l 0 0
    rw [add_zero] at this
    exact this.symm
  · rw [sum_flow_smul, (h1 l hl).1, mul_zero]
  · rw [← List.sum_map_mul_left]
    congr 2
    funext l
    have := pairSum_smul_left (S := S) c m o l 0
    rw [mul_zero] at this
    exact this.symm

/-- **C40.** The pairing is additive and homogeneous in the second chain. -/
theorem C40_right (hS : S.Closed valid) {es : List (L × ℕ)} (hes : ∀ d, d ∈ es ↔ S.IsDart valid d) {fuel : ℕ}
    (hf : es.length < fuel) {starts : List (L × ℕ)} (hst : S.IsStarts valid starts) {m o o' : L × ℕ → R} {r r' : R}
    (h : S.algebraicIntersection fuel starts m o = .ok r) (h' : S.algebraicIntersection fuel starts m o' = .ok r') (c : R) :
    S.algebraicIntersection fuel starts m (o + o') = .ok (r + r') ∧ S.algebraicIntersection fuel starts m (c • o) = .ok (c * r) := by
  obtain ⟨F, hF, -⟩ := algebraicIntersection_spec (R := R) hS hes hf hst
  rw [hF] at h h'
  obtain ⟨h1, rfl⟩ := h
  obtain ⟨h1', rfl⟩ := h'
  rw [hF, hF]
  refine ⟨⟨fun l hl => ⟨(h1 l hl).1, ?_⟩, ?_⟩, ⟨fun l hl => ⟨(h1 l hl).1, ?_⟩, ?_⟩⟩
  · rw [sum_flow_add, (h1 l hl).2, (h1' l hl).2, add_zero]
  · rw [← List.sum_map_add]
    congr 2
    funext l
    exact (pairSum_add_right (S := S) m o o' l 0).symm
  · rw [sum_flow_smul, (h1 l hl).2, mul_zero]
  · rw [← List.sum_map_mul_left]
    congr 2
    funext l
    exact (pairSum_smul_right (S := S) c m o l 0).symm

/-- **C40.** The pairing of closed chains is antisymmetric. -/
theorem C40_antisymmetric (hS : S.Closed valid) {es : List (L × ℕ)} (hes : ∀ d, d ∈ es ↔ S.IsDart valid d) {fuel : ℕ}
    (hf : es.length < fuel) {starts : List (L × ℕ)} (hst : S.IsStarts valid starts) {m o : L × ℕ → R} {r : R}
    (h : S.algebraicIntersection fuel starts m o = .ok r) : S.algebraicIntersection fuel starts o m = .ok (-r) := by
  obtain ⟨F, hF, hn, hm, -⟩ := algebraicIntersection_spec (R := R) hS hes hf hst
  rw [hF] at h
  obtain ⟨h1, rfl⟩ := h
  rw [hF]
  refine ⟨fun l hl => (h1 l hl).symm, ?_⟩
  have key : (F.map (S.pairSum m o 0)).sum + (F.map (S.pairSum o m 0)).sum =
      (F.flatten.map (fun d => m d * o d - m (S.oppF d) * o (S.oppF d))).sum := by
    rw [sum_flatten_map, ← List.sum_map_add]
    congr 1
    refine List.map_congr_left ?_
    intro l hl
    have := pairSum_swap (S := S) m o l 0 0
    rw [(h1 l hl).1, (h1 l hl).2] at this
    rw [this]; ring
  have hz : (F.flatten.map (fun d => m d * o d - m (S.oppF d) * o (S.oppF d))).sum = 0 := by
    have h1 := sum_opp hS hn hm (fun d => m d * o d)
    have h2 := List.sum_map_add (l := F.flatten) (f := fun d => m d * o d - m (S.oppF d) * o (S.oppF d)) (g := fun d => m (S.oppF d) * o (S.oppF d))
    simp only [sub_add_cancel] at h2
    rw [h1] at h2
    exact add_right_cancel (b := (F.flatten.map (fun d => m d * o d)).sum) (by rw [zero_add]; exact h2.symm)
  rw [hz] at key
  exact neg_eq_of_add_eq_zero_right key

/-- The coefficients of the boundary of a chain of polygons. -/
theorem faceLoop_flow (hS : S.Closed valid) {sx : List (L × ℕ)} (hsx : ∀ d, S.IsDart valid d → d ∈ sx ∨ S.oppF d ∈ sx)
    (hsx2 : ∀ d ∈ sx, S.oppF d ∈ sx → S.oppF d = d) (r : R) (ds : List (L × ℕ)) (hn : ds.Nodup) (hds : ∀ d ∈ ds, S.IsDart valid d) {f : L × ℕ → R}
    (h : S.faceLoop sx r ds = .ok f) {x : L × ℕ} (hx : S.IsDart valid x) :
    S.flow f x = (if x ∈ ds then r else 0) - (if S.oppF x ∈ ds then r else 0) := by
  induction ds generalizing f with
  | nil => injection h with h; subst h; simp [flow]
  | cons d ds ih =>
    obtain ⟨hnd, hn'⟩ := List.nodup_cons.1 hn
    have hd := hds d List.mem_cons_self
    have hside : ∃ f0, S.faceEdge sx r d = .ok f0 ∧ S.flow f0 x = (if x = d then r else 0) - (if S.oppF x = d then r else 0) := by
      unfold faceEdge
      by_cases hin : d ∈ sx
      · refine ⟨Pi.single d r, if_pos hin, ?_⟩
        unfold flow
        simp only [Pi.single_apply]
      · rw [if_neg hin]
        refine ⟨-Pi.single (S.oppF d) r, by simp only [hS.opp!_oppF hd, bind, Except.bind, pure, Except.pure], ?_⟩
        have e1 : S.oppF x = S.oppF d ↔ x = d := by
          constructor
          · intro h; rw [← hS.oppF_oppF hx, h, hS.oppF_oppF hd]
          · rintro rfl; rfl
        have e2 : x = S.oppF d ↔ S.oppF x = d := by
          constructor
          · rintro rfl; exact hS.oppF_oppF hd
          · rintro rfl; exact (hS.oppF_oppF hx).symm
        unfold flow
        simp only [Pi.neg_apply, Pi.single_apply, e1, e2]
        ring
    obtain ⟨f0, hf0, hfl⟩ := hside
    rw [faceLoop, hf0] at h
    simp only [bind, Except.bind] at h
    cases hg : S.faceLoop sx r ds with
    | error e => rw [hg] at h; cases h
    | ok g =>
      rw [hg] at h
      injection h with h
      subst h
      have hgl := ih hn' (fun e he => hds e (List.mem_cons_of_mem _ he)) hg
      have : S.flow (f0 + g) x = S.flow f0 x + S.flow g x := by simp only [flow, Pi.add_apply]; ring
      rw [this, hfl, hgl]
      simp only [List.mem_cons]
      by_cases a1 : x = d
      · subst a1
        by_cases a2 : S.oppF x = x
        · simp [a2, hnd]
        · simp [a2, hnd]; ring
      · by_cases a2 : S.oppF x = d
        · subst a2; simp [a1, hnd]; ring
        · simp [a1, a2]

/-- The coefficient of a polygon in a chain. -/
def polygonCoeff (chain : List (L × R)) (l : L) : R := (chain.map (fun x => if x.1 = l then x.2 else 0)).sum

theorem boundary2_flow (hS : S.Closed valid) {sx : List (L × ℕ)} (hsx : ∀ d, S.IsDart valid d → d ∈ sx ∨ S.oppF d ∈ sx)
    (hsx2 : ∀ d ∈ sx, S.oppF d ∈ sx → S.oppF d = d) (chain : List (L × R)) (hc : ∀ x ∈ chain, valid x.1) {f : L × ℕ → R}
    (h : S.boundary2 sx chain = .ok f) {x : L × ℕ} (hx : S.IsDart valid x) :
    S.flow f x = polygonCoeff chain x.1 - polygonCoeff chain (S.oppF x).1 := by
  induction chain generalizing f with
  | nil => injection h with h; subst h; simp [flow, polygonCoeff]
  | cons y chain ih =>
    have hl := hc y List.mem_cons_self
    obtain ⟨p, hp, hv⟩ := hS.poly _ hl
    rw [boundary2, edgesAt_ok hp] at h
    simp only [bind, Except.bind] at h
    cases hf0 : S.faceLoop sx y.2 ((List.range p.length).map (fun e => (y.1, e))) with
    | error e => rw [hf0] at h; cases h
    | ok f0 =>
      rw [hf0] at h
      dsimp only at h
      cases hg : S.boundary2 sx chain with
      | error e => rw [hg] at h; cases h
      | ok g =>
        rw [hg] at h
        injection h with h
        subst h
        have hmem : ∀ d, S.IsDart valid d → (d ∈ (List.range p.length).map (fun e => (y.1, e)) ↔ y.1 = d.1) := by
          rintro d ⟨hld, q, hq, hd⟩
          rw [List.mem_map]
          constructor
          · rintro ⟨e, -, rfl⟩; rfl
          · intro h
            rw [← h, hp] at hq
            injection hq with hq; subst hq
            exact ⟨d.2, List.mem_range.2 hd, by rw [h]⟩
        have h1 := faceLoop_flow hS hsx hsx2 y.2 ((List.range p.length).map (fun e => (y.1, e)))
          (List.Nodup.map (fun a b h => (Prod.mk.inj h).2) List.nodup_range)
          (by intro d hd
              obtain ⟨e, he, rfl⟩ := List.mem_map.1 hd
              exact ⟨hl, p, hp, List.mem_range.1 he⟩) hf0 hx
        simp only [hmem x hx, hmem _ (hS.oppF_dart hx)] at h1
        have h2 := ih (fun z hz => hc z (List.mem_cons_of_mem _ hz)) hg
        have : S.flow (f0 + g) x = S.flow f0 x + S.flow g x := by simp only [flow, Pi.add_apply]; ring
        rw [this, h1, h2]
        simp only [polygonCoeff, List.map_cons, List.sum_cons]
        ring

/-- **C40.** The pairing of a boundary of polygons with a closed chain is zero.  A chain is closed if it can be paired with itself. -/
theorem C40_boundary (hS : S.Closed valid) {ls : List L} (hls : ls.Nodup) (hval : ∀ l, l ∈ ls ↔ valid l) {es sx : List (L × ℕ)}
    (hes : S.edges ls = .ok es) (hsx : S.simplices1 ls = .ok sx) {fuel : ℕ} (hf : es.length < fuel) {starts : List (L × ℕ)}
    (hst : S.IsStarts valid starts) (chain : List (L × R)) (hc : ∀ x ∈ chain, x.1 ∈ ls) {f : L × ℕ → R}
    (h : S.boundary2 sx chain = .ok f) {o : L × ℕ → R} {r : R} (ho : S.algebraicIntersection fuel starts o o = .ok r) :
    S.algebraicIntersection fuel starts f o = .ok 0 := by
  obtain ⟨es', he', -, hmem⟩ := edges_spec hS.bordered ls hls (fun l hl => (hval l).1 hl)
  rw [hes] at he'; injection he' with he'; subst he'
  obtain ⟨sx', hsx', -, -, q4, q5⟩ := simplices1_spec hS hls hval
  rw [hsx] at hsx'; injection hsx' with hsx'; subst hsx'
  have hes' : ∀ d, d ∈ es ↔ S.IsDart valid d := fun d => (hmem d).trans ⟨fun h => h.2, fun h => ⟨(hval _).2 h.1, h⟩⟩
  obtain ⟨F, hF, hn, hm, hg, -⟩ := algebraicIntersection_spec (R := R) hS hes' hf hst
  rw [hF] at ho
  obtain ⟨h1, -⟩ := ho
  have hw : ∀ d, S.IsDart valid d → S.flow f d = polygonCoeff chain d.1 - polygonCoeff chain (S.oppF d).1 := fun d hd =>
    boundary2_flow hS q4 q5 chain (fun x hx => (hval _).1 (hc x hx)) h hd
  set w := polygonCoeff chain with hwdef
  rw [hF]
  refine ⟨fun l hl => ⟨?_, (h1 l hl).2⟩, ?_⟩
  · -- boundaries are closed
    obtain ⟨g, n, rfl, g0, g1, g2⟩ := hg l hl
    exact sum_flow_boundary f w hw g0 g1 g2
  · symm
    have h2 : (F.map (S.pairSum f o 0)).sum = (F.flatten.map (fun d => (w (S.oppF d).1 + f d) * S.flow o d)).sum := by
      rw [sum_flatten_map]
      congr 1
      refine List.map_congr_left ?_
      intro l hl
      obtain ⟨g, n, rfl, -, g1, g2⟩ := hg l hl
      rw [pairSum_boundary hS f o w hw g1 g2 n 0 0 (-w (S.oppF (g 0)).1) (by ring)]
      have h0 := (h1 _ hl).2
      have : ∀ (κ : R) (l : List (L × ℕ)), (l.map (fun d => (w (S.oppF d).1 + κ + f d) * S.flow o d)).sum =
          (l.map (fun d => (w (S.oppF d).1 + f d) * S.flow o d)).sum + κ * (l.map (S.flow o)).sum := by
        intro κ l
        induction l with
        | nil => simp
        | cons d l ih => simp only [List.map_cons, List.sum_cons, ih]; ring
      rw [this, h0, mul_zero, add_zero]
    rw [h2]
    have h3 : (F.flatten.map (fun d => (w (S.oppF d).1 + f d) * S.flow o d)).sum =
        (F.flatten.map (fun d => w (S.oppF d).1 * o d - w (S.oppF d).1 * o (S.oppF d))).sum +
          (F.flatten.map (fun d => f d * o d)).sum - (F.flatten.map (fun d => f d * o (S.oppF d))).sum := by
      generalize F.flatten = l
      induction l with
      | nil => simp
      | cons d l ih =>
        have : S.flow o d = o d - o (S.oppF d) := rfl
        simp only [List.map_cons, List.sum_cons, ih]
        rw [this]; ring
    have h4 : (F.flatten.map (fun d => f d * o (S.oppF d))).sum = (F.flatten.map (fun d => f (S.oppF d) * o d)).sum := by
      rw [← sum_opp hS hn hm]
      congr 1
      refine List.map_congr_left ?_
      intro d hd
      rw [hS.oppF_oppF ((hm d).1 hd)]
    have h5 : (F.flatten.map (fun d => w (S.oppF d).1 * o (S.oppF d))).sum = (F.flatten.map (fun d => w d.1 * o d)).sum :=
      sum_opp hS hn hm (fun d => w d.1 * o d)
    have h6 : (F.flatten.map (fun d => f d * o d)).sum = (F.flatten.map (fun d => f (S.oppF d) * o d)).sum +
        (F.flatten.map (fun d => w d.1 * o d)).sum - (F.flatten.map (fun d => w (S.oppF d).1 * o d)).sum := by
      have : ∀ l : List (L × ℕ), (∀ d ∈ l, S.IsDart valid d) → (l.map (fun d => f d * o d)).sum = (l.map (fun d => f (S.oppF d) * o d)).sum +
        (l.map (fun d => w d.1 * o d)).sum - (l.map (fun d => w (S.oppF d).1 * o d)).sum := by
        intro l
        induction l with
        | nil => simp
        | cons d l ih =>
          intro hd
          have h0 := hw d (hd d List.mem_cons_self)
          unfold flow at h0
          have h1 : f d = f (S.oppF d) + (w d.1 - w (S.oppF d).1) := by rw [← h0]; ring
          have ih := ih (fun e he => hd e (List.mem_cons_of_mem _ he))
          simp only [List.map_cons, List.sum_cons, ih]
          linear_combination (o d) * h1
      exact this _ (fun d hd => (hm d).1 hd)
    have h7 : (F.flatten.map (fun d => w (S.oppF d).1 * o d - w (S.oppF d).1 * o (S.oppF d))).sum =
        (F.flatten.map (fun d => w (S.oppF d).1 * o d)).sum - (F.flatten.map (fun d => w (S.oppF d).1 * o (S.oppF d))).sum := by
      generalize F.flatten = l
      induction l with
      | nil => simp
      | cons d l ih => simp only [List.map_cons, List.sum_cons, ih]; ring
    rw [h3, h4, h7, h5, h6]
    ring

/-- **C40.** The pairing depends only on the homology classes: adding boundaries of polygons to the chains does not change it. -/
theorem C40_homology (hS : S.Closed valid) {ls : List L} (hls : ls.Nodup) (hval : ∀ l, l ∈ ls ↔ valid l) {es sx : List (L × ℕ)}
    (hes : S.edges ls = .ok es) (hsx : S.simplices1 ls = .ok sx) {fuel : ℕ} (hf : es.length < fuel) {starts : List (L × ℕ)}
    (hst : S.IsStarts valid starts) (chain chain' : List (L × R)) (hc : ∀ x ∈ chain, x.1 ∈ ls) (hc' : ∀ x ∈ chain', x.1 ∈ ls)
    {f f' : L × ℕ → R} (h : S.boundary2 sx chain = .ok f) (h' : S.boundary2 sx chain' = .ok f') {m o : L × ℕ → R} {r : R}
    (hr : S.algebraicIntersection fuel starts m o = .ok r) : S.algebraicIntersection fuel starts (m + f) (o + f') = .ok r := by
  obtain ⟨es', he', -, hmem⟩ := edges_spec hS.bordered ls hls (fun l hl => (hval l).1 hl)
  rw [hes] at he'; injection he' with he'; subst he'
  have hes' : ∀ d, d ∈ es ↔ S.IsDart valid d := fun d => (hmem d).trans ⟨fun h => h.2, fun h => ⟨(hval _).2 h.1, h⟩⟩
  have hself : ∀ {a b : L × ℕ → R} {r : R}, S.algebraicIntersection fuel starts a b = .ok r →
      ∃ s, S.algebraicIntersection fuel starts b b = .ok s := by
    intro a b r h
    obtain ⟨F, hF, -⟩ := algebraicIntersection_spec (R := R) hS hes' hf hst
    rw [hF] at h
    exact ⟨_, (hF _ _ _).2 ⟨fun l hl => ⟨(h.1 l hl).2, (h.1 l hl).2⟩, rfl⟩⟩
  obtain ⟨s, hs⟩ := hself hr
  have h1 := (C40_left hS hes' hf hst hr (C40_boundary hS hls hval hes hsx hf hst chain hc h hs) 0).1
  rw [add_zero] at h1
  obtain ⟨s', hs'⟩ := hself (C40_antisymmetric hS hes' hf hst h1)
  have h2 := C40_antisymmetric hS hes' hf hst (C40_boundary hS hls hval hes hsx hf hst chain' hc' h' hs')
  rw [neg_zero] at h2
  have h3 := (C40_right hS hes' hf hst h1 h2 0).1
  rw [add_zero] at h3
  exact h3

/-! The choice of edges at the vertices does not matter. -/

theorem pairSum_append (m o : L × ℕ → R) (l l' : List (L × ℕ)) : ∀ c : R,
    S.pairSum m o c (l ++ l') = S.pairSum m o c l + S.pairSum m o (c + (l.map (S.flow m)).sum) l' := by
  induction l with
  | nil => intro c; simp [pairSum]
  | cons d l ih =>
    intro c
    simp only [List.cons_append, pairSum, ih, List.map_cons, List.sum_cons]
    rw [← add_assoc c]; ring

theorem pairSum_shift (m o : L × ℕ → R) (l : List (L × ℕ)) : ∀ c κ : R,
    S.pairSum m o (c + κ) l = S.pairSum m o c l + κ * (l.map (S.flow o)).sum := by
  induction l with
  | nil => intro c κ; simp [pairSum]
  | cons d l ih =>
    intro c κ
    simp only [pairSum, List.map_cons, List.sum_cons]
    rw [show c + κ + S.flow m d = (c + S.flow m d) + κ by ring, ih]; ring

theorem pairSum_rotate (m o : L × ℕ → R) {l l' : List (L × ℕ)} (h : l ~r l') (hm : (l.map (S.flow m)).sum = 0)
    (ho : (l.map (S.flow o)).sum = 0) : S.pairSum m o 0 l = S.pairSum m o 0 l' := by
  obtain ⟨k, rfl⟩ := h
  obtain ⟨l1, l2, rfl, h2⟩ : ∃ l1 l2, l = l1 ++ l2 ∧ l.rotate k = l2 ++ l1 := by
    refine ⟨l.take (k % l.length), l.drop (k % l.length), (List.take_append_drop _ _).symm, ?_⟩
    rw [List.rotate_eq_drop_append_take_mod]
  rw [h2, pairSum_append, pairSum_append, pairSum_shift, pairSum_shift]
  simp only [List.map_append, List.sum_append] at hm ho
  linear_combination (-(l1.map (S.flow o)).sum) * hm + (l1.map (S.flow m)).sum * ho

/-- Edges at the same vertex are listed in the same cyclic order. -/
theorem edgesCcw_rotate (hS : S.Closed valid) {es : List (L × ℕ)} (hes : ∀ d, d ∈ es ↔ S.IsDart valid d) {fuel fuel' : ℕ} (hf : es.length < fuel)
    (hf' : es.length < fuel') {x y : L × ℕ} (hx : S.IsDart valid x) (hxy : S.SameVertex valid x y) {l l' : List (L × ℕ)}
    (hl : S.edgesCcw fuel x = .ok l) (hl' : S.edgesCcw fuel' y = .ok l') : l ~r l' := by
  classical
  have hfin := dart_finite hes
  have hy := (sameVertex_valid hxy).1 hx
  set τ : Equiv.Perm {d // S.IsDart valid d} := (nextPerm hS.bordered * oppPerm hS)⁻¹ with hτ
  have hform : ∀ (fuel : ℕ), es.length < fuel → ∀ (x : {d // S.IsDart valid d}), S.edgesCcw fuel x.1 =
      .ok ((List.range' 0 (Function.minimalPeriod τ x)).map (fun k => (τ^[k] x).1)) := by
    intro fuel hf x
    have hper : x ∈ Function.periodicPts τ := by
      refine Function.mem_periodicPts.2 ⟨orderOf τ, orderOf_pos τ, ?_⟩
      show (τ : _ → _)^[orderOf τ] _ = _
      rw [← Equiv.Perm.coe_pow, pow_orderOf_eq_one]; rfl
    have hpos := Function.minimalPeriod_pos_of_mem_periodicPts hper
    obtain ⟨m, hm⟩ := Nat.exists_eq_succ_of_ne_zero (Nat.pos_iff_ne_zero.1 hpos)
    have hle : Function.minimalPeriod τ x ≤ es.length := by
      have hnodup : ((List.range' 0 (Function.minimalPeriod τ x)).map (fun k => (τ^[k] x).1)).Nodup := by
        refine List.Nodup.map_on ?_ (List.nodup_range')
        intro a ha b hb h
        rw [List.mem_range'_1] at ha hb
        exact Function.iterate_injOn_Iio_minimalPeriod (by simpa using ha.2) (by simpa using hb.2) (Subtype.ext h)
      have h1 : ((List.range' 0 (Function.minimalPeriod τ x)).map (fun k => (τ^[k] x).1)).toFinset ⊆ es.toFinset := by
        intro y hy
        rw [List.mem_toFinset] at hy ⊢
        obtain ⟨k, -, rfl⟩ := List.mem_map.1 hy
        exact (hes _).2 (Subtype.prop _)
      have h2 := Finset.card_le_card h1
      rw [List.toFinset_card_of_nodup hnodup] at h2
      simp only [List.length_map, List.length_range'] at h2
      exact h2.trans (List.toFinset_card_le _)
    have := ccwLoop_eq hS x (n := Function.minimalPeriod τ x) rfl m 0 fuel (by omega) (by omega)
    rw [hm]
    exact this
  have h1 := hform fuel hf ⟨x, hx⟩
  have h2 := hform fuel' hf' ⟨y, hy⟩
  rw [hl] at h1; injection h1 with h1
  rw [hl'] at h2; injection h2 with h2
  have hsc := ((sameVertex_perm hS ⟨x, hx⟩ ⟨y, hy⟩).1 hxy).inv
  rw [← hτ] at hsc
  obtain ⟨i, hi⟩ := hsc.exists_nat_pow_eq
  rw [Equiv.Perm.coe_pow] at hi
  have hper : (⟨x, hx⟩ : {d // S.IsDart valid d}) ∈ Function.periodicPts τ := by
    refine Function.mem_periodicPts.2 ⟨orderOf τ, orderOf_pos τ, ?_⟩
    show (τ : _ → _)^[orderOf τ] _ = _
    rw [← Equiv.Perm.coe_pow, pow_orderOf_eq_one]; rfl
  have hn : Function.minimalPeriod τ ⟨y, hy⟩ = Function.minimalPeriod τ ⟨x, hx⟩ := by
    rw [← hi]; exact Function.minimalPeriod_apply_iterate hper i
  refine ⟨i, ?_⟩
  rw [h1, h2, hn]
  apply List.ext_getElem
  · simp
  · intro k hk hk'
    rw [List.getElem_rotate]
    simp only [List.getElem_map, List.getElem_range', List.length_map, List.length_range', zero_add, one_mul]
    rw [Function.iterate_mod_minimalPeriod_eq, ← hi, ← Function.iterate_add_apply]

/-- **C40.** The order of the vertices and the edges at which the rotation about them starts do not matter. -/
theorem C40_choice (hS : S.Closed valid) {es : List (L × ℕ)} (hes : ∀ d, d ∈ es ↔ S.IsDart valid d) {fuel fuel' : ℕ}
    (hf : es.length < fuel) (hf' : es.length < fuel') {starts starts' : List (L × ℕ)} (hst : S.IsStarts valid starts)
    (hst' : S.IsStarts valid starts') {m o : L × ℕ → R} {r : R} (h : S.algebraicIntersection fuel starts m o = .ok r) :
    S.algebraicIntersection fuel' starts' m o = .ok r := by
  obtain ⟨F, hF, -, hm, -, hx, h2⟩ := algebraicIntersection_spec (R := R) hS hes hf hst
  obtain ⟨F', hF', -, hm', -, hx', h2'⟩ := algebraicIntersection_spec (R := R) hS hes hf' hst'
  rw [hF] at h
  obtain ⟨h1, rfl⟩ := h
  rw [hF']
  -- the edges at a vertex in the first and in the second order
  have hfan : ∀ d, S.IsDart valid d → ∃ l ∈ F, d ∈ l := fun d hd => by
    obtain ⟨l, hl, hdl⟩ := List.mem_flatten.1 ((hm d).2 hd)
    exact ⟨l, hl, hdl⟩
  have hex : ∀ (starts : List (L × ℕ)) (F : List (List (L × ℕ))) (fuel : ℕ),
      List.Forall₂ (fun x l => S.edgesCcw fuel x = .ok l ∧ ∀ d ∈ l, S.IsDart valid d) starts F →
      ∀ l ∈ F, ∃ x ∈ starts, S.edgesCcw fuel x = .ok l := by
    intro starts F fuel h
    induction h with
    | nil => simp
    | cons h _ ih =>
      intro l hl
      rcases List.mem_cons.1 hl with rfl | hl
      · exact ⟨_, List.mem_cons_self, h.1⟩
      · obtain ⟨x, hx, h⟩ := ih l hl
        exact ⟨x, List.mem_cons_of_mem _ hx, h⟩
  -- the contribution of a vertex
  let φ : (L × ℕ) → R := fun d => match S.edgesCcw fuel d with | .ok l => S.pairSum m o 0 l | .error _ => 0
  have hclosed : ∀ (fuel : ℕ), es.length < fuel → ∀ d, S.IsDart valid d → ∀ l, S.edgesCcw fuel d = .ok l →
      (l.map (S.flow m)).sum = 0 ∧ (l.map (S.flow o)).sum = 0 := by
    intro fuel₁ hf₁ d hd l hl
    obtain ⟨l0, hl0, hdl⟩ := hfan d hd
    obtain ⟨x, hx, hxl⟩ := hex _ _ _ h2 l0 hl0
    obtain ⟨g, n, g1, -, -, g3, -⟩ := edgesCcw_spec hS hes hf (hst.dart x hx)
    rw [hxl] at g1; injection g1 with g1
    have hsv : S.SameVertex valid x d := (g3 d).1 (g1 ▸ hdl)
    have hrot := edgesCcw_rotate hS hes hf hf₁ (hst.dart x hx) hsv hxl hl
    have h0 := h1 l0 hl0
    exact ⟨by rw [← (hrot.perm.map _).sum_eq, h0.1], by rw [← (hrot.perm.map _).sum_eq, h0.2]⟩
  have hφ : ∀ a b, S.IsDart valid a → S.SameVertex valid a b → φ a = φ b := by
    intro a b ha hab
    have hb := (sameVertex_valid hab).1 ha
    obtain ⟨g, n, g1, -⟩ := edgesCcw_spec hS hes hf ha
    obtain ⟨g', n', g1', -⟩ := edgesCcw_spec hS hes hf hb
    have hc := hclosed fuel hf a ha _ g1
    show (match S.edgesCcw fuel a with | .ok l => S.pairSum m o 0 l | .error _ => 0) = (match S.edgesCcw fuel b with | .ok l => S.pairSum m o 0 l | .error _ => 0)
    rw [g1, g1']
    exact pairSum_rotate m o (edgesCcw_rotate hS hes hf hf ha hab g1 g1') hc.1 hc.2
  have hsum : ∀ (starts : List (L × ℕ)) (F : List (List (L × ℕ))) (fuel' : ℕ), es.length < fuel' → (∀ d ∈ starts, S.IsDart valid d) →
      List.Forall₂ (fun x l => S.edgesCcw fuel' x = .ok l ∧ ∀ d ∈ l, S.IsDart valid d) starts F →
      (F.map (S.pairSum m o 0)).sum = (starts.map φ).sum := by
    intro starts F fuel₁ hf₁ hd h
    induction h with
    | nil => rfl
    | cons h _ ih =>
      rename_i x l starts F _
      have hxd := hd x List.mem_cons_self
      rw [List.map_cons, List.map_cons, List.sum_cons, List.sum_cons, ih (fun d h => hd d (List.mem_cons_of_mem _ h))]
      congr 1
      obtain ⟨g, n, g1, -⟩ := edgesCcw_spec hS hes hf hxd
      have hc := hclosed fuel hf x hxd _ g1
      show _ = (match S.edgesCcw fuel x with | .ok l => S.pairSum m o 0 l | .error _ => 0)
      rw [g1]
      exact (pairSum_rotate m o (edgesCcw_rotate hS hes hf hf₁ hxd (.refl _) g1 h.1) hc.1 hc.2).symm
  refine ⟨?_, ?_⟩
  · intro l hl
    obtain ⟨x, hx, hxl⟩ := hex _ _ _ h2' l hl
    exact hclosed fuel' hf' x (hst'.dart x hx) l hxl
  · rw [hsum starts F fuel hf hst.dart h2, hsum starts' F' fuel' hf' hst'.dart h2']
    -- both lists contain one edge of each vertex
    classical
    let cls : (L × ℕ) → Set (L × ℕ) := fun d => {e | S.SameVertex valid d e}
    have hcls : ∀ a b, cls a = cls b ↔ S.SameVertex valid a b := by
      intro a b
      constructor
      · intro h
        have : b ∈ cls b := .refl _
        rw [← h] at this
        exact this
      · intro h
        ext e
        exact ⟨fun h' => .trans _ _ _ (.symm _ _ h) h', fun h' => .trans _ _ _ h h'⟩
    have hnd : ∀ starts, S.IsStarts valid starts → (starts.map cls).Nodup := by
      intro starts h
      refine List.Pairwise.map cls ?_ h.apart
      intro a b hab h
      exact hab ((hcls a b).1 h)
    have hperm : (starts.map cls).Perm (starts'.map cls) := by
      rw [List.perm_ext_iff_of_nodup (hnd _ hst) (hnd _ hst')]
      intro c
      rw [List.mem_map, List.mem_map]
      constructor
      · rintro ⟨a, ha, rfl⟩
        obtain ⟨b, hb, hab⟩ := hst'.cover a (hst.dart a ha)
        exact ⟨b, hb, (hcls _ _).2 hab⟩
      · rintro ⟨a, ha, rfl⟩
        obtain ⟨b, hb, hab⟩ := hst.cover a (hst'.dart a ha)
        exact ⟨b, hb, (hcls _ _).2 hab⟩
    let ψ : Set (L × ℕ) → R := fun c => if h : ∃ d, S.IsDart valid d ∧ cls d = c then φ h.choose else 0
    have hψ : ∀ d, S.IsDart valid d → ψ (cls d) = φ d := by
      intro d hd
      have h : ∃ e, S.IsDart valid e ∧ cls e = cls d := ⟨d, hd, rfl⟩
      show (if h : ∃ e, S.IsDart valid e ∧ cls e = cls d then φ h.choose else 0) = φ d
      rw [dif_pos h]
      exact hφ _ _ h.choose_spec.1 ((hcls _ _).1 h.choose_spec.2)
    have h5 := (hperm.map ψ).sum_eq
    rw [List.map_map, List.map_map] at h5
    rw [show starts.map φ = starts.map (ψ ∘ cls) from List.map_congr_left (fun d hd => (hψ d (hst.dart d hd)).symm),
      show starts'.map φ = starts'.map (ψ ∘ cls) from List.map_congr_left (fun d hd => (hψ d (hst'.dart d hd)).symm)]
    exact h5

/-- The sum of a function that is zero on the other edges. -/
theorem sum_support {A : Type} [AddCommGroup A] {D : Type} [DecidableEq D] {fl sx : List D} (hn : fl.Nodup) (hn' : sx.Nodup) (hsub : ∀ d ∈ sx, d ∈ fl)
    (f : D → A) (hf : ∀ d ∈ fl, d ∉ sx → f d = 0) : (fl.map f).sum = (sx.map f).sum := by
  rw [← List.sum_toFinset f hn, ← List.sum_toFinset f hn']
  symm
  refine Finset.sum_subset ?_ ?_
  · intro d hd; rw [List.mem_toFinset] at hd ⊢; exact hsub d hd
  · intro d hd hd'; rw [List.mem_toFinset] at hd hd'; exact hf d hd hd'

/-- **C40.** The pairing is defined exactly on chains without boundary. -/
theorem C40_defined (hS : S.Closed valid) {ls : List L} (hls : ls.Nodup) (hval : ∀ l, l ∈ ls ↔ valid l) {es sx : List (L × ℕ)}
    (hes : S.edges ls = .ok es) (hsx : S.simplices1 ls = .ok sx) {fuel : ℕ} (hf : es.length + 1 < fuel) {starts : List (L × ℕ)}
    (hst : S.IsStarts valid starts) {m o : L × ℕ → R} (hm : ∀ d, d ∉ sx → m d = 0) (ho : ∀ d, d ∉ sx → o d = 0) :
    (∃ r, S.algebraicIntersection fuel starts m o = .ok r) ↔
      S.boundary1 fuel ∅ (items sx m) = .ok 0 ∧ S.boundary1 fuel ∅ (items sx o) = .ok 0 := by
  obtain ⟨es', he', -, hmem⟩ := edges_spec hS.bordered ls hls (fun l hl => (hval l).1 hl)
  rw [hes] at he'; injection he' with he'; subst he'
  obtain ⟨sx', hsx', q2, q3, q4, q5⟩ := simplices1_spec hS hls hval
  rw [hsx] at hsx'; injection hsx' with hsx'; subst hsx'
  have hes' : ∀ d, d ∈ es ↔ S.IsDart valid d := fun d => (hmem d).trans ⟨fun h => h.2, fun h => ⟨(hval _).2 h.1, h⟩⟩
  obtain ⟨F, hF, hn, hfl, -, hx, -⟩ := algebraicIntersection_spec (R := R) hS hes' (by omega : es.length < fuel) hst
  have hV : ∀ d, ∃ x, S.IsDart valid d → S.surfaceVertex fuel d = .ok x := by
    intro d
    by_cases hd : S.IsDart valid d
    · obtain ⟨x, hx⟩ := surfaceVertex_defined hS.bordered (fun d hd => (hes' d).2 hd) hf hd
      exact ⟨x, fun _ => hx⟩
    · exact ⟨∅, fun h => absurd h hd⟩
  choose V hV using hV
  have hVeq : ∀ a b, S.IsDart valid a → S.IsDart valid b → (V a = V b ↔ S.SameVertex valid a b) := fun a b ha hb =>
    surfaceVertex_eq_iff hS.bordered ha hb (hV a ha) (hV b hb)
  -- the boundary at a vertex is the sum of the flows of the edges there
  have key : ∀ (m : L × ℕ → R), (∀ d, d ∉ sx → m d = 0) → ∀ v, (sx.map (fun d => S.edgeBoundary ∅ V d (m d))).sum v =
      -(F.flatten.map (fun d => if V d = v then S.flow m d else 0)).sum := by
    intro m hm v
    have h1 : ∀ l : List (L × ℕ), (l.map (fun d => S.edgeBoundary ∅ V d (m d))).sum v =
        (l.map (fun d => if V (S.oppF d) = v then m d else 0)).sum - (l.map (fun d => if V d = v then m d else 0)).sum := by
      intro l
      induction l with
      | nil => simp
      | cons d l ih =>
        simp only [List.map_cons, List.sum_cons, Pi.add_apply, ih]
        unfold edgeBoundary toC0
        rw [if_neg (by simp), if_neg (by simp), Pi.sub_apply, Pi.single_apply, Pi.single_apply]
        simp only [eq_comm (a := v)]
        ring
    rw [h1, ← sum_support hn q2 (fun d hd => (hfl d).2 (q3 d hd)) _ (fun d _ h => by rw [hm d h, ite_self]),
      ← sum_support hn q2 (fun d hd => (hfl d).2 (q3 d hd)) _ (fun d _ h => by rw [hm d h, ite_self])]
    have h2 : (F.flatten.map (fun d => if V (S.oppF d) = v then m d else 0)).sum =
        (F.flatten.map (fun d => if V d = v then m (S.oppF d) else 0)).sum := by
      rw [← sum_opp hS hn hfl]
      congr 1
      refine List.map_congr_left ?_
      intro d hd
      rw [hS.oppF_oppF ((hfl d).1 hd)]
    rw [h2]
    generalize F.flatten = l
    induction l with
    | nil => simp
    | cons d l ih =>
      simp only [List.map_cons, List.sum_cons]
      unfold flow at ih ⊢
      split_ifs
      · linear_combination ih
      · linear_combination ih
  have main : ∀ (m : L × ℕ → R), (∀ d, d ∉ sx → m d = 0) →
      (S.boundary1 fuel ∅ (items sx m) = .ok 0 ↔ ∀ l ∈ F, (l.map (S.flow m)).sum = 0) := by
    intro m hm
    rw [boundary1_items hS ∅ hV q3 m]
    have e1 : ∀ a b : Finset (L × Vec K) → R, (Except.ok a : Except Err (Finset (L × Vec K) → R)) = .ok b ↔ a = b := fun a b =>
      ⟨fun h => by injection h, fun h => by rw [h]⟩
    rw [e1]
    -- the fan of a vertex
    have hfan : ∀ l ∈ F, ∀ x, S.IsDart valid x → (∀ y, y ∈ l ↔ S.SameVertex valid x y) →
        (F.flatten.map (fun d => if V d = V x then S.flow m d else 0)).sum = (l.map (S.flow m)).sum := by
      intro l hl x hxd hxl
      have hln : l.Nodup := (List.nodup_flatten.1 hn).1 l hl
      have hld : ∀ d ∈ l, d ∈ F.flatten := fun d hd => List.mem_flatten.2 ⟨l, hl, hd⟩
      rw [sum_support hn hln hld _ (fun d hd hd' => if_neg (fun h => hd' ((hxl d).2 (.symm _ _ ((hVeq d x ((hfl d).1 hd) hxd).1 h)))))]
      congr 1
      refine List.map_congr_left ?_
      intro d hd
      exact if_pos ((hVeq d x ((hfl d).1 (hld d hd)) hxd).2 (.symm _ _ ((hxl d).1 hd)))
    constructor
    · intro h l hl
      obtain ⟨x, hxd, hxl⟩ := hx l hl
      have := key m hm (V x)
      rw [h, hfan l hl x hxd hxl] at this
      exact (neg_eq_zero.1 this.symm)
    · intro h
      funext v
      rw [key m hm v]
      by_cases hv : ∃ x, S.IsDart valid x ∧ V x = v
      · obtain ⟨x, hxd, rfl⟩ := hv
        obtain ⟨l, hl, hxl⟩ := List.mem_flatten.1 ((hfl x).2 hxd)
        obtain ⟨y, hyd, hyl⟩ := hx l hl
        rw [hfan l hl x hxd (fun z => (hyl z).trans ⟨fun h => .trans _ _ _ (.symm _ _ ((hyl x).1 hxl)) h,
          fun h => .trans _ _ _ ((hyl x).1 hxl) h⟩), h l hl, neg_zero]
        rfl
      · rw [List.sum_eq_zero, neg_zero]
        · rfl
        · intro z hz
          obtain ⟨d, hd, rfl⟩ := List.mem_map.1 hz
          exact if_neg (fun h => hv ⟨d, (hfl d).1 hd, h⟩)
  rw [main m hm, main o ho]
  constructor
  · rintro ⟨r, hr⟩
    rw [hF] at hr
    exact ⟨fun l hl => (hr.1 l hl).1, fun l hl => (hr.1 l hl).2⟩
  · rintro ⟨h1, h2⟩
    exact ⟨_, (hF _ _ _).2 ⟨fun l hl => ⟨h1 l hl, h2 l hl⟩, rfl⟩⟩

end

theorem exTorus2_dart (d : Bool × ℕ) : exTorus2.IsDart (fun _ => True) d ↔ d ∈ [(false, 0), (false, 1), (false, 2), (true, 0), (true, 1), (true, 2)] := by
  obtain ⟨l, e⟩ := d
  constructor
  · rintro ⟨-, p, hp, he⟩
    have hp : Except.ok (if l then [(1, 1), (0, 1), (1, 0)] else MSurf.tri) = (Except.ok p : Except Err (Poly ℚ)) := hp
    injection hp with hp
    subst hp
    have he : e < 3 := by cases l <;> exact he
    interval_cases e <;> cases l <;> decide
  · intro h
    refine ⟨trivial, _, rfl, ?_⟩
    have : e < 3 := by revert h; simp; omega
    cases l <;> exact this

theorem exTorus2_starts : exTorus2.IsStarts (fun _ => True) [(false, 0)] where
  dart := by simp [exTorus2_dart]
  apart := List.pairwise_singleton _ _
  cover := by
    intro d hd
    refine ⟨_, List.mem_singleton.2 rfl, ?_⟩
    obtain ⟨g, n, h1, -, -, h3, -⟩ := edgesCcw_spec exTorus2_closed (fun d => (exTorus2_dart d).symm) (by decide : 6 < 7) ((exTorus2_dart (false, 0)).2 (by decide))
    have h2 : exTorus2.edgesCcw 7 (false, 0) = .ok [(false, 0), (true, 2), (false, 1), (true, 0), (false, 2), (true, 1)] := by decide +kernel
    rw [h2] at h1
    injection h1 with h1
    rw [← h3, ← h1]
    rw [exTorus2_dart] at hd
    revert hd
    simp only [List.mem_cons, List.not_mem_nil, or_false]
    tauto

/-- The torus: two of its closed edges intersect once. -/
example : exTorus2.algebraicIntersection 7 [(false, 0)] (Pi.single (false, 0) 1) (Pi.single (false, 1) (1 : ℤ)) = .ok 1 := by
  decide +kernel

end RSurf
end Flat
