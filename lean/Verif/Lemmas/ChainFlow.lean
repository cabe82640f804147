import Verif.Model.FlipHomology
import Verif.Props.Intersection
import Verif.Props.EulerInvariance
import Mathlib.Algebra.Module.LinearMap.Defs

/-!
# Cycles and boundaries in terms of flows
-/

namespace Flat
namespace RSurf
variable {L K : Type} [DecidableEq L] [Field K] [LinearOrder K] [IsStrictOrderedRing K] {S T U : RSurf L K} {valid : L → Prop}
  {R : Type} [CommRing R]

/-- A chain of edges that is the boundary of a chain of polygons. -/
def Null (S : RSurf L K) (valid : L → Prop) (f : L × ℕ → R) : Prop :=
  ∃ w : L → R, ∀ d, S.IsDart valid d → S.flow f d = w d.1 - w (S.oppF d).1

/-! ## Chains without boundary -/

/-- The chain pairs to zero with all functions on the edges that only depend on the vertex where the edge starts. -/
def Cyc (S : RSurf L K) (valid : L → Prop) (es : List (L × ℕ)) (f : L × ℕ → R) : Prop :=
  ∀ φ : L × ℕ → R, (∀ a b, S.SameVertex valid a b → φ a = φ b) → (es.map (fun d => f d * (φ (S.oppF d) - φ d))).sum = 0

theorem list_sum_sub {D : Type} (es : List D) (f g : D → R) : (es.map (fun d => f d - g d)).sum = (es.map f).sum - (es.map g).sum := by
  induction es with
  | nil => simp
  | cons d es ih => simp only [List.map_cons, List.sum_cons, ih]; ring

theorem list_sum_neg {D : Type} (es : List D) (f : D → R) : (es.map (fun d => - f d)).sum = - (es.map f).sum := by
  induction es with
  | nil => simp
  | cons d es ih => simp only [List.map_cons, List.sum_cons, ih]; ring

/-- The pairing only depends on the flow of the chain. -/
theorem pairing_flow (hS : S.Closed valid) {es : List (L × ℕ)} (hn : es.Nodup) (hes : ∀ d, d ∈ es ↔ S.IsDart valid d) (f φ : L × ℕ → R) :
    (es.map (fun d => f d * (φ (S.oppF d) - φ d))).sum = - (es.map (fun d => φ d * S.flow f d)).sum := by
  have h1 : (es.map (fun d => f d * φ (S.oppF d))).sum = (es.map (fun d => f (S.oppF d) * φ d)).sum := by
    rw [← sum_opp hS hn hes]
    congr 1
    refine List.map_congr_left fun d hd => ?_
    rw [hS.oppF_oppF ((hes d).1 hd)]
  simp only [mul_sub]
  rw [list_sum_sub, h1, ← list_sum_sub, ← list_sum_neg]
  congr 1
  refine List.map_congr_left fun d _ => ?_
  unfold flow; ring

theorem cyc_congr (hS : S.Closed valid) {es : List (L × ℕ)} (hn : es.Nodup) (hes : ∀ d, d ∈ es ↔ S.IsDart valid d) {f g : L × ℕ → R}
    (h : ∀ d, S.IsDart valid d → S.flow f d = S.flow g d) : S.Cyc valid es f ↔ S.Cyc valid es g := by
  unfold Cyc
  simp only [pairing_flow hS hn hes]
  have : ∀ φ : L × ℕ → R, es.map (fun d => φ d * S.flow f d) = es.map (fun d => φ d * S.flow g d) := fun φ =>
    List.map_congr_left fun d hd => by rw [h d ((hes d).1 hd)]
  simp only [this]

theorem null_congr {f g : L × ℕ → R} (h : ∀ d, S.IsDart valid d → S.flow f d = S.flow g d) : S.Null valid f ↔ S.Null valid g := by
  unfold Null
  constructor
  · rintro ⟨w, hw⟩; exact ⟨w, fun d hd => by rw [← h d hd, hw d hd]⟩
  · rintro ⟨w, hw⟩; exact ⟨w, fun d hd => by rw [h d hd, hw d hd]⟩

theorem null_add {f g : L × ℕ → R} (hf : S.Null valid f) (hg : S.Null valid g) : S.Null valid (f + g) := by
  obtain ⟨w, hw⟩ := hf
  obtain ⟨v, hv⟩ := hg
  refine ⟨w + v, fun d hd => ?_⟩
  have := hw d hd
  have := hv d hd
  simp only [flow, Pi.add_apply] at *
  linear_combination hw d hd + hv d hd

theorem null_neg {f : L × ℕ → R} (hf : S.Null valid f) : S.Null valid (-f) := by
  obtain ⟨w, hw⟩ := hf
  refine ⟨-w, fun d hd => ?_⟩
  have := hw d hd
  simp only [flow, Pi.neg_apply] at *
  linear_combination -this

/-- Boundaries have no boundary. -/
theorem Null.cyc (hS : S.Closed valid) {es : List (L × ℕ)} (hn : es.Nodup) (hes : ∀ d, d ∈ es ↔ S.IsDart valid d) {f : L × ℕ → R}
    (h : S.Null valid f) : S.Cyc valid es f := by
  obtain ⟨w, hw⟩ := h
  intro φ hφ
  rw [pairing_flow hS hn hes]
  have h1 : es.map (fun d => φ d * S.flow f d) = es.map (fun d => φ d * w d.1 - φ d * w (S.oppF d).1) :=
    List.map_congr_left fun d hd => by rw [hw d ((hes d).1 hd)]; ring
  have h2 : (es.map (fun d => φ d * w (S.oppF d).1)).sum = (es.map (fun d => φ (S.nextF d) * w d.1)).sum := by
    rw [← sum_opp hS hn hes]
    congr 1
    refine List.map_congr_left fun d hd => ?_
    rw [hS.oppF_oppF ((hes d).1 hd), hφ _ _ (hS.sameVertex_next ((hes d).1 hd))]
  have h3 : (es.map (fun d => φ (S.nextF d) * w d.1)).sum = (es.map (fun d => φ d * w d.1)).sum := by
    have hperm : (es.map S.nextF).Perm es := by
      rw [List.perm_ext_iff_of_nodup _ hn]
      · intro d
        rw [List.mem_map]
        constructor
        · rintro ⟨c, hc, rfl⟩; exact (hes _).2 (nextF_dart hS.bordered ((hes _).1 hc))
        · intro hd
          obtain ⟨hl, he⟩ := (isDart_iff hS.bordered d).1 ((hes d).1 hd)
          refine ⟨(d.1, (d.2 + (S.sides d.1 - 1)) % S.sides d.1), (hes _).2 ((isDart_iff hS.bordered _).2 ⟨hl, Nat.mod_lt _ (by omega)⟩), ?_⟩
          unfold nextF
          dsimp only
          rw [Nat.mod_add_mod, show d.2 + (S.sides d.1 - 1) + 1 = d.2 + S.sides d.1 by omega, Nat.add_mod_right, Nat.mod_eq_of_lt he]
      · refine List.Nodup.map_on ?_ hn
        rintro ⟨l, i⟩ hi ⟨l', j⟩ hj hij
        have hi' := ((isDart_iff hS.bordered _).1 ((hes _).1 hi)).2
        have hj' := ((isDart_iff hS.bordered _).1 ((hes _).1 hj)).2
        unfold nextF at hij
        dsimp only at hij hi' hj'
        rw [Prod.mk.injEq] at hij
        obtain ⟨rfl, hij⟩ := hij
        rw [mod_two (by omega), mod_two (by omega)] at hij
        rw [Prod.mk.injEq]
        refine ⟨rfl, ?_⟩
        split_ifs at hij <;> omega
    have := (hperm.map (fun d => φ d * w d.1)).sum_eq
    rw [List.map_map] at this
    exact this
  rw [h1, list_sum_sub, h2, h3, sub_self, neg_zero]

/-! ## The boundary maps of the code -/

theorem boundary_pairing (hS : S.Closed valid) {es sx : List (L × ℕ)} (hn : es.Nodup) (hes : ∀ d, d ∈ es ↔ S.IsDart valid d) (hsn : sx.Nodup)
    (hsd : ∀ d ∈ sx, S.IsDart valid d) (V : L × ℕ → Finset (L × Vec K)) {f : L × ℕ → R} (hf : ∀ d, d ∉ sx → f d = 0) (v : Finset (L × Vec K)) :
    (sx.map (fun d => S.edgeBoundary ∅ V d (f d))).sum v =
      (es.map (fun d => f d * ((if V (S.oppF d) = v then 1 else 0) - if V d = v then 1 else 0))).sum := by
  rw [sum_support hn hsn (fun d hd => (hes d).2 (hsd d hd)) _ (fun d _ h => by rw [hf d h, zero_mul])]
  clear hsn hsd
  induction sx with
  | nil => simp
  | cons d l ih =>
    have ih' : (l.map (fun d => S.edgeBoundary ∅ V d (f d))).sum v =
      (l.map (fun d => f d * ((if V (S.oppF d) = v then 1 else 0) - if V d = v then 1 else 0))).sum := by
      clear ih hf
      induction l with
      | nil => simp
      | cons d l ih =>
        simp only [List.map_cons, List.sum_cons, Pi.add_apply, ih]
        unfold edgeBoundary toC0
        rw [if_neg (by simp), if_neg (by simp), Pi.sub_apply, Pi.single_apply, Pi.single_apply]
        simp only [eq_comm (a := v), mul_sub, mul_ite, mul_one, mul_zero]
    simp only [List.map_cons, List.sum_cons, Pi.add_apply, ih']
    unfold edgeBoundary toC0
    rw [if_neg (by simp), if_neg (by simp), Pi.sub_apply, Pi.single_apply, Pi.single_apply]
    simp only [eq_comm (a := v), mul_sub, mul_ite, mul_one, mul_zero]

/-- The chains that the code considers to be cycles. -/
theorem boundary1_iff (hS : S.Closed valid) {es sx : List (L × ℕ)} (hn : es.Nodup) (hes : ∀ d, d ∈ es ↔ S.IsDart valid d) (hsn : sx.Nodup)
    (hsd : ∀ d ∈ sx, S.IsDart valid d) {fuel : ℕ} (hfuel : es.length + 1 < fuel) {f : L × ℕ → R} (hf : ∀ d, d ∉ sx → f d = 0) :
    S.boundary1 fuel ∅ (items sx f) = .ok 0 ↔ S.Cyc valid es f := by
  have hV : ∀ d, ∃ x, S.IsDart valid d → S.surfaceVertex fuel d = .ok x := by
    intro d
    by_cases hd : S.IsDart valid d
    · obtain ⟨x, hx⟩ := surfaceVertex_defined hS.bordered (fun d hd => (hes d).2 hd) hfuel hd
      exact ⟨x, fun _ => hx⟩
    · exact ⟨∅, fun h => absurd h hd⟩
  choose V hV using hV
  have hVeq : ∀ a b, S.IsDart valid a → S.IsDart valid b → (V a = V b ↔ S.SameVertex valid a b) := fun a b ha hb =>
    surfaceVertex_eq_iff hS.bordered ha hb (hV a ha) (hV b hb)
  rw [boundary1_items hS ∅ hV hsd f]
  have e1 : ∀ a b : Finset (L × Vec K) → R, (Except.ok a : Except Err (Finset (L × Vec K) → R)) = .ok b ↔ a = b := fun a b =>
    ⟨fun h => by injection h, fun h => by rw [h]⟩
  rw [e1]
  constructor
  · intro h φ hφ
    rw [pairing_flow hS hn hes]
    have hz : ∀ v, (es.map (fun d => if V d = v then S.flow f d else 0)).sum = 0 := by
      intro v
      have := congrFun h v
      rw [boundary_pairing hS hn hes hsn hsd V hf v, pairing_flow hS hn hes f (fun d => if V d = v then 1 else 0)] at this
      have h' := neg_eq_zero.1 this
      refine Eq.trans ?_ h'
      congr 1
      refine List.map_congr_left fun d _ => ?_
      split_ifs <;> simp
    rw [← List.sum_toFinset _ hn, neg_eq_zero, ← Finset.sum_fiberwise_of_maps_to (g := V) (t := es.toFinset.image V)
      (fun d hd => Finset.mem_image_of_mem V hd)]
    refine Finset.sum_eq_zero fun v hv => ?_
    obtain ⟨c, hc, rfl⟩ := Finset.mem_image.1 hv
    have h1 : ∀ d ∈ es.toFinset.filter (fun d => V d = V c), φ d * S.flow f d = φ c * S.flow f d := by
      intro d hd
      simp only [Finset.mem_filter, List.mem_toFinset] at hd
      rw [hφ d c ((hVeq d c ((hes d).1 hd.1) ((hes c).1 (List.mem_toFinset.1 hc))).1 hd.2)]
    rw [Finset.sum_congr rfl h1, ← Finset.mul_sum, Finset.sum_filter]
    have := hz (V c)
    rw [← List.sum_toFinset _ hn] at this
    rw [this, mul_zero]
  · intro h
    funext v
    rw [boundary_pairing hS hn hes hsn hsd V hf v]
    classical
    have hφ : ∃ φ : L × ℕ → R, (∀ a b, S.SameVertex valid a b → φ a = φ b) ∧ ∀ d, S.IsDart valid d → φ d = if V d = v then 1 else 0 := by
      refine ⟨fun d => if ∃ c, S.IsDart valid c ∧ V c = v ∧ S.SameVertex valid c d then 1 else 0, ?_, ?_⟩
      · intro a b hab
        have : (∃ c, S.IsDart valid c ∧ V c = v ∧ S.SameVertex valid c a) ↔ ∃ c, S.IsDart valid c ∧ V c = v ∧ S.SameVertex valid c b :=
          ⟨fun ⟨c, h1, h2, h3⟩ => ⟨c, h1, h2, .trans _ _ _ h3 hab⟩, fun ⟨c, h1, h2, h3⟩ => ⟨c, h1, h2, .trans _ _ _ h3 (.symm _ _ hab)⟩⟩
        simp only [this]
      · intro d hd
        have : (∃ c, S.IsDart valid c ∧ V c = v ∧ S.SameVertex valid c d) ↔ V d = v :=
          ⟨fun ⟨c, h1, h2, h3⟩ => ((hVeq c d h1 hd).2 h3).symm.trans h2, fun h => ⟨d, hd, h, .refl _⟩⟩
        simp only [this]
    obtain ⟨φ, h1, h2⟩ := hφ
    refine Eq.trans ?_ (h φ h1)
    congr 1
    refine List.map_congr_left fun d hd => ?_
    rw [h2 d ((hes d).1 hd), h2 _ (hS.oppF_dart ((hes d).1 hd))]

theorem faceLoop_support (hS : S.Closed valid) {sx : List (L × ℕ)} (hsx : ∀ d, S.IsDart valid d → d ∈ sx ∨ S.oppF d ∈ sx) (r : R)
    (ds : List (L × ℕ)) (hds : ∀ d ∈ ds, S.IsDart valid d) : ∃ f, S.faceLoop sx r ds = .ok f ∧ ∀ d, d ∉ sx → f d = 0 := by
  induction ds with
  | nil => exact ⟨0, rfl, fun _ _ => rfl⟩
  | cons d ds ih =>
    obtain ⟨g, hg, hg0⟩ := ih (fun d hd => hds d (List.mem_cons_of_mem _ hd))
    have hd := hds d List.mem_cons_self
    by_cases h : d ∈ sx
    · refine ⟨Pi.single d r + g, ?_, ?_⟩
      · simp only [faceLoop, faceEdge, if_pos h, hg, bind, Except.bind, pure, Except.pure]
      · intro x hx
        rw [Pi.add_apply, hg0 x hx, Pi.single_apply, if_neg (by rintro rfl; exact hx h), add_zero]
    · refine ⟨-Pi.single (S.oppF d) r + g, ?_, ?_⟩
      · simp only [faceLoop, faceEdge, if_neg h, hS.opp!_oppF hd, hg, bind, Except.bind, pure, Except.pure]
      · intro x hx
        rw [Pi.add_apply, hg0 x hx, Pi.neg_apply, Pi.single_apply, if_neg (by rintro rfl; exact hx ((hsx d hd).resolve_left h)), neg_zero, add_zero]

theorem boundary2_support (hS : S.Closed valid) {sx : List (L × ℕ)} (hsx : ∀ d, S.IsDart valid d → d ∈ sx ∨ S.oppF d ∈ sx)
    (chain : List (L × R)) (hc : ∀ x ∈ chain, valid x.1) : ∃ f, S.boundary2 sx chain = .ok f ∧ ∀ d, d ∉ sx → f d = 0 := by
  induction chain with
  | nil => exact ⟨0, rfl, fun _ _ => rfl⟩
  | cons x chain ih =>
    obtain ⟨g, hg, hg0⟩ := ih (fun x hx => hc x (List.mem_cons_of_mem _ hx))
    obtain ⟨p, hp, -⟩ := hS.poly _ (hc x List.mem_cons_self)
    obtain ⟨es, he, hed⟩ : ∃ es, S.edgesAt x.1 = .ok es ∧ ∀ d ∈ es, S.IsDart valid d := by
      refine ⟨_, edgesAt_ok hp, ?_⟩
      intro d hd
      obtain ⟨e, he, rfl⟩ := List.mem_map.1 hd
      exact ⟨hc x List.mem_cons_self, p, hp, List.mem_range.1 he⟩
    obtain ⟨f, hf, hf0⟩ := faceLoop_support hS hsx x.2 es hed
    obtain ⟨l, r⟩ := x
    refine ⟨f + g, ?_, fun d hd => by rw [Pi.add_apply, hf0 d hd, hg0 d hd, add_zero]⟩
    simp only [boundary2, he, hf, hg, bind, Except.bind, pure, Except.pure]

/-- The chains that the code considers to be boundaries of polygons. -/
theorem boundary2_iff [DecidableEq R] (hS : S.Closed valid) {ls : List L} (hln : ls.Nodup) (hls : ∀ l, l ∈ ls ↔ valid l) {sx : List (L × ℕ)}
    (hsd : ∀ d ∈ sx, S.IsDart valid d) (hsx : ∀ d, S.IsDart valid d → d ∈ sx ∨ S.oppF d ∈ sx) (hsx2 : ∀ d ∈ sx, S.oppF d ∈ sx → S.oppF d = d)
    (hfold : ∀ d, S.IsDart valid d → S.oppF d ≠ d) {f : L × ℕ → R} (hf : ∀ d, d ∉ sx → f d = 0) :
    (∃ chain : List (L × R), (∀ x ∈ chain, x.1 ∈ ls) ∧ S.boundary2 sx chain = .ok f) ↔ S.Null valid f := by
  constructor
  · rintro ⟨chain, hc, h⟩
    exact ⟨polygonCoeff chain, fun d hd => boundary2_flow hS hsx hsx2 chain (fun x hx => (hls _).1 (hc x hx)) h hd⟩
  · rintro ⟨w, hw⟩
    have hc : ∀ x ∈ ls.map (fun l => (l, w l)), x.1 ∈ ls := by
      intro x hx; obtain ⟨l, hl, rfl⟩ := List.mem_map.1 hx; exact hl
    obtain ⟨g, hg, hg0⟩ := boundary2_support hS hsx (ls.map (fun l => (l, w l))) (fun x hx => (hls _).1 (hc x hx))
    refine ⟨_, hc, ?_⟩
    rw [hg]
    have hco : ∀ l, valid l → polygonCoeff (ls.map (fun l => (l, w l))) l = w l := by
      intro l hl
      unfold polygonCoeff
      rw [List.map_map, ← List.sum_toFinset _ hln, Finset.sum_eq_single l]
      · simp
      · intro b _ hb; simp [hb]
      · intro h; exact absurd (List.mem_toFinset.2 ((hls l).2 hl)) h
    congr 1
    funext d
    by_cases hd : d ∈ sx
    · have hdd := hsd d hd
      have ho := hS.oppF_dart hdd
      have ho' : S.oppF d ∉ sx := fun h => hfold d hdd (hsx2 d hd h)
      have h1 := boundary2_flow hS hsx hsx2 _ (fun x hx => (hls _).1 (hc x hx)) hg hdd
      rw [hco _ hdd.1, hco _ ho.1, ← hw d hdd] at h1
      unfold flow at h1
      rw [hg0 _ ho', hf _ ho', sub_zero, sub_zero] at h1
      exact h1
    · rw [hg0 d hd, hf d hd]

/-! ## The image of a chain -/

theorem toChain_spec (hT : T.Closed valid) {sx : List (L × ℕ)} (hsx : ∀ d, T.IsDart valid d → d ∈ sx ∨ T.oppF d ∈ sx) {d : L × ℕ}
    (hd : T.IsDart valid d) : ∃ c : L × ℕ → R, T.toChain sx d = .ok c ∧ (∀ x, x ∉ sx → c x = 0) ∧
      ∀ x, T.IsDart valid x → T.flow c x = T.flow (Pi.single d 1) x := by
  by_cases h : d ∈ sx
  · refine ⟨Pi.single d 1, by unfold toChain; rw [if_pos h], ?_, fun _ _ => rfl⟩
    intro x hx
    rw [Pi.single_apply, if_neg (by rintro rfl; exact hx h)]
  · have ho := (hsx d hd).resolve_left h
    refine ⟨-Pi.single (T.oppF d) 1, ?_, ?_, ?_⟩
    · unfold toChain
      rw [if_neg h]
      simp only [hT.opp!_oppF hd, bind, Except.bind, ho, not_true_eq_false, if_false, pure, Except.pure]
    · intro x hx
      rw [Pi.neg_apply, Pi.single_apply, if_neg (by rintro rfl; exact hx ho), neg_zero]
    · intro x hx
      unfold flow
      simp only [Pi.neg_apply, Pi.single_apply]
      have e1 : T.oppF x = T.oppF d ↔ x = d := ⟨fun h => by rw [← hT.oppF_oppF hx, h, hT.oppF_oppF hd], fun h => by rw [h]⟩
      have e2 : T.oppF x = d ↔ x = T.oppF d := ⟨fun h => by rw [← h, hT.oppF_oppF hx], fun h => by rw [h, hT.oppF_oppF hd]⟩
      simp only [e1, e2]
      ring

theorem flow_add (f g : L × ℕ → R) (x : L × ℕ) : S.flow (f + g) x = S.flow f x + S.flow g x := by simp only [flow, Pi.add_apply]; ring
theorem flow_smul (c : R) (f : L × ℕ → R) (x : L × ℕ) : S.flow (c • f) x = c * S.flow f x := by simp only [flow, Pi.smul_apply, smul_eq_mul]; ring

end RSurf
end Flat
