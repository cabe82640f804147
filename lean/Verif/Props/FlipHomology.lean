import Verif.Lemmas.FlipChain
import Mathlib.Algebra.Module.LinearMap.Defs

/-!
# Transport of homology along Delaunay flips (C54)
-/

namespace Flat
open MSurf (flipOld)
namespace RSurf
variable {L K : Type} [LinearOrder L] [Field K] [LinearOrder K] [IsStrictOrderedRing K] {S T U : RSurf L K} {valid : L → Prop}
  {R : Type} [CommRing R]


theorem imageOfEdge_spec [DecidableEq R] (hT : T.Closed valid) {sx : List (L × ℕ)} (hsx : ∀ d, T.IsDart valid d → d ∈ sx ∨ T.oppF d ∈ sx)
    (A : L × ℕ → L × ℕ → R) (d : L × ℕ) (gens : List (L × ℕ)) (hg : ∀ x ∈ gens, T.IsDart valid x) :
    ∃ c : L × ℕ → R, T.imageOfEdge sx A d gens = .ok c ∧ (∀ x, x ∉ sx → c x = 0) ∧
      ∀ x, T.IsDart valid x → T.flow c x = (gens.map (fun i => A i d * T.flow (Pi.single i 1) x)).sum := by
  induction gens with
  | nil => exact ⟨0, rfl, fun _ _ => rfl, fun x _ => by simp [flow]⟩
  | cons i gens ih =>
    obtain ⟨c, h1, h2, h3⟩ := ih (fun x hx => hg x (List.mem_cons_of_mem _ hx))
    by_cases hz : A i d = 0
    · refine ⟨c, by rw [imageOfEdge, if_pos hz, h1], h2, fun x hx => ?_⟩
      rw [List.map_cons, List.sum_cons, hz, zero_mul, zero_add, h3 x hx]
    · obtain ⟨b, k1, k2, k3⟩ := toChain_spec (R := R) hT hsx (hg i List.mem_cons_self)
      refine ⟨A i d • b + c, ?_, ?_, ?_⟩
      · rw [imageOfEdge, if_neg hz]
        simp only [k1, h1, bind, Except.bind, pure, Except.pure]
      · intro x hx
        rw [Pi.add_apply, Pi.smul_apply, k2 x hx, h2 x hx, smul_zero, add_zero]
      · intro x hx
        rw [flow_add, flow_smul, k3 x hx, h3 x hx, List.map_cons, List.sum_cons]

/-- The image of a chain is linear in the chain, and its flow is that of the product with the matrix. -/
theorem imageOfChain_spec [DecidableEq R] (hT : T.Closed valid) {es sxS sx : List (L × ℕ)} (hn : es.Nodup)
    (hes : ∀ d, d ∈ es ↔ T.IsDart valid d) (hsxS : sxS.Nodup) (hsxSd : ∀ d ∈ sxS, T.IsDart valid d)
    (hsx : ∀ d, T.IsDart valid d → d ∈ sx ∨ T.oppF d ∈ sx) (A : L × ℕ → L × ℕ → R) :
    ∃ Φ : (L × ℕ → R) →ₗ[R] (L × ℕ → R), (∀ f, T.imageOfChain sx es A (items sxS f) = .ok (Φ f)) ∧ (∀ f x, x ∉ sx → Φ f x = 0) ∧
      ∀ f, (∀ d, d ∉ sxS → f d = 0) → ∀ x, T.IsDart valid x → T.flow (Φ f) x = T.flow (matVec es A f) x := by
  have hE : ∀ d, ∃ c : L × ℕ → R, T.imageOfEdge sx A d es = .ok c ∧ (∀ x, x ∉ sx → c x = 0) ∧
      ∀ x, T.IsDart valid x → T.flow c x = (es.map (fun i => A i d * T.flow (Pi.single i 1) x)).sum := fun d =>
    imageOfEdge_spec hT hsx A d es (fun x hx => (hes x).1 hx)
  choose E h1 h2 h3 using hE
  -- the flow of a column
  have hcol : ∀ d x, T.IsDart valid x → T.flow (E d) x = A x d - A (T.oppF x) d := by
    intro d x hx
    rw [h3 d x hx]
    unfold flow
    simp only [mul_sub, Pi.single_apply, mul_ite, mul_one, mul_zero]
    rw [list_sum_sub, ← List.sum_toFinset _ hn, ← List.sum_toFinset _ hn]
    rw [Finset.sum_ite_eq, Finset.sum_ite_eq, if_pos (List.mem_toFinset.2 ((hes x).2 hx)), if_pos (List.mem_toFinset.2 ((hes _).2 (hT.oppF_dart hx)))]
  have hsum : ∀ (l : List (L × ℕ)) (f : L × ℕ → R), T.imageOfChain sx es A (items l f) = .ok (l.map (fun d => f d • E d)).sum := by
    intro l f
    induction l with
    | nil => rfl
    | cons d l ih =>
      have : items (d :: l) f = (d, f d) :: items l f := rfl
      rw [this, imageOfChain]
      simp only [h1, ih, bind, Except.bind, pure, Except.pure, List.map_cons, List.sum_cons]
  refine ⟨{ toFun := fun f => (sxS.map (fun d => f d • E d)).sum, map_add' := ?_, map_smul' := ?_ }, fun f => hsum sxS f, ?_, ?_⟩
  · intro f g
    clear hsxS hsxSd
    induction sxS with
    | nil => simp
    | cons d l ih => rw [List.map_cons, List.map_cons, List.map_cons, List.sum_cons, List.sum_cons, List.sum_cons, ih, Pi.add_apply, add_smul]; abel
  · intro c f
    clear hsxS hsxSd
    induction sxS with
    | nil => simp
    | cons d l ih => rw [List.map_cons, List.map_cons, List.sum_cons, List.sum_cons, ih, Pi.smul_apply, smul_eq_mul, mul_smul, smul_add, RingHom.id_apply]
  · intro f x hx
    show (sxS.map (fun d => f d • E d)).sum x = 0
    clear hsxS hsxSd
    induction sxS with
    | nil => rfl
    | cons d l ih => rw [List.map_cons, List.sum_cons, Pi.add_apply, ih, Pi.smul_apply, h2 d x hx, smul_zero, add_zero]
  · intro f hf x hx
    show T.flow (sxS.map (fun d => f d • E d)).sum x = _
    have e1 : ∀ l : List (L × ℕ), T.flow (l.map (fun d => f d • E d)).sum x = (l.map (fun d => (A x d - A (T.oppF x) d) * f d)).sum := by
      intro l
      induction l with
      | nil => simp [flow]
      | cons d l ih => rw [List.map_cons, List.sum_cons, flow_add, ih, flow_smul, hcol d x hx, List.map_cons, List.sum_cons, mul_comm]
    rw [e1, ← sum_support hn hsxS (fun d hd => (hes d).2 (hsxSd d hd)) _ (fun d _ h => by rw [hf d h, mul_zero])]
    unfold flow matVec
    rw [← list_sum_sub]
    simp only [sub_mul]

/-! ## A sequence of flips -/

section
variable {l0 l1 : L} {d0 d1 : ℕ}

theorem Flip.cyc_iff (F : Flip S T valid l0 d0 l1 d1) (hS : S.Closed valid) (hT : T.Closed valid) {es : List (L × ℕ)} (hn : es.Nodup)
    (hes : ∀ d, d ∈ es ↔ S.IsDart valid d) (f : L × ℕ → R) :
    T.Cyc valid es (matVec es (FlipRec.matrix ((l0, d0), (l1, d1))) f) ↔ S.Cyc valid es f := by
  classical
  have dT : ∀ d, T.IsDart valid d ↔ S.IsDart valid d := F.dart_iff hS.bordered hT.bordered
  have hsv := fun a b => F.retri.sameVertex hS.bordered hT.bordered (a := a) (b := b)
  constructor
  · intro h φ hφ
    have hψ : ∃ ψ : L × ℕ → R, (∀ a b, T.SameVertex valid a b → ψ a = ψ b) ∧
        ∀ d, S.IsDart valid d → d ≠ (l0, d0) → d ≠ (l1, d1) → ψ d = φ (flipOld l0 d0 l1 d1 d) := by
      let Q : L × ℕ → L × ℕ → Prop := fun z y => T.IsDart valid y ∧ y ∉ ({(l0, d0), (l1, d1)} : Finset (L × ℕ)) ∧ T.SameVertex valid y z
      refine ⟨fun z => if h : ∃ y, Q z y then φ (flipOld l0 d0 l1 d1 h.choose) else 0, ?_, ?_⟩
      · intro a b hab
        by_cases ha : ∃ y, Q a y
        · have hb : ∃ y, Q b y := by obtain ⟨y, h1, h2, h3⟩ := ha; exact ⟨y, h1, h2, .trans _ _ _ h3 hab⟩
          simp only [dif_pos ha, dif_pos hb]
          obtain ⟨h1, h2, h3⟩ := ha.choose_spec
          obtain ⟨k1, k2, k3⟩ := hb.choose_spec
          exact hφ _ _ ((hsv _ _ h1 h2 k1 k2).1 (.trans _ _ _ h3 (.trans _ _ _ hab (.symm _ _ k3))))
        · have hb : ¬ ∃ y, Q b y := by
            rintro ⟨y, h1, h2, h3⟩; exact ha ⟨y, h1, h2, .trans _ _ _ h3 (.symm _ _ hab)⟩
          simp only [dif_neg ha, dif_neg hb]
      · intro d hd ha hb
        have hX : d ∉ ({(l0, d0), (l1, d1)} : Finset (L × ℕ)) := by simp [ha, hb]
        have hd' : ∃ y, Q d y := ⟨d, (dT d).2 hd, hX, .refl _⟩
        simp only [dif_pos hd']
        obtain ⟨h1, h2, h3⟩ := hd'.choose_spec
        exact hφ _ _ ((hsv _ _ h1 h2 ((dT d).2 hd) hX).1 h3)
    obtain ⟨ψ, h1, h2⟩ := hψ
    rw [← F.pairing hS hT hn hes f hφ h2]
    exact h ψ h1
  · intro h ψ hψ
    have hφ : ∃ φ : L × ℕ → R, (∀ a b, S.SameVertex valid a b → φ a = φ b) ∧
        ∀ d, S.IsDart valid d → d ≠ (l0, d0) → d ≠ (l1, d1) → ψ d = φ (flipOld l0 d0 l1 d1 d) := by
      let Q : L × ℕ → L × ℕ → Prop := fun z y => T.IsDart valid y ∧ y ∉ ({(l0, d0), (l1, d1)} : Finset (L × ℕ)) ∧
        S.SameVertex valid (flipOld l0 d0 l1 d1 y) z
      refine ⟨fun z => if h : ∃ y, Q z y then ψ h.choose else 0, ?_, ?_⟩
      · intro a b hab
        by_cases ha : ∃ y, Q a y
        · have hb : ∃ y, Q b y := by obtain ⟨y, h1, h2, h3⟩ := ha; exact ⟨y, h1, h2, .trans _ _ _ h3 hab⟩
          simp only [dif_pos ha, dif_pos hb]
          obtain ⟨h1, h2, h3⟩ := ha.choose_spec
          obtain ⟨k1, k2, k3⟩ := hb.choose_spec
          exact hψ _ _ ((hsv _ _ h1 h2 k1 k2).2 (.trans _ _ _ h3 (.trans _ _ _ hab (.symm _ _ k3))))
        · have hb : ¬ ∃ y, Q b y := by
            rintro ⟨y, h1, h2, h3⟩; exact ha ⟨y, h1, h2, .trans _ _ _ h3 (.symm _ _ hab)⟩
          simp only [dif_neg ha, dif_neg hb]
      · intro d hd ha hb
        have hX : d ∉ ({(l0, d0), (l1, d1)} : Finset (L × ℕ)) := by simp [ha, hb]
        have hd' : ∃ y, Q (flipOld l0 d0 l1 d1 d) y := ⟨d, (dT d).2 hd, hX, .refl _⟩
        simp only [dif_pos hd']
        obtain ⟨h1, h2, h3⟩ := hd'.choose_spec
        exact (hψ _ _ ((hsv _ _ h1 h2 ((dT d).2 hd) hX).2 h3)).symm
    obtain ⟨φ, h1, h2⟩ := hφ
    rw [F.pairing hS hT hn hes f h1 h2]
    exact h φ h1

/-- Flips no edge of which is glued to itself. -/
inductive Flips (valid : L → Prop) : RSurf L K → List (FlipRec L) → RSurf L K → Prop
  | nil {S : RSurf L K} (hS : S.Closed valid) : Flips valid S [] S
  | cons {S T U : RSurf L K} {l0 : L} {d0 : ℕ} {l1 : L} {d1 : ℕ} {fs : List (FlipRec L)} (hS : S.Closed valid) (F : Flip S T valid l0 d0 l1 d1)
      (Fs : Flips valid T fs U) : Flips valid S (((l0, d0), (l1, d1)) :: fs) U

theorem Flips.closed {fs : List (FlipRec L)} (F : Flips valid S fs U) : S.Closed valid ∧ U.Closed valid := by
  induction F with
  | nil hS => exact ⟨hS, hS⟩
  | cons hS _ _ ih => exact ⟨hS, ih.2⟩

theorem Flips.dart_iff {fs : List (FlipRec L)} (F : Flips valid S fs U) (d : L × ℕ) : U.IsDart valid d ↔ S.IsDart valid d := by
  induction F with
  | nil _ => rfl
  | cons hS F Fs ih => rw [ih, F.dart_iff hS.bordered Fs.closed.1.bordered]

theorem chainMatrix_cons (gens : List (L × ℕ)) (r : FlipRec L) (fs : List (FlipRec L)) :
    chainMatrix (R := R) gens (r :: fs) = matMul gens (chainMatrix gens fs) r.matrix := by
  unfold chainMatrix
  rw [List.reverse_cons, List.foldl_append]
  rfl

theorem matVec_matMul {D : Type} (gens : List D) (A B : D → D → R) (f : D → R) : matVec gens (matMul gens A B) f = matVec gens A (matVec gens B f) := by
  funext i
  unfold matVec matMul
  have e1 : ∀ j, (gens.map (fun k => A i k * B k j)).sum * f j = (gens.map (fun k => A i k * B k j * f j)).sum := fun j => by
    rw [← List.sum_map_mul_right]
  have e2 : ∀ k, A i k * (gens.map (fun j => B k j * f j)).sum = (gens.map (fun j => A i k * B k j * f j)).sum := fun k => by
    rw [← List.sum_map_mul_left]
    simp only [mul_assoc]
  simp only [e1, e2]
  rw [← Multiset.sum_coe, ← Multiset.sum_coe]
  simp only [← Multiset.sum_coe, ← Multiset.map_coe]
  exact Multiset.sum_map_sum_map _ _

theorem matVec_sub {D : Type} (gens : List D) (A : D → D → R) (f g : D → R) : matVec gens A (f - g) = matVec gens A f - matVec gens A g := by
  funext i
  unfold matVec
  rw [Pi.sub_apply, ← list_sum_sub]
  simp only [Pi.sub_apply, mul_sub]

theorem matVec_one {es : List (L × ℕ)} (hn : es.Nodup) (f : L × ℕ → R) {d : L × ℕ} (hd : d ∈ es) : matVec es (chainMatrix es []) f d = f d := by
  unfold matVec
  exact sum_one hn hd f

theorem flow_congr (hS : S.Closed valid) {f g : L × ℕ → R} (h : ∀ d, S.IsDart valid d → f d = g d) {d : L × ℕ} (hd : S.IsDart valid d) :
    S.flow f d = S.flow g d := by
  unfold flow
  rw [h d hd, h _ (hS.oppF_dart hd)]

theorem Flips.null_iff {fs : List (FlipRec L)} (F : Flips valid S fs U) {es : List (L × ℕ)} (hn : es.Nodup)
    (hes : ∀ d, d ∈ es ↔ S.IsDart valid d) (f : L × ℕ → R) : U.Null valid (matVec es (chainMatrix es fs) f) ↔ S.Null valid f := by
  induction F generalizing f with
  | nil hS => exact null_congr fun d hd => flow_congr hS (fun d hd => matVec_one hn f ((hes d).2 hd)) hd
  | cons hS F Fs ih =>
    rw [chainMatrix_cons, matVec_matMul, ih (fun d => (hes d).trans (F.dart_iff hS.bordered Fs.closed.1.bordered d).symm),
      F.null_iff hS Fs.closed.1 hn hes]

theorem Flips.cyc_iff {fs : List (FlipRec L)} (F : Flips valid S fs U) {es : List (L × ℕ)} (hn : es.Nodup)
    (hes : ∀ d, d ∈ es ↔ S.IsDart valid d) (f : L × ℕ → R) : U.Cyc valid es (matVec es (chainMatrix es fs) f) ↔ S.Cyc valid es f := by
  induction F generalizing f with
  | nil hS => exact cyc_congr hS hn hes fun d hd => flow_congr hS (fun d hd => matVec_one hn f ((hes d).2 hd)) hd
  | cons hS F Fs ih =>
    rw [chainMatrix_cons, matVec_matMul, ih (fun d => (hes d).trans (F.dart_iff hS.bordered Fs.closed.1.bordered d).symm),
      F.cyc_iff hS Fs.closed.1 hn hes]

theorem Flips.surj {fs : List (FlipRec L)} (F : Flips valid S fs U) {es : List (L × ℕ)} (hn : es.Nodup)
    (hes : ∀ d, d ∈ es ↔ S.IsDart valid d) (g : L × ℕ → R) : ∃ f, U.Null valid (g - matVec es (chainMatrix es fs) f) := by
  induction F generalizing g with
  | nil hS =>
    refine ⟨g, 0, fun d hd => ?_⟩
    rw [flow_congr hS (g := 0) (fun d hd => by rw [Pi.sub_apply, matVec_one hn g ((hes d).2 hd), sub_self]; rfl) hd]
    simp [flow]
  | cons hS F Fs ih =>
    have hes' := fun d => (hes d).trans (F.dart_iff hS.bordered Fs.closed.1.bordered d).symm
    obtain ⟨f1, h1⟩ := ih hes' g
    obtain ⟨f, h2⟩ := F.surj hS Fs.closed.1 hn hes f1
    refine ⟨f, ?_⟩
    have h3 := (Fs.null_iff hn hes' _).2 h2
    rw [chainMatrix_cons, matVec_matMul]
    have := null_add h1 h3
    rw [matVec_sub] at this
    have e : ∀ a b c : L × ℕ → R, a - b + (b - c) = a - c := fun a b c => by abel
    rwa [e] at this

/-- No edge is glued to itself. -/
def NoFold (S : RSurf L K) (valid : L → Prop) : Prop := ∀ d, S.IsDart valid d → S.oppF d ≠ d

theorem Flip.noFold (F : Flip S T valid l0 d0 l1 d1) (hS : S.Closed valid) (hT : T.Closed valid) (h : S.NoFold valid) : T.NoFold valid := by
  intro d hd ho
  have hdS := (F.dart_iff hS.bordered hT.bordered d).1 hd
  by_cases ha : d = (l0, d0)
  · subst ha
    have : T.oppF (l0, d0) = (l1, d1) := oppF_eq F.t0
    rw [this, Prod.mk.injEq] at ho
    exact F.ne ho.1.symm
  by_cases hb : d = (l1, d1)
  · subst hb
    have : T.oppF (l1, d1) = (l0, d0) := oppF_eq F.t1
    rw [this, Prod.mk.injEq] at ho
    exact F.ne ho.1
  have := (F.opp_old hS hT hdS ha hb).2.2
  rw [ho] at this
  exact h _ (F.retri.maps d hd (by simp [ha, hb])).1 this.symm

theorem Flips.noFold {fs : List (FlipRec L)} (F : Flips valid S fs U) (h : S.NoFold valid) : U.NoFold valid := by
  induction F with
  | nil _ => exact h
  | cons hS F Fs ih => exact ih (F.noFold hS Fs.closed.1 h)

/-- Each chain of edges can be written with one edge of each pair of glued edges. -/
theorem exists_reduce (hS : S.Closed valid) {sx : List (L × ℕ)} (hsx : ∀ d, S.IsDart valid d → d ∈ sx ∨ S.oppF d ∈ sx)
    (hsx2 : ∀ d ∈ sx, S.oppF d ∈ sx → S.oppF d = d) (hfold : S.NoFold valid) (f : L × ℕ → R) :
    ∃ g : L × ℕ → R, (∀ d, d ∉ sx → g d = 0) ∧ ∀ d, S.IsDart valid d → S.flow g d = S.flow f d := by
  refine ⟨fun d => if d ∈ sx then f d - f (S.oppF d) else 0, fun d hd => if_neg hd, ?_⟩
  intro d hd
  unfold flow
  dsimp only
  rw [hS.oppF_oppF hd]
  rcases hsx d hd with h | h
  · rw [if_pos h, if_neg (fun h' => hfold d hd (hsx2 d h h')), sub_zero]
  · have h' : d ∉ sx := fun h' => hfold d hd (hsx2 d h' h)
    rw [if_neg h', if_pos h]
    ring

/-- The image of homology under flips. -/
theorem Flips.homology [DecidableEq R] {fs : List (FlipRec L)} (F : Flips valid S fs U) (hfold : S.NoFold valid) {ls lu : List L}
    (hn : ls.Nodup) (hls : ∀ l, l ∈ ls ↔ valid l) (hn' : lu.Nodup) (hlu : ∀ l, l ∈ lu ↔ valid l) {gens sx su : List (L × ℕ)}
    (hg : S.edges ls = .ok gens) (hsx : S.simplices1 ls = .ok sx) (hsu : U.simplices1 lu = .ok su) {fuel : ℕ} (hf : gens.length + 1 < fuel) :
    ∃ Φ : (L × ℕ → R) →ₗ[R] (L × ℕ → R),
      (∀ f, U.imageOfChain su gens (chainMatrix gens fs) (items sx f) = .ok (Φ f)) ∧ (∀ f d, d ∉ su → Φ f d = 0) ∧
      (∀ f, (∀ d, d ∉ sx → f d = 0) → (U.boundary1 fuel ∅ (items su (Φ f)) = .ok 0 ↔ S.boundary1 fuel ∅ (items sx f) = .ok 0)) ∧
      (∀ f, (∀ d, d ∉ sx → f d = 0) → ((∃ chain : List (L × R), (∀ x ∈ chain, x.1 ∈ lu) ∧ U.boundary2 su chain = .ok (Φ f)) ↔
        ∃ chain : List (L × R), (∀ x ∈ chain, x.1 ∈ ls) ∧ S.boundary2 sx chain = .ok f)) ∧
      ∀ g, (∀ d, d ∉ su → g d = 0) → U.boundary1 fuel ∅ (items su g) = .ok 0 →
        ∃ f, (∀ d, d ∉ sx → f d = 0) ∧ S.boundary1 fuel ∅ (items sx f) = .ok 0 ∧
          ∃ chain : List (L × R), (∀ x ∈ chain, x.1 ∈ lu) ∧ U.boundary2 su chain = .ok (g - Φ f) := by
  obtain ⟨hS, hU⟩ := F.closed
  have hfoldU := F.noFold hfold
  obtain ⟨es', he', hnd, hmem⟩ := edges_spec hS.bordered ls hn (fun l hl => (hls l).1 hl)
  rw [hg] at he'; injection he' with he'; subst he'
  obtain ⟨sx', k1, p2, p3, p4, p5⟩ := simplices1_spec hS hn hls
  rw [hsx] at k1; injection k1 with k1; subst k1
  obtain ⟨su', k1, q2, q3, q4, q5⟩ := simplices1_spec hU hn' hlu
  rw [hsu] at k1; injection k1 with k1; subst k1
  have hes : ∀ d, d ∈ gens ↔ S.IsDart valid d := fun d => (hmem d).trans ⟨fun h => h.2, fun h => ⟨(hls _).2 h.1, h⟩⟩
  have hesU : ∀ d, d ∈ gens ↔ U.IsDart valid d := fun d => (hes d).trans (F.dart_iff d).symm
  obtain ⟨Φ, r1, r2, r3⟩ := imageOfChain_spec (R := R) hU hnd hesU p2 (fun d hd => (F.dart_iff d).2 (p3 d hd)) q4 (chainMatrix gens fs)
  refine ⟨Φ, r1, r2, ?_, ?_, ?_⟩
  · intro f hf0
    rw [boundary1_iff hU hnd hesU q2 q3 hf (r2 f), boundary1_iff hS hnd hes p2 p3 hf hf0, cyc_congr hU hnd hesU (r3 f hf0), F.cyc_iff hnd hes]
  · intro f hf0
    rw [boundary2_iff hU hn' hlu q3 q4 q5 hfoldU (r2 f), boundary2_iff hS hn hls p3 p4 p5 hfold hf0, null_congr (r3 f hf0), F.null_iff hnd hes]
  · intro g hg0 hgc
    obtain ⟨f1, h1⟩ := F.surj hnd hes g
    obtain ⟨f, hf0, hfl⟩ := exists_reduce hS p4 p5 hfold f1
    have h2 : S.Null valid (f1 - f) := ⟨0, fun d hd => by
      have := hfl d hd
      simp only [flow, Pi.sub_apply, Pi.zero_apply] at this ⊢
      linear_combination -this⟩
    have h3 := null_add h1 ((F.null_iff hnd hes _).2 h2)
    rw [matVec_sub] at h3
    have e : ∀ a b c : L × ℕ → R, a - b + (b - c) = a - c := fun a b c => by abel
    rw [e] at h3
    have h4 : U.Null valid (g - Φ f) := by
      refine (null_congr fun d hd => ?_).1 h3
      have := r3 f hf0 d hd
      simp only [flow, Pi.sub_apply] at this ⊢
      linear_combination this
    have hs0 : ∀ d, d ∉ su → (g - Φ f) d = 0 := fun d hd => by rw [Pi.sub_apply, hg0 d hd, r2 f d hd, sub_zero]
    refine ⟨f, hf0, ?_, (boundary2_iff hU hn' hlu q3 q4 q5 hfoldU hs0).2 h4⟩
    rw [boundary1_iff hS hnd hes p2 p3 hf hf0, ← F.cyc_iff hnd hes, ← cyc_congr hU hnd hesU (r3 f hf0)]
    have hc := (boundary1_iff hU hnd hesU q2 q3 hf hg0).1 hgc
    have hc' := h4.cyc hU hnd hesU
    intro φ hφ
    have a1 := hc φ hφ
    have a2 := hc' φ hφ
    simp only [Pi.sub_apply, sub_mul] at a2
    rw [list_sum_sub, a1, zero_sub, neg_eq_zero] at a2
    exact a2

/-- Four flips of a diagonal give back the same gluings. -/
theorem four_opp {T1 T2 T3 : RSurf L K} (F1 : Flip S T1 valid l0 d0 l1 d1) (F2 : Flip T1 T2 valid l0 d0 l1 d1)
    (F3 : Flip T2 T3 valid l0 d0 l1 d1) (F4 : Flip T3 U valid l0 d0 l1 d1) (hS : S.Closed valid) (h1 : T1.Closed valid) (h2 : T2.Closed valid)
    (h3 : T3.Closed valid) (hU : U.Closed valid) {d : L × ℕ} (hd : U.IsDart valid d) : U.oppF d = S.oppF d := by
  have hd3 := (F4.dart_iff h3.bordered hU.bordered d).1 hd
  have hd2 := (F3.dart_iff h2.bordered h3.bordered d).1 hd3
  have hd1 := (F2.dart_iff h1.bordered h2.bordered d).1 hd2
  have hdS := (F1.dart_iff hS.bordered h1.bordered d).1 hd1
  by_cases ha : d = (l0, d0)
  · subst ha; exact (oppF_eq F4.t0).trans (oppF_eq (d := (l0, d0)) F1.s0).symm
  by_cases hb : d = (l1, d1)
  · subst hb; exact (oppF_eq F4.t1).trans (oppF_eq (d := (l1, d1)) F1.s1).symm
  have mp : ∀ {A B : RSurf L K} (_ : Flip A B valid l0 d0 l1 d1) {y}, B.IsDart valid y → y ≠ (l0, d0) → y ≠ (l1, d1) →
      A.IsDart valid (flipOld l0 d0 l1 d1 y) ∧ flipOld l0 d0 l1 d1 y ≠ (l0, d0) ∧ flipOld l0 d0 l1 d1 y ≠ (l1, d1) := by
    intro A B F y hy hya hyb
    obtain ⟨m1, m2⟩ := F.retri.maps y hy (by simp [hya, hyb])
    simp only [Finset.mem_insert, Finset.mem_singleton, not_or] at m2
    exact ⟨m1, m2.1, m2.2⟩
  -- the map of the edges has order four
  have hfour : ∀ y, S.IsDart valid y → y ≠ (l0, d0) → y ≠ (l1, d1) →
      flipOld l0 d0 l1 d1 (flipOld l0 d0 l1 d1 (flipOld l0 d0 l1 d1 (flipOld l0 d0 l1 d1 y))) = y := by
    intro y hy hya hyb
    obtain ⟨o1, o2, o3, o4, o5⟩ := F1.old_six
    rcases F1.dart_cases hS.bordered hy with ⟨h0, h1⟩ | h | h | h | h | h | h
    · rw [o5 y h0 h1, o5 y h0 h1, o5 y h0 h1, o5 y h0 h1]
    · exact absurd h hya
    · rw [h, o1, o2, o3, o4]
    · rw [h, o2, o3, o4, o1]
    · exact absurd h hyb
    · rw [h, o3, o4, o1, o2]
    · rw [h, o4, o1, o2, o3]
  obtain ⟨x1, x2, x3⟩ := F4.opp_old h3 hU hd3 ha hb
  obtain ⟨m1, m2, m3⟩ := mp F4 hd ha hb
  obtain ⟨y1, y2, y3⟩ := F3.opp_old h2 h3 ((F3.dart_iff h2.bordered h3.bordered _).1 m1) m2 m3
  obtain ⟨n1, n2, n3⟩ := mp F3 m1 m2 m3
  obtain ⟨z1, z2, z3⟩ := F2.opp_old h1 h2 ((F2.dart_iff h1.bordered h2.bordered _).1 n1) n2 n3
  obtain ⟨k1, k2, k3⟩ := mp F2 n1 n2 n3
  obtain ⟨w1, w2, w3⟩ := F1.opp_old hS h1 ((F1.dart_iff hS.bordered h1.bordered _).1 k1) k2 k3
  rw [hfour d hdS ha hb] at w3
  rw [← w3, ← z3, ← y3, ← x3, hfour _ _ x1 x2]
  have := hU.oppF_dart hd
  exact (F1.dart_iff hS.bordered h1.bordered _).1 ((F2.dart_iff h1.bordered h2.bordered _).1
    ((F3.dart_iff h2.bordered h3.bordered _).1 ((F4.dart_iff h3.bordered hU.bordered _).1 this)))

theorem Flips.sides_eq {fs : List (FlipRec L)} (F : Flips valid S fs U) (l : L) : U.sides l = S.sides l := by
  induction F with
  | nil _ => rfl
  | cons _ F _ ih => rw [ih, F.sides]

theorem edges_congr (hS : S.Closed valid) (hU : U.Closed valid) (hs : ∀ l, U.sides l = S.sides l) {ls : List L} (hls : ∀ l ∈ ls, valid l) :
    U.edges ls = S.edges ls := by
  have : ∀ l ∈ ls, U.edgesAt l = S.edgesAt l := by
    intro l hl
    obtain ⟨p, hp, -⟩ := hS.poly l (hls l hl)
    obtain ⟨q, hq, -⟩ := hU.poly l (hls l hl)
    have := hs l
    rw [RSurf.sides_eq hp, RSurf.sides_eq hq] at this
    rw [edgesAt_ok hp, edgesAt_ok hq, this]
  have h2 : ls.mapM U.edgesAt = ls.mapM S.edgesAt := by
    clear hls
    induction ls with
    | nil => rfl
    | cons l ls ih =>
      rw [List.mapM_cons, List.mapM_cons, this l List.mem_cons_self, ih (fun l hl => this l (List.mem_cons_of_mem _ hl))]
  unfold edges
  rw [h2]

theorem pickEdges_congr (hS : S.Closed valid) (hU : U.Closed valid) (ho : ∀ d, U.IsDart valid d → U.oppF d = S.oppF d)
    (hd : ∀ d, U.IsDart valid d ↔ S.IsDart valid d) (ds : List (L × ℕ)) (hds : ∀ d ∈ ds, S.IsDart valid d) (acc : List (L × ℕ)) :
    U.pickEdges acc ds = S.pickEdges acc ds := by
  induction ds generalizing acc with
  | nil => rfl
  | cons d ds ih =>
    have h1 := hds d List.mem_cons_self
    have ih' := fun acc => ih (fun d hd => hds d (List.mem_cons_of_mem _ hd)) acc
    simp only [pickEdges, hS.opp_oppF h1, hU.opp_oppF ((hd d).2 h1), ho d ((hd d).2 h1), bind, Except.bind, ih']

theorem Flips.four {fs : List (FlipRec L)} (F : Flips valid S fs U) {d : L × ℕ} (hds : fs.map (fun r => r.1) = [d, d, d, d])
    {gens : List (L × ℕ)} (hnd : gens.Nodup) (hes : ∀ d, d ∈ gens ↔ S.IsDart valid d) :
    (∀ d, U.IsDart valid d → U.oppF d = S.oppF d) ∧ ∀ f : L × ℕ → R, S.Null valid (matVec gens (chainMatrix gens fs) f - f) := by
  cases F with
  | nil => simp at hds
  | cons hS1 F1 Fs =>
  cases Fs with
  | nil => simp at hds
  | cons hS2 F2 Fs =>
  cases Fs with
  | nil => simp at hds
  | cons hS3 F3 Fs =>
  cases Fs with
  | nil => simp at hds
  | cons hS4 F4 Fs =>
  cases Fs with
  | cons => simp at hds
  | nil hU =>
  have hS := hS1
  simp only [List.map_cons, List.map_nil, List.cons.injEq, and_true] at hds
  obtain ⟨e1, e2, e3, e4⟩ := hds
  subst e1
  simp only [Prod.mk.injEq] at e2 e3 e4
  obtain ⟨rfl, rfl⟩ := e2
  obtain ⟨rfl, rfl⟩ := e3
  obtain ⟨rfl, rfl⟩ := e4
  have r2 := F1.t0.symm.trans F2.s0
  injection r2 with r2; injection r2 with r2; rw [Prod.mk.injEq] at r2; obtain ⟨rfl, rfl⟩ := r2
  have r3 := F2.t0.symm.trans F3.s0
  injection r3 with r3; injection r3 with r3; rw [Prod.mk.injEq] at r3; obtain ⟨rfl, rfl⟩ := r3
  have r4 := F3.t0.symm.trans F4.s0
  injection r4 with r4; injection r4 with r4; rw [Prod.mk.injEq] at r4; obtain ⟨rfl, rfl⟩ := r4
  refine ⟨fun d hd => four_opp F1 F2 F3 F4 hS hS2 hS3 hS4 hU hd, fun f => ?_⟩
  have h4 := F1.four hS hnd hes f
  refine (null_congr fun x hx => flow_congr hS (fun x hx => ?_) hx).1 h4
  rw [Pi.sub_apply, Pi.sub_apply, chainMatrix_cons, chainMatrix_cons, chainMatrix_cons, chainMatrix_cons,
    matVec_matMul, matVec_matMul, matVec_matMul, matVec_matMul, matVec_one hnd _ ((hes x).2 hx)]

end

end RSurf

namespace MSurf
open RSurf (ofMSurf exTorus_polygon)
variable {L K : Type} [LinearOrder L] [LabelNum L] [Field K] [LinearOrder K] [IsStrictOrderedRing K] {R : Type} [CommRing R]

omit [LabelNum L] in
theorem isEdge_of_dart [LabelNum L] {s : MSurf L (Poly K)} {d : L × ℕ} (hd : (ofMSurf s).IsDart (fun l => ∃ p, s.polygon l = .ok p) d) :
    ∃ p, s.polygon d.1 = .ok p ∧ d.2 < p.length := by
  obtain ⟨-, p, hp, he⟩ := hd
  exact ⟨p, hp, he⟩

/-- Flips of a closed surface without edges glued to themselves. -/
theorem flips_of_record [LabelNum L] : ∀ (ds : List (L × ℕ)) {s t : MSurf L (Poly K)} {fs : List (FlipRec L)} (_ : Reachable s) (_ : s.mutable = true)
    (_ : ∀ l p, s.polygon l = .ok p → p.Valid) (_ : (ofMSurf s).Closed (fun l => ∃ p, s.polygon l = .ok p))
    (_ : (ofMSurf s).NoFold (fun l => ∃ p, s.polygon l = .ok p)) (_ : recordFlips ds s = .ok fs t),
    RSurf.Flips (fun l => ∃ p, s.polygon l = .ok p) (ofMSurf s) fs (ofMSurf t) ∧
      (∀ l, (∃ p, t.polygon l = .ok p) ↔ ∃ p, s.polygon l = .ok p) ∧ fs.map (fun r => r.1) = ds
  | [], s, t, fs, h, hm, hv, hS, hf, hr => by
    simp only [recordFlips] at hr
    injection hr with h1 h2
    subst h1 h2
    exact ⟨.nil hS, fun _ => Iff.rfl, rfl⟩
  | (l0, d0) :: ds, s, t, fs, h, hm, hv, hS, hf, hr => by
    cases hc : s.oppositeEdge! l0 d0 with
    | error x => simp only [recordFlips, bind, EStateM.bind, get, getThe, MonadStateOf.get, EStateM.get, liftE, hc, throw, throwThe, MonadExceptOf.throw,
        EStateM.throw] at hr; cases hr
    | ok c =>
    cases htf : triangleFlip l0 d0 s with
    | error x s1 => simp only [recordFlips, bind, EStateM.bind, get, getThe, MonadStateOf.get, EStateM.get, liftE, hc, pure, EStateM.pure, htf] at hr; cases hr
    | ok u s1 =>
    cases hrec : recordFlips ds s1 with
    | error x s2 => simp only [recordFlips, bind, EStateM.bind, get, getThe, MonadStateOf.get, EStateM.get, liftE, hc, pure, EStateM.pure, htf, hrec] at hr; cases hr
    | ok fs' s2 =>
    simp only [recordFlips, bind, EStateM.bind, get, getThe, MonadStateOf.get, EStateM.get, liftE, hc, pure, EStateM.pure, htf, hrec] at hr
    injection hr with h1 h2
    subst h1 h2
    obtain ⟨l1, d1, old, hold, hself, hd0, hd1, n0, n1, hsides, hlab, ho1, ho2, to1, to2, hR⟩ := retri_triangleFlip h hm htf
    have hc' : c = (l1, (d1 : Int)) := by
      rw [oppositeEdge!_ok, ho1] at hc
      injection hc with hc
      injection hc with hc
      exact hc.symm
    subst hc' hold
    have hk := keeps_triangleFlip (⟨h.ginv, hm, h.rootsOK⟩ : Good s) l0 d0
    unfold Keeps wp at hk
    rw [htf] at hk
    have h1r : Reachable s1 := by
      have := Reachable.step s (.triangleFlip l0 d0) h hm trivial (fun _ _ _ h => by cases h)
      have e : stateOf ((Op.triangleFlip l0 d0).run s) = s1 := by
        show stateOf (triangleFlip l0 d0 s) = s1
        rw [htf]; rfl
      rwa [e] at this
    have hv1 := valid_after h.ginv hk.1 (pres_triangleFlip l0 d0) htf hv
    have hfun : (fun l => ∃ p, s1.polygon l = .ok p) = fun l => ∃ p, s.polygon l = .ok p := by
      funext l; exact propext (hlab l)
    have u0 : (ofMSurf s).opp l0 d0 = .ok (some (l1, d1)) := RSurf.ofMSurf_opp (c := some (l1, d1)) ho1
    have u1 : (ofMSurf s).opp l1 d1 = .ok (some (l0, d0)) := RSurf.ofMSurf_opp (c := some (l0, d0)) ho2
    have v0 : (ofMSurf s1).opp l0 d0 = .ok (some (l1, d1)) := RSurf.ofMSurf_opp (c := some (l1, d1)) to1
    have v1 : (ofMSurf s1).opp l1 d1 = .ok (some (l0, d0)) := RSurf.ofMSurf_opp (c := some (l0, d0)) to2
    have dd0 : (ofMSurf s).IsDart (fun l => ∃ p, s.polygon l = .ok p) (l0, d0) := hR.dS.dart _ (by simp)
    have dd1 : (ofMSurf s).IsDart (fun l => ∃ p, s.polygon l = .ok p) (l1, d1) := hR.dS.dart _ (by simp)
    have hne : l0 ≠ l1 := by
      intro e
      have e' := hself e
      subst e e'
      exact hf _ dd0 (RSurf.oppF_eq u0)
    have hT : (ofMSurf s1).Closed (fun l => ∃ p, s1.polygon l = .ok p) := by
      refine RSurf.closed_ofMSurf hk.1 hv1 ?_
      intro l p e hp he hno
      have hno' : (ofMSurf s1).opp l e = .ok none := RSurf.ofMSurf_opp (c := none) hno
      have hd : (ofMSurf s1).IsDart (fun l => ∃ p, s1.polygon l = .ok p) (l, e) := ⟨⟨p, hp⟩, p, hp, he⟩
      by_cases hX : (l, e) ∈ ({(l0, d0), (l1, d1)} : Finset (L × ℕ))
      · simp only [Finset.mem_insert, Finset.mem_singleton, Prod.mk.injEq] at hX
        rcases hX with ⟨rfl, rfl⟩ | ⟨rfl, rfl⟩
        · rw [v0] at hno'; cases hno'
        · rw [v1] at hno'; cases hno'
      · obtain ⟨c, h1, h2⟩ := hR.opp _ hd hX
        rw [hno'] at h1
        injection h1 with h1
        subst h1
        rw [hS.opp_oppF (hR.maps _ hd hX).1] at h2
        cases h2
    rw [hfun] at hT hR
    have F : RSurf.Flip (ofMSurf s) (ofMSurf s1) (fun l => ∃ p, s.polygon l = .ok p) l0 d0 l1 d1 :=
      ⟨hne, hd0, hd1, n0, n1, hsides, dd0.1, dd1.1, u0, u1, v0, v1, hR⟩
    have hf1 := F.noFold hS hT hf
    obtain ⟨Fs, hlab', hds⟩ := flips_of_record ds h1r hk.2.1 hv1 (by rw [hfun]; exact hT) (by rw [hfun]; exact hf1) hrec
    rw [hfun] at Fs
    refine ⟨.cons hS F Fs, fun l => (hlab' l).trans (hlab l), ?_⟩
    rw [List.map_cons, hds]

theorem noFold_of_glued {s : MSurf L (Poly K)} (h : Reachable s) (hS : (ofMSurf s).Closed (fun l => ∃ p, s.polygon l = .ok p))
    (hglued : ∀ l p (e : ℕ), s.polygon l = .ok p → e < p.length → s.oppositeEdge l e ≠ .ok none ∧ s.oppositeEdge l e ≠ .ok (some (l, (e : Int)))) :
    (ofMSurf s).NoFold (fun l => ∃ p, s.polygon l = .ok p) := by
  rintro ⟨l, e⟩ hd ho
  obtain ⟨p, hp, he⟩ := isEdge_of_dart hd
  have hE : s.IsEdge l e := ⟨p, polygon_ok.1 hp, he⟩
  have h1 := hS.opp_oppF hd
  rw [ho] at h1
  cases hc : s.oppositeEdge l e with
  | error x => rw [oppositeEdge_eq_opp h.ginv.toShape hE] at hc; cases hc
  | ok c =>
    cases c with
    | none => exact (hglued l p e hp he).1 hc
    | some c =>
      obtain ⟨k, hk, -⟩ := oppositeEdge_some h.ginv hc
      obtain ⟨c1, c2⟩ := c
      dsimp only at hk
      subst hk
      rw [RSurf.ofMSurf_opp (c := some (c1, k)) hc] at h1
      injection h1 with h1
      injection h1 with h1
      rw [Prod.mk.injEq] at h1
      obtain ⟨rfl, rfl⟩ := h1
      exact (hglued _ p _ hp he).2 hc

/-- **C54.** Transporting chains of edges along flips with the matrix of the flips is linear, maps exactly the cycles to cycles, exactly the boundaries of
polygons to boundaries of polygons, and reaches each cycle up to a boundary.  So it is an isomorphism on homology. -/
theorem C54_homology_isomorphism [DecidableEq R] {s t : MSurf L (Poly K)} (h : Reachable s) (hm : s.mutable = true)
    (hv : ∀ l p, s.polygon l = .ok p → p.Valid)
    (hglued : ∀ l p (e : ℕ), s.polygon l = .ok p → e < p.length → s.oppositeEdge l e ≠ .ok none ∧ s.oppositeEdge l e ≠ .ok (some (l, (e : Int))))
    {ds : List (L × ℕ)} {flips : List (FlipRec L)} (hr : recordFlips ds s = .ok flips t)
    {ls lt : List L} (hn : ls.Nodup) (hls : ∀ l, l ∈ ls ↔ ∃ p, s.polygon l = .ok p) (hn' : lt.Nodup) (hlt : ∀ l, l ∈ lt ↔ ∃ p, t.polygon l = .ok p) :
    ∃ (gens sx st : List (L × ℕ)) (N : ℕ) (Φ : (L × ℕ → R) →ₗ[R] (L × ℕ → R)),
      (ofMSurf s).edges ls = .ok gens ∧ (ofMSurf s).simplices1 ls = .ok sx ∧ (ofMSurf t).simplices1 lt = .ok st ∧
      (∀ f, (ofMSurf t).imageOfChain st gens (chainMatrix gens flips) (RSurf.items sx f) = .ok (Φ f)) ∧
      ∀ fuel, N ≤ fuel →
      (∀ f, (∀ d, d ∉ sx → f d = 0) →
        ((ofMSurf t).boundary1 fuel ∅ (RSurf.items st (Φ f)) = .ok 0 ↔ (ofMSurf s).boundary1 fuel ∅ (RSurf.items sx f) = .ok 0)) ∧
      (∀ f, (∀ d, d ∉ sx → f d = 0) → ((∃ chain : List (L × R), (∀ x ∈ chain, x.1 ∈ lt) ∧ (ofMSurf t).boundary2 st chain = .ok (Φ f)) ↔
        ∃ chain : List (L × R), (∀ x ∈ chain, x.1 ∈ ls) ∧ (ofMSurf s).boundary2 sx chain = .ok f)) ∧
      ∀ g, (∀ d, d ∉ st → g d = 0) → (ofMSurf t).boundary1 fuel ∅ (RSurf.items st g) = .ok 0 →
        ∃ f, (∀ d, d ∉ sx → f d = 0) ∧ (ofMSurf s).boundary1 fuel ∅ (RSurf.items sx f) = .ok 0 ∧
          ∃ chain : List (L × R), (∀ x ∈ chain, x.1 ∈ lt) ∧ (ofMSurf t).boundary2 st chain = .ok (g - Φ f) := by
  have hS := RSurf.closed_ofMSurf h.ginv hv (fun l p e hp he => (hglued l p e hp he).1)
  have hf := noFold_of_glued h hS hglued
  obtain ⟨F, hlab, -⟩ := flips_of_record ds h hm hv hS hf hr
  obtain ⟨gens, hg, -⟩ := RSurf.edges_spec hS.bordered ls hn (fun l hl => (hls l).1 hl)
  obtain ⟨sx, hsx, -⟩ := RSurf.simplices1_spec hS hn hls
  have hlt' : ∀ l, l ∈ lt ↔ ∃ p, s.polygon l = .ok p := fun l => (hlt l).trans (hlab l)
  obtain ⟨st, hst, -⟩ := RSurf.simplices1_spec F.closed.2 hn' hlt'
  obtain ⟨Φ, r1, -⟩ := F.homology (R := R) hf hn hls hn' hlt' hg hsx hst (fuel := gens.length + 2) (by omega)
  refine ⟨gens, sx, st, gens.length + 2, Φ, hg, hsx, hst, r1, fun fuel hfuel => ?_⟩
  obtain ⟨Ψ, r1', -, r3, r4, r5⟩ := F.homology (R := R) hf hn hls hn' hlt' hg hsx hst (fuel := fuel) (by omega)
  have : Ψ = Φ := by
    apply LinearMap.ext
    intro f
    have := (r1' f).symm.trans (r1 f)
    injection this
  rw [← this]
  exact ⟨r3, r4, r5⟩

/-- **C54.** Three more flips of the same edge are the reverse of a flip: after four flips of an edge the gluings are as before, and a chain differs
from its image by the boundary of polygons. -/
theorem C54_four_flips [DecidableEq R] {s t : MSurf L (Poly K)} (h : Reachable s) (hm : s.mutable = true)
    (hv : ∀ l p, s.polygon l = .ok p → p.Valid)
    (hglued : ∀ l p (e : ℕ), s.polygon l = .ok p → e < p.length → s.oppositeEdge l e ≠ .ok none ∧ s.oppositeEdge l e ≠ .ok (some (l, (e : Int))))
    {d : L × ℕ} {flips : List (FlipRec L)} (hr : recordFlips [d, d, d, d] s = .ok flips t)
    {ls : List L} (hn : ls.Nodup) (hls : ∀ l, l ∈ ls ↔ ∃ p, s.polygon l = .ok p) :
    (∀ l p (e : ℕ), s.polygon l = .ok p → e < p.length → (ofMSurf t).opp l e = (ofMSurf s).opp l e) ∧
    ∃ gens sx : List (L × ℕ), (ofMSurf s).edges ls = .ok gens ∧ (ofMSurf s).simplices1 ls = .ok sx ∧ (ofMSurf t).simplices1 ls = .ok sx ∧
      ∀ f : L × ℕ → R, (∀ d, d ∉ sx → f d = 0) → ∃ (g : L × ℕ → R) (chain : List (L × R)),
        (ofMSurf t).imageOfChain sx gens (chainMatrix gens flips) (RSurf.items sx f) = .ok g ∧
        (∀ x ∈ chain, x.1 ∈ ls) ∧ (ofMSurf t).boundary2 sx chain = .ok (g - f) := by
  have hS := RSurf.closed_ofMSurf h.ginv hv (fun l p e hp he => (hglued l p e hp he).1)
  have hf := noFold_of_glued h hS hglued
  obtain ⟨F, hlab, hds⟩ := flips_of_record [d, d, d, d] h hm hv hS hf hr
  obtain ⟨gens, hg, hnd, hmem⟩ := RSurf.edges_spec hS.bordered ls hn (fun l hl => (hls l).1 hl)
  have hes : ∀ d, d ∈ gens ↔ (ofMSurf s).IsDart (fun l => ∃ p, s.polygon l = .ok p) d := fun d =>
    (hmem d).trans ⟨fun h => h.2, fun h => ⟨(hls _).2 h.1, h⟩⟩
  obtain ⟨sx, hsx, p2, p3, p4, p5⟩ := RSurf.simplices1_spec hS hn hls
  have hdart := F.dart_iff
  have hsides := F.sides_eq
  have hU := F.closed.2
  have hfU := F.noFold hf
  obtain ⟨hopp, hnull⟩ := F.four (R := R) hds hnd hes
  have hsxt : (ofMSurf t).simplices1 ls = .ok sx := by
    rw [← hsx]
    unfold RSurf.simplices1
    rw [RSurf.edges_congr hS hU hsides (fun l hl => (hls l).1 hl), hg]
    exact RSurf.pickEdges_congr hS hU hopp hdart gens (fun d hd => (hes d).1 hd) []
  refine ⟨?_, gens, sx, hg, hsx, hsxt, ?_⟩
  · intro l p e hp he
    have hd : (ofMSurf s).IsDart (fun l => ∃ p, s.polygon l = .ok p) (l, e) := ⟨⟨p, hp⟩, p, hp, he⟩
    have h1 := hS.opp_oppF hd
    have h2 := hU.opp_oppF ((hdart _).2 hd)
    rw [hopp _ ((hdart _).2 hd)] at h2
    exact h2.trans h1.symm
  · intro f hf0
    obtain ⟨sx', k1, q2, q3, q4, q5⟩ := RSurf.simplices1_spec hU hn hls
    rw [hsxt] at k1; injection k1 with k1; subst k1
    obtain ⟨Φ, r1, r2, r3⟩ := RSurf.imageOfChain_spec (R := R) hU hnd (fun d => (hes d).trans (hdart d).symm) p2
      (fun d hd => (hdart d).2 (p3 d hd)) q4 (chainMatrix gens flips)
    have hN : (ofMSurf t).Null (fun l => ∃ p, s.polygon l = .ok p) (Φ f - f) := by
      obtain ⟨w, hw⟩ := hnull f
      refine ⟨w, fun x hx => ?_⟩
      have a1 := r3 f hf0 x hx
      have a2 := hw x ((hdart x).1 hx)
      simp only [RSurf.flow, Pi.sub_apply] at a1 a2 ⊢
      rw [hopp x hx] at a1 ⊢
      linear_combination a1 + a2
    obtain ⟨chain, c1, c2⟩ := (RSurf.boundary2_iff hU hn hls q3 q4 q5 hfU
      (fun x hx => by rw [Pi.sub_apply, r2 f x hx, hf0 x hx, sub_zero])).2 hN
    exact ⟨Φ f, chain, r1 f, c1, c2⟩

theorem exTorus_glued (l : ℕ) (p : Poly ℚ) (e : ℕ) (hp : exTorus.polygon l = .ok p) (he : e < p.length) :
    exTorus.oppositeEdge l e ≠ .ok none ∧ exTorus.oppositeEdge l e ≠ .ok (some (l, (e : Int))) := by
  obtain ⟨rfl | rfl, rfl⟩ := exTorus_polygon hp
  · have : e < 3 := he
    interval_cases e <;> decide +kernel
  · have : e < 3 := he
    interval_cases e <;> decide +kernel

/-- The result of a computation that succeeds. -/
theorem exists_of_isOk {α : Type} {s : MSurf ℕ (Poly ℚ)} {m : Act ℕ (Poly ℚ) α} (h : (match m s with | .ok _ _ => true | .error _ _ => false) = true) :
    ∃ a t, m s = .ok a t := by
  cases hm : m s with
  | ok a t => exact ⟨a, t, rfl⟩
  | error x t => rw [hm] at h; cases h

/-- In the torus made from two triangles one can flip different edges in a row, and one edge four times. -/
example : (∃ flips t, recordFlips [(0, 1), (1, 0), (0, 1)] exTorus = .ok flips t ∧ ∀ lt : List ℕ, lt.Nodup → (∀ l, l ∈ lt ↔ ∃ p, t.polygon l = .ok p) →
    ∃ (gens sx st : List (ℕ × ℕ)) (Φ : (ℕ × ℕ → ℤ) →ₗ[ℤ] (ℕ × ℕ → ℤ)),
      ∀ f, (ofMSurf t).imageOfChain st gens (chainMatrix gens flips) (RSurf.items sx f) = .ok (Φ f)) ∧
    ∃ flips t, recordFlips [(0, 1), (0, 1), (0, 1), (0, 1)] exTorus = .ok flips t ∧ (ofMSurf t).opp 0 0 = (ofMSurf exTorus).opp 0 0 := by
  have hv : ∀ l p, exTorus.polygon l = .ok p → p.Valid := fun l p hp => by obtain ⟨_, rfl⟩ := exTorus_polygon hp; exact Poly.valid_triangle (by decide +kernel)
  have hls : ∀ l, l ∈ [0, 1] ↔ ∃ p, exTorus.polygon l = .ok p := fun l => ⟨fun hl => by
        simp only [List.mem_cons, List.not_mem_nil, or_false] at hl
        rcases hl with rfl | rfl <;> exact ⟨tri, by decide +kernel⟩,
      fun ⟨p, hp⟩ => by obtain ⟨rfl | rfl, _⟩ := exTorus_polygon hp <;> simp⟩
  constructor
  · obtain ⟨flips, t, ht⟩ := exists_of_isOk (s := exTorus) (m := recordFlips [(0, 1), (1, 0), (0, 1)]) (by decide +kernel)
    refine ⟨flips, t, ht, fun lt hn hlt => ?_⟩
    obtain ⟨gens, sx, st, -, Φ, -, -, -, h, -⟩ := C54_homology_isomorphism (R := ℤ) exTorus_reachable (by decide +kernel) hv exTorus_glued ht
      (ls := [0, 1]) (by decide) hls hn hlt
    exact ⟨gens, sx, st, Φ, h⟩
  · obtain ⟨flips, t, ht⟩ := exists_of_isOk (s := exTorus) (m := recordFlips [(0, 1), (0, 1), (0, 1), (0, 1)]) (by decide +kernel)
    exact ⟨flips, t, ht, (C54_four_flips (R := ℤ) exTorus_reachable (by decide +kernel) hv exTorus_glued ht (ls := [0, 1]) (by decide) hls).1 0 tri 0
      (by decide +kernel) (by decide)⟩

end MSurf
end Flat
