import Mathlib.Tactic.Linarith
import Mathlib.Tactic.LinearCombination
import Mathlib.Tactic.FieldSimp
import Verif.Model.Categories
import Verif.Props.Euler

/-!
# C48: the checks for the category of a surface look at every gluing
-/

namespace Flat
namespace RSurf
variable {L K : Type} [DecidableEq L] [Field K] [LinearOrder K] [IsStrictOrderedRing K]

/-- The relation holds for the vectors of the edges `d` and `c`. -/
def EdgeRel (S : RSurf L K) (R : Vec K → Vec K → Prop) (d c : L × ℕ) : Prop :=
  ∀ p p', S.polygon d.1 = .ok p → S.polygon c.1 = .ok p' → R (p.edge d.2) (p'.edge c.2)

/-- A test for the matrix of a gluing decides a symmetric relation between the edges. -/
structure Decides (test : Mat2 K → Bool) (R : Vec K → Vec K → Prop) : Prop where
  iff : ∀ u v m, u ≠ 0 → v ≠ 0 → m.IsRotScale → m.mulVec u = -v → (test m = true ↔ R u v)
  symm : ∀ u v, R u v → R v u

section
variable {S : RSurf L K} {valid : L → Prop} {test : Mat2 K → Bool} {R : Vec K → Vec K → Prop}

theorem edgeMatrix_test (hS : S.Bordered valid) (hT : Decides test R) {d c : L × ℕ} (hd : S.IsDart valid d) (h : S.opp d.1 d.2 = .ok (some c)) :
    ∃ m, S.edgeMatrix d.1 d.2 = .ok m ∧ (test m = true ↔ S.EdgeRel R d c) := by
  obtain ⟨⟨hc, p', hp', he'⟩, -⟩ := hS.opp_symm hd h
  obtain ⟨hl, p, hp, he⟩ := hd
  have h1 : p.edge d.2 ≠ 0 := (hS.valid_of_polygon hl hp).edge_ne d.2
  have h2 : p'.edge c.2 ≠ 0 := (hS.valid_of_polygon hc hp').edge_ne c.2
  obtain ⟨m, m1, m2, m3, -⟩ := C03_similarityFromVectors (p.edge d.2) (-p'.edge c.2) h1
  refine ⟨m, ?_, ?_⟩
  · simp only [edgeMatrix, hp, opp!_ok h, hp', bind, Except.bind, MSurf.simFromVectors, m1]
  · rw [hT.iff _ _ m h1 h2 m2 m3]
    constructor
    · intro hR q q' hq hq'
      rw [hp] at hq; rw [hp'] at hq'
      cases hq; cases hq'
      exact hR
    · intro hR
      exact hR p p' hp hp'

/-- What is known about the edges that have been checked. -/
def CheckedOK (S : RSurf L K) (valid : L → Prop) (R : Vec K → Vec K → Prop) (checked : List (L × ℕ)) : Prop :=
  ∀ d ∈ checked, S.IsDart valid d ∧ ∀ c, S.opp d.1 d.2 = .ok (some c) → S.EdgeRel R d c

theorem checkEdges_spec (hS : S.Bordered valid) (hT : Decides test R) {l : L} (es : List ℕ) (hes : ∀ e ∈ es, S.IsDart valid (l, e))
    (checked : List (L × ℕ)) (hch : CheckedOK S valid R checked) : ∃ r, S.checkEdges test l es checked = .ok r ∧
      match r with
      | none => ∃ e ∈ es, ∃ c, S.opp l e = .ok (some c) ∧ ¬ S.EdgeRel R (l, e) c
      | some ch => CheckedOK S valid R ch ∧ ∀ e ∈ es, ∀ c, S.opp l e = .ok (some c) → S.EdgeRel R (l, e) c := by
  induction es generalizing checked with
  | nil => exact ⟨some checked, rfl, hch, by simp⟩
  | cons e es ih =>
    have hd := hes e (by simp)
    have hes' := fun x hx => hes x (List.mem_cons_of_mem _ hx)
    -- the case in which the edge needs no check
    have skip : ∀ ch, CheckedOK S valid R ch → (∀ c, S.opp l e = .ok (some c) → S.EdgeRel R (l, e) c) →
        ∃ r, S.checkEdges test l es ch = .ok r ∧
          match r with
          | none => ∃ e' ∈ e :: es, ∃ c, S.opp l e' = .ok (some c) ∧ ¬ S.EdgeRel R (l, e') c
          | some ch => CheckedOK S valid R ch ∧ ∀ e' ∈ e :: es, ∀ c, S.opp l e' = .ok (some c) → S.EdgeRel R (l, e') c := by
      intro ch hch hrel
      obtain ⟨r, h1, h2⟩ := ih hes' ch hch
      refine ⟨r, h1, ?_⟩
      cases r with
      | none =>
        obtain ⟨e', he', hx⟩ := h2
        exact ⟨e', List.mem_cons_of_mem _ he', hx⟩
      | some ch' =>
        refine ⟨h2.1, fun e' he' => ?_⟩
        rcases List.mem_cons.1 he' with rfl | he'
        · exact hrel
        · exact h2.2 e' he'
    rw [checkEdges]
    rcases hS.opp_ok hd with hn | ⟨c, hc, hcd, hback⟩
    · dsimp only at hn
      rw [hn]
      exact skip checked hch (by rw [hn]; intro c h; cases h)
    · dsimp only at hc
      rw [hc]
      dsimp only
      by_cases hmem : c ∈ checked
      · rw [if_pos hmem]
        refine skip checked hch ?_
        intro c' hc'
        rw [hc] at hc'
        cases hc'
        intro p p' hp hp'
        exact hT.symm _ _ ((hch c hmem).2 (l, e) hback p' p hp' hp)
      · rw [if_neg hmem]
        obtain ⟨m, m1, m2⟩ := edgeMatrix_test hS hT hd hc
        dsimp only at m1
        rw [m1]
        dsimp only
        by_cases ht : test m = true
        · rw [if_pos ht]
          have hrel : ∀ c, S.opp l e = .ok (some c) → S.EdgeRel R (l, e) c := by
            intro c' hc'
            rw [hc] at hc'
            cases hc'
            exact m2.1 ht
          refine skip _ ?_ hrel
          intro d hdm
          rcases List.mem_cons.1 hdm with rfl | hdm
          · exact ⟨hd, hrel⟩
          · exact hch d hdm
        · rw [if_neg ht]
          exact ⟨none, rfl, e, by simp, c, hc, fun h => ht (m2.2 h)⟩

theorem checkLabels_spec (hS : S.Bordered valid) (hT : Decides test R) (ls : List L) (hls : ∀ l ∈ ls, valid l)
    (checked : List (L × ℕ)) (hch : CheckedOK S valid R checked) : ∃ r, S.checkLabels test ls checked = .ok r ∧
      (r = true ↔ ∀ d : L × ℕ, d.1 ∈ ls → S.IsDart valid d → ∀ c, S.opp d.1 d.2 = .ok (some c) → S.EdgeRel R d c) := by
  induction ls generalizing checked with
  | nil => exact ⟨true, rfl, by simp⟩
  | cons l ls ih =>
    obtain ⟨p, hp, hv⟩ := hS.poly l (hls l (by simp))
    have hdart : ∀ e, S.IsDart valid (l, e) ↔ e ∈ List.range p.length := by
      intro e
      rw [List.mem_range]
      constructor
      · rintro ⟨-, q, hq, he⟩
        rw [hp] at hq
        cases hq
        exact he
      · intro he
        exact ⟨hls l (by simp), p, hp, he⟩
    obtain ⟨r, h1, h2⟩ := checkEdges_spec hS hT (List.range p.length) (fun e he => (hdart e).2 he) checked hch
    rw [checkLabels, hp]
    dsimp only
    rw [h1]
    cases r with
    | none =>
      refine ⟨false, rfl, ?_⟩
      obtain ⟨e, he, c, hc, hn⟩ := h2
      simp only [Bool.false_eq_true, false_iff]
      intro hall
      exact hn (hall (l, e) (by simp) ((hdart e).2 he) c hc)
    | some ch =>
      obtain ⟨r, h3, h4⟩ := ih (fun x hx => hls x (List.mem_cons_of_mem _ hx)) ch h2.1
      refine ⟨r, h3, h4.trans ?_⟩
      constructor
      · rintro hall ⟨l', e⟩ hd hdart' c hc
        rcases List.mem_cons.1 hd with h | h
        · dsimp only at h
          subst h
          exact h2.2 e ((hdart e).1 hdart') c hc
        · exact hall _ h hdart' c hc
      · intro hall d hd
        exact hall d (List.mem_cons_of_mem _ hd)

theorem check_spec (hS : S.Bordered valid) (hT : Decides test R) {ls : List L} (hls : ∀ l, l ∈ ls ↔ valid l) :
    ∃ r, S.checkLabels test ls [] = .ok r ∧ (r = true ↔ S.GluedBy valid R) := by
  obtain ⟨r, h1, h2⟩ := checkLabels_spec hS hT ls (fun l h => (hls l).1 h) [] (by intro d hd; cases hd)
  refine ⟨r, h1, h2.trans ?_⟩
  constructor
  · intro h l e l' e' p p' hl hp he ho hp'
    exact h (l, e) ((hls l).2 hl) ⟨hl, p, hp, he⟩ (l', e') ho p p' hp hp'
  · intro h d hd hdart c hc p p' hp hp'
    obtain ⟨hl, q, hq, he⟩ := hdart
    rw [hp] at hq
    cases hq
    exact h d.1 d.2 c.1 c.2 p p' hl hp he hc hp'

end

/-! ## The tests -/

/-- The vectors of edges that are glued by a translation are opposite. -/
def TransRel (u v : Vec K) : Prop := v = -u
/-- Glued by a translation, maybe after a rotation by π. -/
def HalfRel (u v : Vec K) : Prop := v = -u ∨ v = u
/-- Glued by a scaling with positive factor. -/
def PosDilRel (u v : Vec K) : Prop := ∃ c : K, 0 < c ∧ v = -(c • u)
/-- Glued by a scaling. -/
def DilRel (u v : Vec K) : Prop := ∃ c : K, c ≠ 0 ∧ v = c • u
/-- Glued by an isometry: the edges have the same length. -/
def IsoRel (u v : Vec K) : Prop := u.1 ^ 2 + u.2 ^ 2 = v.1 ^ 2 + v.2 ^ 2

theorem diag_iff {u v : Vec K} {m : Mat2 K} (hu : u ≠ 0) (hm : m.IsRotScale) (h : m.mulVec u = -v) : isDiagonal m = true ↔ v = (-m.a) • u := by
  obtain ⟨a, b, c, d⟩ := m
  obtain ⟨u1, u2⟩ := u
  obtain ⟨v1, v2⟩ := v
  obtain ⟨m1, m2⟩ := hm
  dsimp only at m1 m2
  subst m1 m2
  simp only [Mat2.mulVec, Prod.neg_mk, Prod.mk.injEq] at h
  simp only [isDiagonal, decide_eq_true_eq, Prod.smul_mk, Prod.mk.injEq, smul_eq_mul]
  constructor
  · rintro ⟨-, rfl⟩
    exact ⟨by linear_combination h.1, by linear_combination h.2⟩
  · rintro ⟨h1, h2⟩
    have e1 : c * u2 = 0 := by linear_combination h1 - h.1
    have e2 : c * u1 = 0 := by linear_combination h.2 - h2
    have : c = 0 := by
      by_contra hc
      exact hu (Prod.ext ((mul_eq_zero.1 e2).resolve_left hc) ((mul_eq_zero.1 e1).resolve_left hc))
    simp [this]

theorem smul_inj {u : Vec K} (hu : u ≠ 0) {a b : K} (h : a • u = b • u) : a = b := by
  have h1 : (a - b) * u.1 = 0 := by
    have := congrArg Prod.fst h
    simp only [Prod.smul_fst, smul_eq_mul] at this
    linear_combination this
  have h2 : (a - b) * u.2 = 0 := by
    have := congrArg Prod.snd h
    simp only [Prod.smul_snd, smul_eq_mul] at this
    linear_combination this
  by_contra hab
  have hab := sub_ne_zero.2 hab
  exact hu (Prod.ext ((mul_eq_zero.1 h1).resolve_left hab) ((mul_eq_zero.1 h2).resolve_left hab))

/-- If `v` is a multiple of `u` then the matrix is the corresponding multiple of the identity. -/
theorem diag_of_smul {u v : Vec K} {m : Mat2 K} (hu : u ≠ 0) (hm : m.IsRotScale) (h : m.mulVec u = -v) {k : K} (hv : v = k • u) :
    isDiagonal m = true ∧ m.a = -k ∧ m.d = -k := by
  have hd : m = ⟨-k, 0, 0, -k⟩ := by
    obtain ⟨m', -, -, -, huniq⟩ := C03_similarityFromVectors u (-v) hu
    rw [huniq m hm h]
    symm
    apply huniq
    · simp [Mat2.IsRotScale]
    · rw [hv]; apply Prod.ext <;> simp [Mat2.mulVec]
  rw [hd]
  simp [isDiagonal]

theorem translationTest_decides : Decides (translationTest (K := K) true) TransRel := by
  refine ⟨fun u v m hu hv hm h => ?_, fun u v h => by unfold TransRel at *; rw [h, neg_neg]⟩
  unfold TransRel translationTest
  constructor
  · intro ht
    by_cases hd : isDiagonal m = true
    · rw [hd] at ht
      by_cases h1 : m.a = 1 ∧ m.d = 1
      · rw [(diag_iff hu hm h).1 hd, h1.1]; simp
      · simp [h1] at ht
    · simp [hd] at ht
  · intro hR
    obtain ⟨h1, h2, h3⟩ := diag_of_smul hu hm h (k := -1) (by rw [hR]; simp)
    simp [h1, h2, h3]

theorem halfTest_decides : Decides (translationTest (K := K) false) HalfRel := by
  refine ⟨fun u v m hu hv hm h => ?_, fun u v h => ?_⟩
  · unfold HalfRel translationTest
    constructor
    · intro ht
      by_cases hd : isDiagonal m = true
      · rw [hd] at ht
        have hv' := (diag_iff hu hm h).1 hd
        by_cases h1 : m.a = 1 ∧ m.d = 1
        · left; rw [hv', h1.1]; simp
        · by_cases h2 : m.a = -1 ∧ m.d = -1
          · right; rw [hv', h2.1]; simp
          · exfalso
            simp only [Bool.not_true, Bool.false_eq_true, if_false] at ht
            rw [if_neg h1, if_neg (by rintro ⟨x, y, -⟩; exact h2 ⟨x, y⟩)] at ht
            exact absurd ht (by simp)
      · simp [hd] at ht
    · rintro (hR | hR)
      · obtain ⟨h1, h2, h3⟩ := diag_of_smul hu hm h (k := -1) (by rw [hR]; simp)
        simp [h1, h2, h3]
      · obtain ⟨h1, h2, h3⟩ := diag_of_smul hu hm h (k := 1) (by rw [hR]; simp)
        simp [h1, h2, h3]
  · rcases h with h | h
    · left; rw [h, neg_neg]
    · right; exact h.symm

theorem dilationTest_decides : Decides (dilationTest (K := K) false) DilRel := by
  refine ⟨fun u v m hu hv hm h => ?_, fun u v h => ?_⟩
  · unfold DilRel dilationTest
    constructor
    · intro ht
      by_cases hd : isDiagonal m = true
      · have hv' := (diag_iff hu hm h).1 hd
        refine ⟨-m.a, ?_, hv'⟩
        intro h0
        rw [h0, zero_smul] at hv'
        exact hv hv'
      · simp [hd] at ht
    · rintro ⟨c, hc, hR⟩
      obtain ⟨h1, h2, h3⟩ := diag_of_smul hu hm h hR
      simp [h1]
  · obtain ⟨c, hc, rfl⟩ := h
    exact ⟨c⁻¹, inv_ne_zero hc, by rw [smul_smul, inv_mul_cancel₀ hc, one_smul]⟩

theorem posDilationTest_decides : Decides (dilationTest (K := K) true) PosDilRel := by
  refine ⟨fun u v m hu hv hm h => ?_, fun u v h => ?_⟩
  · unfold PosDilRel dilationTest
    constructor
    · intro ht
      by_cases hd : isDiagonal m = true
      · have hv' := (diag_iff hu hm h).1 hd
        rw [hd] at ht
        by_cases hneg : m.a < 0 ∨ m.d < 0
        · simp [hneg] at ht
        · push Not at hneg
          refine ⟨m.a, lt_of_le_of_ne hneg.1 ?_, by rw [hv', neg_smul]⟩
          intro h0
          rw [← h0, neg_zero, zero_smul] at hv'
          exact hv hv'
      · simp [hd] at ht
    · rintro ⟨c, hc, hR⟩
      obtain ⟨h1, h2, h3⟩ := diag_of_smul hu hm h (k := -c) (by rw [hR, neg_smul])
      rw [neg_neg] at h2 h3
      simp [h1, h2, h3, hc.le]
  · obtain ⟨c, hc, rfl⟩ := h
    refine ⟨c⁻¹, inv_pos.2 hc, ?_⟩
    rw [smul_neg, smul_smul, inv_mul_cancel₀ hc.ne', one_smul, neg_neg]

theorem coneTest_decides : Decides (coneTest (K := K)) IsoRel := by
  refine ⟨fun u v m hu hv hm h => ?_, fun u v h => h.symm⟩
  obtain ⟨a, b, c, d⟩ := m
  obtain ⟨u1, u2⟩ := u
  obtain ⟨v1, v2⟩ := v
  obtain ⟨m1, m2⟩ := hm
  dsimp only at m1 m2
  subst m1 m2
  simp only [Mat2.mulVec, Prod.neg_mk, Prod.mk.injEq] at h
  have key : (d ^ 2 + c ^ 2) * (u1 ^ 2 + u2 ^ 2) = v1 ^ 2 + v2 ^ 2 := by
    linear_combination (d * u1 + -c * u2 - v1) * h.1 + (c * u1 + d * u2 - v2) * h.2
  have hpos : u1 ^ 2 + u2 ^ 2 ≠ 0 := by
    intro h0
    apply hu
    have e1 : u1 = 0 := by nlinarith [sq_nonneg u1, sq_nonneg u2]
    have e2 : u2 = 0 := by nlinarith [sq_nonneg u1, sq_nonneg u2]
    rw [e1, e2]; rfl
  unfold coneTest IsoRel Mat2.mul Mat2.one
  simp only [Mat2.mk.injEq, decide_eq_true_eq]
  constructor
  · rintro ⟨h1, -, -, -⟩
    have : d ^ 2 + c ^ 2 = 1 := by linear_combination h1
    rw [this, one_mul] at key
    exact key
  · intro hR
    have h1 : d ^ 2 + c ^ 2 = 1 := by
      have : (d ^ 2 + c ^ 2 - 1) * (u1 ^ 2 + u2 ^ 2) = 0 := by linear_combination key - hR
      rcases mul_eq_zero.1 this with h | h
      · linear_combination h
      · exact absurd h hpos
    exact ⟨by linear_combination h1, by ring, by ring, by linear_combination h1⟩

/-! ## The properties -/

section
variable {S : RSurf L K} {valid : L → Prop} {ls : List L}

/-- `is_translation_surface()` is true if and only if all gluings are translations. -/
theorem C48_is_translation_surface (hS : S.Bordered valid) (hls : ∀ l, l ∈ ls ↔ valid l) :
    ∃ r, S.isTranslationSurface ls true = .ok r ∧ (r = true ↔ S.GluedBy valid (fun u v => v = -u)) :=
  check_spec hS translationTest_decides hls

/-- `is_translation_surface(positive=False)` is true if and only if all gluings are translations or rotations by π followed by translations. -/
theorem C48_is_half_translation_surface (hS : S.Bordered valid) (hls : ∀ l, l ∈ ls ↔ valid l) :
    ∃ r, S.isTranslationSurface ls false = .ok r ∧ (r = true ↔ S.GluedBy valid (fun u v => v = -u ∨ v = u)) :=
  check_spec hS halfTest_decides hls

theorem GluedBy.imp {R R' : Vec K → Vec K → Prop} (h : S.GluedBy valid R) (hR : ∀ u v, R u v → R' u v) : S.GluedBy valid R' :=
  fun l e l' e' p p' h1 h2 h3 h4 h5 => hR _ _ (h l e l' e' p p' h1 h2 h3 h4 h5)

/-- `is_dilation_surface()` is true if and only if all gluings are scalings. -/
theorem C48_is_dilation_surface (hS : S.Bordered valid) (hls : ∀ l, l ∈ ls ↔ valid l) :
    ∃ r, S.isDilationSurface ls false = .ok r ∧ (r = true ↔ S.GluedBy valid (fun u v => ∃ c : K, c ≠ 0 ∧ v = c • u)) := by
  obtain ⟨r, h1, h2⟩ := C48_is_half_translation_surface hS hls
  obtain ⟨r', h3, h4⟩ := check_spec hS dilationTest_decides hls
  unfold isDilationSurface
  rw [h1]
  simp only [bind, Except.bind]
  cases r with
  | true =>
    refine ⟨true, rfl, fun _ => (h2.1 rfl).imp ?_, fun _ => rfl⟩
    rintro u v (rfl | rfl)
    · exact ⟨-1, by simp, by simp⟩
    · exact ⟨1, by simp, by simp⟩
  | false => exact ⟨r', by simpa using h3, h4⟩

/-- `is_dilation_surface(positive=True)` is true if and only if all gluings are scalings by positive factors. -/
theorem C48_is_positive_dilation_surface (hS : S.Bordered valid) (hls : ∀ l, l ∈ ls ↔ valid l) :
    ∃ r, S.isDilationSurface ls true = .ok r ∧ (r = true ↔ S.GluedBy valid (fun u v => ∃ c : K, 0 < c ∧ v = -(c • u))) := by
  obtain ⟨r, h1, h2⟩ := C48_is_translation_surface hS hls
  obtain ⟨r', h3, h4⟩ := check_spec hS posDilationTest_decides hls
  unfold isDilationSurface
  rw [h1]
  simp only [bind, Except.bind]
  cases r with
  | true =>
    refine ⟨true, rfl, fun _ => (h2.1 rfl).imp ?_, fun _ => rfl⟩
    rintro u v rfl
    exact ⟨1, by simp, by simp⟩
  | false => exact ⟨r', by simpa using h3, h4⟩

/-- `is_cone_surface()` is true if and only if glued edges have the same length. -/
theorem C48_is_cone_surface (hS : S.Bordered valid) (hls : ∀ l, l ∈ ls ↔ valid l) :
    ∃ r, S.isConeSurface ls = .ok r ∧ (r = true ↔ S.GluedBy valid (fun u v => u.1 ^ 2 + u.2 ^ 2 = v.1 ^ 2 + v.2 ^ 2)) := by
  obtain ⟨r, h1, h2⟩ := C48_is_translation_surface hS hls
  obtain ⟨r', h3, h4⟩ := check_spec hS coneTest_decides hls
  unfold isConeSurface
  rw [h1]
  simp only [bind, Except.bind]
  cases r with
  | true =>
    refine ⟨true, rfl, fun _ => (h2.1 rfl).imp ?_, fun _ => rfl⟩
    rintro u v rfl
    simp
  | false => exact ⟨r', by simpa using h3, h4⟩

/-- The refined category of a surface tells what the gluings are; a surface is in the category of half-translation surfaces if the gluings are
half-translations and not all of them are translations. -/
theorem C48_refined_category (hS : S.Bordered valid) (hls : ∀ l, l ∈ ls ↔ valid l) : ∃ c, S.refinedCategory ls = .ok c ∧
    (c.cone = true ↔ S.GluedBy valid (fun u v => u.1 ^ 2 + u.2 ^ 2 = v.1 ^ 2 + v.2 ^ 2)) ∧
    (c.dilation = true ↔ S.GluedBy valid (fun u v => ∃ c : K, c ≠ 0 ∧ v = c • u)) ∧
    (c.positiveDilation = true ↔ S.GluedBy valid (fun u v => ∃ c : K, 0 < c ∧ v = -(c • u))) ∧
    (c.translation = true ↔ S.GluedBy valid (fun u v => v = -u)) ∧
    (c.translation = true ∨ c.halfTranslation = true ↔ S.GluedBy valid (fun u v => v = -u ∨ v = u)) := by
  obtain ⟨rc, c1, c2⟩ := C48_is_cone_surface hS hls
  obtain ⟨rd, d1, d2⟩ := C48_is_dilation_surface hS hls
  obtain ⟨rp, p1, p2⟩ := C48_is_positive_dilation_surface hS hls
  obtain ⟨rt, t1, t2⟩ := C48_is_translation_surface hS hls
  obtain ⟨rh, h1, h2⟩ := C48_is_half_translation_surface hS hls
  have tp : S.GluedBy valid (fun u v => v = -u) → S.GluedBy valid (fun u v => ∃ c : K, 0 < c ∧ v = -(c • u)) :=
    fun h => h.imp (by rintro u v rfl; exact ⟨1, by simp, by simp⟩)
  have pd : S.GluedBy valid (fun u v => ∃ c : K, 0 < c ∧ v = -(c • u)) → S.GluedBy valid (fun u v => ∃ c : K, c ≠ 0 ∧ v = c • u) :=
    fun h => h.imp (by rintro u v ⟨c, hc, rfl⟩; exact ⟨-c, by simpa using hc.ne', by rw [neg_smul]⟩)
  have th : S.GluedBy valid (fun u v => v = -u) → S.GluedBy valid (fun u v => v = -u ∨ v = u) := fun h => h.imp (fun u v h => .inl h)
  have hd : S.GluedBy valid (fun u v => v = -u ∨ v = u) → S.GluedBy valid (fun u v => ∃ c : K, c ≠ 0 ∧ v = c • u) :=
    fun h => h.imp (by
      rintro u v (rfl | rfl)
      · exact ⟨-1, by simp, by simp⟩
      · exact ⟨1, by simp, by simp⟩)
  -- half-translations that scale by positive factors are translations
  have hp : S.GluedBy valid (fun u v => v = -u ∨ v = u) → S.GluedBy valid (fun u v => ∃ c : K, 0 < c ∧ v = -(c • u)) → S.GluedBy valid (fun u v => v = -u) := by
    intro g1 g2 l e l' e' p p' k1 k2 k3 k4 k5
    rcases g1 l e l' e' p p' k1 k2 k3 k4 k5 with h | h
    · exact h
    · obtain ⟨c, hc, h'⟩ := g2 l e l' e' p p' k1 k2 k3 k4 k5
      exfalso
      have hne : p.edge e ≠ 0 := (hS.valid_of_polygon k1 k2).edge_ne e
      rw [h, ← neg_smul] at h'
      have : (1 : K) = -c := smul_inj hne (by rw [one_smul]; exact h')
      linarith
  unfold refinedCategory
  rw [c1]
  simp only [bind, Except.bind, d1, p1, t1, h1, pure, Except.pure]
  cases rd <;> cases rp <;> cases rt <;> cases rh <;> simp only [Bool.false_eq_true, if_true, if_false, false_iff, true_iff] at * <;>
    refine ⟨_, rfl, ?_⟩ <;> simp only [Bool.false_eq_true, false_iff, true_iff, false_or, or_true, or_false, true_or] <;> refine ⟨c2, ?_, ?_, ?_, ?_⟩ <;> tauto

end

theorem exTorus_labels (l : ℕ) : l ∈ [0, 1] ↔ ∃ p, MSurf.exTorus.polygon l = .ok p := by
  constructor
  · intro h
    simp only [List.mem_cons, List.not_mem_nil, or_false] at h
    rcases h with rfl | rfl
    · exact ⟨MSurf.tri, by decide +kernel⟩
    · exact ⟨MSurf.tri, by decide +kernel⟩
  · rintro ⟨p, hp⟩
    obtain ⟨rfl | rfl, -⟩ := exTorus_polygon hp <;> simp

/-- The hypotheses are met by a torus made from two triangles, glued by rotations by π. -/
example : (ofMSurf MSurf.exTorus).Bordered (fun l => ∃ p, MSurf.exTorus.polygon l = .ok p) ∧
    (∀ l, l ∈ [0, 1] ↔ ∃ p, MSurf.exTorus.polygon l = .ok p) ∧
    (ofMSurf MSurf.exTorus).refinedCategory [0, 1] = .ok ⟨true, true, false, false, true⟩ :=
  ⟨exTorus_closed.bordered, exTorus_labels, by decide +kernel⟩

end RSurf
end Flat
