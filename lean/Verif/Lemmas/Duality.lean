import Mathlib.GroupTheory.Perm.Cycle.Basic
import Mathlib.Dynamics.PeriodicPts.Lemmas
import Mathlib.Algebra.BigOperators.Ring.Finset
import Mathlib.Algebra.BigOperators.Pi
import Mathlib.Algebra.Module.LinearMap.Basic
import Mathlib.Tactic.Ring
import Mathlib.Tactic.LinearCombination

/-!
# Duality for surfaces given by permutations

The edges of a closed surface, each with its two directions, are a finite set with an involution `α` and a permutation `ν`, whose orbits are the
polygons; the orbits of `τ = (ν α)⁻¹` are the vertices.
-/

namespace Flat
namespace Duality
open Finset

variable {D : Type} [Fintype D] {R : Type} [CommRing R]

omit [Fintype D] in
theorem iterate_add_apply' (τ : Equiv.Perm D) (a b : ℕ) (x : D) : τ^[a + b] x = τ^[b] (τ^[a] x) := by
  rw [add_comm, Function.iterate_add_apply]

omit [Fintype D] in
theorem sum_shift (τ : Equiv.Perm D) (w : D → R) (h : ∀ x, ∑ i ∈ range (Function.minimalPeriod τ x), w (τ^[i] x) = 0) (x : D) (j k : ℕ) (hjk : j ≤ k)
    (hx : τ^[j] x = τ^[k] x) : ∑ i ∈ range j, w (τ^[i] x) = ∑ i ∈ range k, w (τ^[i] x) := by
  obtain ⟨n, rfl⟩ := Nat.exists_eq_add_of_le hjk
  rw [sum_range_add]
  set y := τ^[j] x with hy
  have hper : τ^[n] y = y := by rw [hy, ← iterate_add_apply', ← hx]
  have h1 : ∑ i ∈ range n, w (τ^[j + i] x) = ∑ i ∈ range n, w (τ^[i] y) := sum_congr rfl fun i _ => by rw [iterate_add_apply']
  rw [h1]
  obtain ⟨q, hq⟩ := Function.IsPeriodicPt.minimalPeriod_dvd (f := τ) (n := n) (x := y) hper
  have h2 : ∀ q, ∑ i ∈ range (Function.minimalPeriod τ y * q), w (τ^[i] y) = 0 := by
    intro q
    induction q with
    | zero => simp
    | succ q ih =>
      rw [Nat.mul_succ, sum_range_add, ih, zero_add]
      refine Eq.trans (sum_congr rfl fun i _ => ?_) (h y)
      rw [iterate_add_apply']
      congr 2
      exact (Function.isPeriodicPt_minimalPeriod τ y).mul_const q
  rw [hq, h2, add_zero]

/-- A function whose sums over the orbits vanish is a difference. -/
theorem potential (τ : Equiv.Perm D) (w : D → R) (h : ∀ x, ∑ i ∈ range (Function.minimalPeriod τ x), w (τ^[i] x) = 0) :
    ∃ c : D → R, ∀ d, c (τ d) = c d + w d := by
  classical
  let rep : D → D := fun d => (Quotient.mk (Equiv.Perm.SameCycle.setoid τ) d).out
  have hrep : ∀ d, ∃ k : ℕ, τ^[k] (rep d) = d := by
    intro d
    have : Equiv.Perm.SameCycle τ (rep d) d := Quotient.exact (s := Equiv.Perm.SameCycle.setoid τ) (Quotient.out_eq _)
    obtain ⟨k, -, hk⟩ := this.exists_pow_eq'
    exact ⟨k, by rw [← Equiv.Perm.coe_pow]; exact hk⟩
  choose k hk using hrep
  have hτ : ∀ d, rep (τ d) = rep d := by
    intro d
    show Quotient.out _ = Quotient.out _
    congr 1
    exact Quotient.sound (Equiv.Perm.SameCycle.symm (⟨1, by simp⟩ : Equiv.Perm.SameCycle τ d (τ d)))
  refine ⟨fun d => ∑ i ∈ range (k d), w (τ^[i] (rep d)), fun d => ?_⟩
  dsimp only
  have h1 : τ^[k (τ d)] (rep d) = τ^[k d + 1] (rep d) := by
    rw [← hτ d, hk, hτ, Function.iterate_succ_apply', hk]
  have h2 : ∑ i ∈ range (k d + 1), w (τ^[i] (rep d)) = ∑ i ∈ range (k d), w (τ^[i] (rep d)) + w d := by
    rw [sum_range_succ, hk]
  rw [hτ, ← h2]
  rcases le_total (k (τ d)) (k d + 1) with hl | hl
  · exact sum_shift τ w h _ _ _ hl h1
  · exact (sum_shift τ w h _ _ _ hl h1.symm).symm

/-- The sum over an orbit. -/
theorem sum_orbit (ν : Equiv.Perm D) (k : D → R) (x : D) [DecidablePred (Equiv.Perm.SameCycle ν x)] :
    ∑ i ∈ range (Function.minimalPeriod ν x), k (ν^[i] x) = ∑ d, if Equiv.Perm.SameCycle ν x d then k d else 0 := by
  rw [← sum_filter]
  refine sum_bij (fun i _ => ν^[i] x) ?_ ?_ ?_ ?_
  · intro i _
    rw [mem_filter]
    exact ⟨mem_univ _, ⟨i, by simp [Equiv.Perm.coe_pow]⟩⟩
  · intro i hi j hj hij
    exact Function.iterate_injOn_Iio_minimalPeriod (mem_range.1 hi) (mem_range.1 hj) hij
  · intro b hb
    obtain ⟨i, -, hi⟩ := (mem_filter.1 hb).2.exists_pow_eq'
    have hper : x ∈ Function.periodicPts ν := by
      refine Function.mem_periodicPts.2 ⟨orderOf ν, orderOf_pos ν, ?_⟩
      show (ν : D → D)^[orderOf ν] x = x
      rw [← Equiv.Perm.coe_pow, pow_orderOf_eq_one]; rfl
    refine ⟨i % Function.minimalPeriod ν x, mem_range.2 (Nat.mod_lt _ (Function.minimalPeriod_pos_of_mem_periodicPts hper)), ?_⟩
    rw [Function.iterate_mod_minimalPeriod_eq, ← hi, Equiv.Perm.coe_pow]
  · intro i _; rfl

/-- Functions of the vertices. -/
def AtVertices (τ : Equiv.Perm D) (h : D → R) : Prop := ∀ d, h (τ d) = h d

/-- Closed chains. -/
def ClosedChain (α τ : Equiv.Perm D) (o : D → R) : Prop := ∀ h : D → R, AtVertices τ h → ∑ d, o d * (h (α d) - h d) = 0

/-- Edges with a common vertex and the two directions of an edge, and what follows from this. -/
def Near (α τ : Equiv.Perm D) : D → D → Prop := Relation.EqvGen fun a b => b = τ a ∨ b = α a

/-- A chain from one vertex to another. -/
def Path (α τ : Equiv.Perm D) (a b : D) (o : D → R) : Prop := ∀ h : D → R, AtVertices τ h → ∑ d, o d * (h (α d) - h d) = h b - h a

theorem exists_path {α τ : Equiv.Perm D} {a b : D} (h : Near α τ a b) : ∃ o : D → R, Path α τ a b o := by
  classical
  induction h with
  | rel a b h =>
    rcases h with rfl | rfl
    · exact ⟨0, fun h hh => by simp [hh a]⟩
    · refine ⟨Pi.single a 1, fun h _ => ?_⟩
      rw [sum_eq_single a]
      · simp
      · intro d _ hd; rw [Pi.single_eq_of_ne hd, zero_mul]
      · simp
  | refl a => exact ⟨0, fun h _ => by simp⟩
  | symm a b _ ih =>
    obtain ⟨o, ho⟩ := ih
    refine ⟨-o, fun h hh => ?_⟩
    simp only [Pi.neg_apply, neg_mul, sum_neg_distrib, ho h hh]
    ring
  | trans a b c _ _ ih1 ih2 =>
    obtain ⟨o, ho⟩ := ih1
    obtain ⟨o', ho'⟩ := ih2
    refine ⟨o + o', fun h hh => ?_⟩
    simp only [Pi.add_apply, add_mul, sum_add_distrib, ho h hh, ho' h hh]
    ring

/-- Chains from a fixed vertex to all the others. -/
theorem exists_paths (R : Type) [CommRing R] {α τ : Equiv.Perm D} {a : D} (hc : ∀ b, Near α τ a b) :
    ∃ o : D → D → R, (∀ b, Path α τ a b (o b)) ∧ ∀ b, o (τ b) = o b := by
  let rep : D → D := fun d => (Quotient.mk (Equiv.Perm.SameCycle.setoid τ) d).out
  have hτ : ∀ d, rep (τ d) = rep d := by
    intro d
    show Quotient.out _ = Quotient.out _
    congr 1
    exact Quotient.sound (Equiv.Perm.SameCycle.symm (⟨1, by simp⟩ : Equiv.Perm.SameCycle τ d (τ d)))
  have hrep : ∀ (h : D → R), AtVertices τ h → ∀ d, h (rep d) = h d := by
    intro h hh d
    have hs : Equiv.Perm.SameCycle τ (rep d) d := Quotient.exact (s := Equiv.Perm.SameCycle.setoid τ) (Quotient.out_eq _)
    obtain ⟨k, -, hk⟩ := hs.exists_pow_eq'
    have : ∀ k : ℕ, h ((τ ^ k) (rep d)) = h (rep d) := by
      intro k
      induction k with
      | zero => rfl
      | succ k ih => rw [pow_succ', Equiv.Perm.mul_apply, hh, ih]
    rw [← this k, hk]
  choose o ho using fun b => exists_path (R := R) (hc b)
  refine ⟨fun b => o (rep b), fun b h hh => ?_, fun b => by dsimp only; rw [hτ]⟩
  rw [ho (rep b) h hh, hrep h hh]

/-- The coefficients of the pairing with a chain with counters `c`. -/
def crossing (α : Equiv.Perm D) (m c : D → R) (d : D) : R := c d + m d - (c (α d) + m (α d))

theorem sum_crossing {α : Equiv.Perm D} (hα : ∀ d, α (α d) = d) (m c o : D → R) :
    ∑ d, (c d + m d) * (o d - o (α d)) = ∑ d, crossing α m c d * o d := by
  have h1 : ∑ d, (c d + m d) * o (α d) = ∑ d, (c (α d) + m (α d)) * o d := by
    refine Fintype.sum_equiv α _ _ fun d => ?_
    rw [hα]
  simp only [crossing, mul_sub, sub_mul, sum_sub_distrib, h1]

theorem sum_vertices {α : Equiv.Perm D} (hα : ∀ d, α (α d) = d) (o h : D → R) : ∑ d, o d * (h (α d) - h d) = - ∑ d, h d * (o d - o (α d)) := by
  have h1 : ∑ d, o d * h (α d) = ∑ d, h d * o (α d) := Fintype.sum_equiv α _ _ fun d => by rw [hα, mul_comm]
  have h2 : ∑ d, o d * h d = ∑ d, h d * o d := sum_congr rfl fun d _ => mul_comm _ _
  simp only [mul_sub, sum_sub_distrib, h1, h2]
  ring

/-- A chain is closed if the sum at each vertex vanishes. -/
theorem closedChain_iff {α τ : Equiv.Perm D} (hα : ∀ d, α (α d) = d) (o : D → R) :
    ClosedChain α τ o ↔ ∀ x, ∑ i ∈ range (Function.minimalPeriod τ x), (o (τ^[i] x) - o (α (τ^[i] x))) = 0 := by
  classical
  constructor
  · intro h x
    have h1 := h (fun d => if Equiv.Perm.SameCycle τ x d then 1 else 0) (fun d => by simp [Equiv.Perm.sameCycle_apply_right])
    rw [sum_vertices hα o (fun d => if Equiv.Perm.SameCycle τ x d then 1 else 0)] at h1
    rw [sum_orbit τ (fun d => o d - o (α d))]
    simp only [ite_mul, one_mul, zero_mul] at h1
    exact neg_eq_zero.1 h1
  · intro h k hk
    obtain ⟨c, hc⟩ := potential τ (fun d => o d - o (α d)) h
    rw [sum_vertices hα, neg_eq_zero]
    have h1 : ∀ d, k d * (o d - o (α d)) = k (τ d) * c (τ d) - k d * c d := fun d => by rw [hc, hk]; ring
    rw [sum_congr rfl fun d _ => h1 d, sum_sub_distrib, Equiv.sum_comp τ (fun d => k d * c d), sub_self]

/-- A function that vanishes on closed chains is a difference of values at the vertices. -/
theorem coboundary {α τ : Equiv.Perm D} {a : D} (hc : ∀ b, Near α τ a b) {k : D → R}
    (hk : ∀ o, ClosedChain α τ o → ∑ d, k d * o d = 0) : ∃ h : D → R, AtVertices τ h ∧ ∀ d, k d = h (α d) - h d := by
  classical
  obtain ⟨o, ho, hoτ⟩ := exists_paths R hc
  refine ⟨fun b => ∑ d, k d * o b d, fun b => by dsimp only; rw [hoτ], fun b => ?_⟩
  dsimp only
  have := hk (o (α b) - o b - Pi.single b 1) (by
    intro h hh
    simp only [Pi.sub_apply, sub_mul, sum_sub_distrib, ho _ h hh]
    rw [sum_eq_single b]
    · simp
    · intro d _ hd; rw [Pi.single_eq_of_ne hd, zero_mul]
    · simp)
  simp only [Pi.sub_apply, mul_sub, sum_sub_distrib] at this
  rw [sum_eq_single (f := fun d => k d * (Pi.single b 1 : D → R) d) b] at this
  · rw [Pi.single_eq_same, mul_one] at this
    linear_combination -this
  · intro d _ hd; rw [Pi.single_eq_of_ne hd, mul_zero]
  · simp

/-- A closed chain whose intersection with all closed chains is zero is a boundary. -/
theorem nondegenerate {α τ ν : Equiv.Perm D} (hα : ∀ d, α (α d) = d) (hν : ∀ d, ν (α (τ d)) = d) {a : D} (hc : ∀ b, Near α τ a b) {m c : D → R}
    (hm : ∀ d, c (τ d) = c d + (m d - m (α d))) (h0 : ∀ o, ClosedChain α τ o → ∑ d, (c d + m d) * (o d - o (α d)) = 0) :
    ∃ x : D → R, (∀ d, x (ν d) = x d) ∧ ∀ d, m d - m (α d) = x d - x (α d) := by
  obtain ⟨h, hh, hk⟩ := coboundary hc (k := crossing α m c) (fun o ho => by rw [← sum_crossing hα]; exact h0 o ho)
  have h1 : ∀ d, c d + m d + h d = c (α d) + m (α d) + h (α d) := by
    intro d
    have := hk d
    unfold crossing at this
    linear_combination this
  refine ⟨fun d => c d + m d + h d - m (α d), fun d => ?_, fun d => ?_⟩
  · dsimp only
    obtain ⟨e, rfl⟩ : ∃ e, d = α (τ e) := ⟨τ.symm (α.symm d), by simp⟩
    rw [hν, hα]
    have e1 := hm e
    have e2 := hh e
    have e3 := h1 (τ e)
    linear_combination e3 - e1 - e2
  · dsimp only
    rw [hα]
    linear_combination -h1 d

/-- Every functional on closed chains that vanishes on boundaries is the intersection with a closed chain. -/
theorem represent {α τ ν : Equiv.Perm D} (hα : ∀ d, α (α d) = d) (hν : ∀ d, ν (α (τ d)) = d) {a : D} (hc : ∀ b, Near α τ a b)
    {F : (D → R) → R} (hadd : ∀ o o', ClosedChain α τ o → ClosedChain α τ o' → F (o + o') = F o + F o')
    (hsmul : ∀ (r : R) o, ClosedChain α τ o → F (r • o) = r * F o) (hflow : ∀ o, (∀ d, o d = o (α d)) → F o = 0)
    (hface : ∀ x : D → R, (∀ d, x (ν d) = x d) → F x = 0) :
    ∃ w c : D → R, (∀ d, w (α d) = - w d) ∧ (∀ d, c (τ d) = c d + w d) ∧
      ∀ m : D → R, (∀ d, m d - m (α d) = w d) → ∀ o, ClosedChain α τ o → ∑ d, (c d + m d) * (o d - o (α d)) = F o := by
  classical
  obtain ⟨p, hp, hpτ⟩ := exists_paths R hc
  have hcl_add : ∀ {o o' : D → R}, ClosedChain α τ o → ClosedChain α τ o' → ClosedChain α τ (o + o') := by
    intro o o' h h' k hk
    simp only [Pi.add_apply, add_mul, sum_add_distrib, h k hk, h' k hk, add_zero]
  have hcl_smul : ∀ {o : D → R} (r : R), ClosedChain α τ o → ClosedChain α τ (r • o) := by
    intro o r h k hk
    simp only [Pi.smul_apply, smul_eq_mul, mul_assoc, ← mul_sum, h k hk, mul_zero]
  have hF0 : F 0 = 0 := by
    have := hsmul 0 0 (fun k _ => by simp)
    simpa using this
  -- the closed chain of an edge
  let e : D → D → R := fun d => Pi.single d 1 - (p (α d) - p d)
  have he : ∀ d, ClosedChain α τ (e d) := by
    intro d h hh
    simp only [e, Pi.sub_apply, sub_mul, sum_sub_distrib, hp _ h hh]
    rw [sum_eq_single d]
    · simp
    · intro b _ hb; rw [Pi.single_eq_of_ne hb, zero_mul]
    · simp
  let k : D → R := fun d => F (e d)
  have hsum : ∀ (s : Finset D) (o : D → R), F (∑ d ∈ s, o d • e d) = ∑ d ∈ s, k d * o d ∧ ClosedChain α τ (∑ d ∈ s, o d • e d) := by
    intro s o
    induction s using Finset.induction_on with
    | empty => exact ⟨by simpa using hF0, fun k _ => by simp⟩
    | insert d s hd ih =>
      rw [sum_insert hd, sum_insert hd, hadd _ _ (hcl_smul _ (he d)) ih.2, ih.1, hsmul _ _ (he d)]
      exact ⟨by show o d * k d + _ = _; ring, hcl_add (hcl_smul _ (he d)) ih.2⟩
  have hk : ∀ o, ClosedChain α τ o → ∑ d, k d * o d = F o := by
    intro o ho
    rw [← (hsum univ o).1]
    congr 1
    funext b
    rw [sum_apply]
    simp only [e, Pi.smul_apply, Pi.sub_apply, smul_eq_mul, mul_sub (o _) ((Pi.single _ _ : D → R) b), sum_sub_distrib]
    rw [ho (fun d => p d b) (fun d => by dsimp only; rw [hpτ]), sub_zero, sum_eq_single b]
    · simp
    · intro d _ hd; rw [Pi.single_eq_of_ne (Ne.symm hd), mul_zero]
    · simp
  have hsym : ∀ o : D → R, (∀ d, o d = o (α d)) → ∑ d, k d * o d = 0 := by
    intro o ho
    rw [hk o, hflow o ho]
    intro h hh
    have : ∑ d, o d * h (α d) = ∑ d, o d * h d := Fintype.sum_equiv α _ _ fun d => by rw [ho d]
    simp only [mul_sub, sum_sub_distrib, this, sub_self]
  have hanti : ∀ d, k (α d) = - k d := by
    intro d
    by_cases hd : α d = d
    · have := hsym (Pi.single d 1) (fun b => by
        by_cases hb : b = d
        · subst hb; rw [hd]
        · rw [Pi.single_eq_of_ne hb, Pi.single_eq_of_ne]
          intro h
          apply hb
          rw [← hα b, h, hd])
      rw [sum_eq_single d] at this
      · rw [Pi.single_eq_same, mul_one] at this
        rw [hd, this, neg_zero]
      · intro b _ hb; rw [Pi.single_eq_of_ne hb, mul_zero]
      · simp
    · have := hsym (Pi.single d 1 + Pi.single (α d) 1) (fun b => by
        simp only [Pi.add_apply, Pi.single_apply]
        have h1 : α b = α d ↔ b = d := α.injective.eq_iff
        have h2 : α b = d ↔ b = α d := ⟨fun h => by rw [← h, hα], fun h => by rw [h, hα]⟩
        simp only [h1, h2]
        ring)
      simp only [Pi.add_apply, mul_add, sum_add_distrib] at this
      rw [sum_eq_single d, sum_eq_single (α d)] at this
      · rw [Pi.single_eq_same, Pi.single_eq_same, mul_one, mul_one] at this
        linear_combination this
      all_goals first | (intro b _ hb; rw [Pi.single_eq_of_ne hb, mul_zero]) | simp
  have hfacec : ∀ x : D → R, (∀ d, x (ν d) = x d) → ClosedChain α τ x := by
    intro x hx h hh
    have h1 : ∑ d, x d * h (α d) = ∑ d, x d * h d := by
      refine Fintype.sum_equiv ν _ _ fun d => ?_
      rw [hx]
      obtain ⟨b, rfl⟩ : ∃ b, d = α (τ b) := ⟨τ.symm (α.symm d), by simp⟩
      rw [hν, hα, hh]
    simp only [mul_sub, sum_sub_distrib, h1, sub_self]
  obtain ⟨ψ, hψ⟩ := potential ν k (by
    intro x
    have h1 := hface (fun d => if Equiv.Perm.SameCycle ν x d then 1 else 0) (fun d => by simp [Equiv.Perm.sameCycle_apply_right])
    rw [← hk _ (hfacec _ (fun d => by simp [Equiv.Perm.sameCycle_apply_right]))] at h1
    simp only [mul_ite, mul_one, mul_zero] at h1
    rw [sum_orbit, h1])
  -- the counters after and before an edge
  have hτ' : ∀ d, ν (α d) = τ.symm d := by
    intro d
    have := hν (τ.symm d)
    rwa [Equiv.apply_symm_apply] at this
  refine ⟨fun d => ψ (τ.symm d) - ψ d, fun d => - ψ (τ.symm d), ?_, ?_, ?_⟩
  · intro d
    dsimp only
    have h1 := hψ d
    have h2 := hψ (α d)
    rw [hτ' d] at h2
    have h3 : τ.symm (α d) = ν d := by rw [← hτ', hα]
    rw [h3]
    have h4 := hanti d
    linear_combination h1 + h2 + h4
  · intro d
    dsimp only
    rw [Equiv.symm_apply_apply]
    ring
  · intro m hm o ho
    rw [sum_crossing hα, ← hk o ho]
    refine sum_congr rfl fun d _ => ?_
    congr 1
    unfold crossing
    have h1 := hm d
    have h3 : τ.symm (α d) = ν d := by rw [← hτ', hα]
    have h2 := hψ d
    dsimp only at h1 ⊢
    rw [h3]
    linear_combination h1 + h2

/-- The pairing in terms of counters is antisymmetric. -/
theorem antisymmetric {α τ : Equiv.Perm D} (hα : ∀ d, α (α d) = d) {m o c c' : D → R} (hm : ∀ d, c (τ d) = c d + (m d - m (α d)))
    (ho : ∀ d, c' (τ d) = c' d + (o d - o (α d))) :
    ∑ d, (c d + m d) * (o d - o (α d)) + ∑ d, (c' d + o d) * (m d - m (α d)) = 0 := by
  have h1 : ∑ d, c (τ d) * c' (τ d) = ∑ d, c d * c' d := Fintype.sum_equiv τ _ _ fun d => rfl
  have h2 : ∑ d, m (α d) * o (α d) = ∑ d, m d * o d := Fintype.sum_equiv α _ _ fun d => rfl
  have h3 : ∑ d, (c (τ d) * c' (τ d) - c d * c' d) - ∑ d, (m (α d) * o (α d) - m d * o d) = 0 := by
    rw [sum_sub_distrib, h1, sum_sub_distrib, h2]; ring
  rw [← h3, ← sum_add_distrib, ← sum_sub_distrib]
  refine sum_congr rfl fun d _ => ?_
  rw [hm, ho]
  ring

/-- Closed chains are combinations of closed chains with integer coefficients. -/
theorem decompose {α τ : Equiv.Perm D} {a : D} (hc : ∀ b, Near α τ a b) :
    ∃ z : D → D → ℤ, (∀ d, ClosedChain α τ (z d)) ∧ ∀ o : D → R, ClosedChain α τ o → ∀ e, o e = ∑ d, o d * (z d e : R) := by
  classical
  obtain ⟨P, hP, hPτ⟩ := exists_paths ℤ hc
  refine ⟨fun d => Pi.single d 1 + P d - P (α d), fun d h hh => ?_, fun o ho e => ?_⟩
  · have h1 := hP d h hh
    have h2 := hP (α d) h hh
    simp only [Pi.add_apply, Pi.sub_apply, add_mul, sub_mul, sum_add_distrib, sum_sub_distrib, h1, h2]
    rw [sum_eq_single d (fun b _ hb => by rw [Pi.single_eq_of_ne hb, zero_mul]) (by simp), Pi.single_eq_same]
    ring
  · have h1 := ho (fun d => (P d e : R)) (fun d => by simp only [hPτ])
    have h2 : ∑ d, o d * (((Pi.single d 1 : D → ℤ) e : ℤ) : R) = o e := by
      rw [sum_eq_single e (fun b _ hb => by rw [Pi.single_eq_of_ne hb.symm]; simp) (by simp), Pi.single_eq_same]
      simp
    calc o e = ∑ d, o d * (((Pi.single d 1 : D → ℤ) e : ℤ) : R) - ∑ d, o d * ((P (α d) e : R) - (P d e : R)) := by rw [h1, h2, sub_zero]
      _ = _ := by
        rw [← sum_sub_distrib]
        refine sum_congr rfl fun d _ => ?_
        simp only [Pi.add_apply, Pi.sub_apply]
        push_cast
        ring

/-- The pairing of a closed chain with itself vanishes. -/
theorem alternating {α τ : Equiv.Perm D} (hα : ∀ d, α (α d) = d) {a : D} (hc : ∀ b, Near α τ a b) {m c : D → R} (hm : ∀ d, c (τ d) = c d + (m d - m (α d)))
    (hcl : ClosedChain α τ m) : ∑ d, (c d + m d) * (m d - m (α d)) = 0 := by
  classical
  obtain ⟨z, hz, hdec⟩ := decompose (R := R) hc
  have hpot : ∀ d, ∃ y : D → ℤ, ∀ e, y (τ e) = y e + (z d e - z d (α e)) := fun d =>
    potential τ _ ((closedChain_iff hα (z d)).1 (hz d))
  choose y hy using hpot
  -- the counters differ by constants at vertices
  have hm2 := hdec m hcl
  let c' : D → R := fun e => ∑ d, m d * (y d e : R)
  have hc' : ∀ e, c' (τ e) = c' e + (m e - m (α e)) := by
    intro e
    rw [hm2 e, hm2 (α e)]
    simp only [c', hy]
    rw [← sum_sub_distrib, ← sum_add_distrib]
    refine sum_congr rfl fun d _ => ?_
    push_cast
    ring
  have hdiff : ∑ d, (c d + m d) * (m d - m (α d)) = ∑ d, (c' d + m d) * (m d - m (α d)) := by
    have h1 := (sum_vertices hα m (fun d => c d - c' d)).symm.trans (hcl (fun d => c d - c' d) (fun d => by dsimp only; rw [hm, hc']; ring))
    rw [neg_eq_zero] at h1
    rw [← sub_eq_zero, ← sum_sub_distrib, ← h1]
    refine sum_congr rfl fun d _ => by ring
  rw [hdiff]
  let A : D → D → ℤ := fun d e => ∑ f, (y d f + z d f) * (z e f - z e (α f))
  have hA : ∀ d e, A d e + A e d = 0 := fun d e => antisymmetric hα (hy d) (hy e)
  have hexp : ∑ f, (c' f + m f) * (m f - m (α f)) = ∑ p : D × D, m p.1 * m p.2 * (A p.1 p.2 : R) := by
    rw [Fintype.sum_prod_type]
    have h1 : ∀ f, (c' f + m f) * (m f - m (α f)) = ∑ d, ∑ e, m d * m e * (((y d f + z d f) * (z e f - z e (α f)) : ℤ) : R) := by
      intro f
      have e1 : c' f + m f = ∑ d, m d * ((y d f + z d f : ℤ) : R) := by
        rw [hm2 f, ← sum_add_distrib]
        refine sum_congr rfl fun d _ => by push_cast; ring
      have e2 : m f - m (α f) = ∑ d, m d * ((z d f - z d (α f) : ℤ) : R) := by
        rw [hm2 f, hm2 (α f), ← sum_sub_distrib]
        refine sum_congr rfl fun d _ => by push_cast; ring
      rw [e1, e2, sum_mul_sum]
      refine sum_congr rfl fun d _ => sum_congr rfl fun e _ => by push_cast; ring
    simp only [h1]
    rw [sum_comm]
    refine sum_congr rfl fun d _ => ?_
    rw [sum_comm]
    refine sum_congr rfl fun e _ => ?_
    simp only [A]
    rw [← mul_sum]
    push_cast
    rfl
  rw [hexp]
  refine sum_involution (fun p _ => (p.2, p.1)) ?_ ?_ (fun _ _ => mem_univ _) (fun _ _ => rfl)
  · intro p _
    have := congrArg (fun n : ℤ => (n : R)) (hA p.1 p.2)
    simp only [Int.cast_add, Int.cast_zero] at this
    linear_combination m p.1 * m p.2 * this
  · intro p _ hp h
    apply hp
    have e : p.2 = p.1 := congrArg Prod.fst h
    have h0 := hA p.1 p.1
    have : A p.1 p.1 = 0 := by omega
    rw [e, this]
    simp

end Duality
end Flat
