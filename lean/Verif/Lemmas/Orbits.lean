import Mathlib.GroupTheory.Perm.Cycle.Type
import Mathlib.SetTheory.Cardinal.Finite

/-!
# Counting orbits of permutations
-/

namespace Flat

/-- The number of classes is the number of values of a complete invariant. -/
theorem card_quotient {α β : Type} (s : Setoid α) (F : α → β) (h : ∀ x y, s x y ↔ F x = F y) (rs : Finset β)
    (hr : ∀ b, b ∈ rs ↔ ∃ a, F a = b) : Nat.card (Quotient s) = rs.card := by
  have hb : Function.Bijective (Quotient.lift (fun a => (⟨F a, (hr _).2 ⟨a, rfl⟩⟩ : rs)) (fun a b hab => Subtype.ext ((h a b).1 hab))) := by
    constructor
    · intro a b
      induction a using Quotient.inductionOn
      induction b using Quotient.inductionOn
      intro hab
      exact Quotient.sound ((h _ _).2 (congrArg Subtype.val hab))
    · rintro ⟨b, hb⟩
      obtain ⟨a, rfl⟩ := (hr b).1 hb
      exact ⟨Quotient.mk _ a, rfl⟩
  rw [Nat.card_congr (Equiv.ofBijective _ hb), Nat.card_eq_fintype_card, Fintype.card_coe]

/-- The number of orbits of a permutation. -/
theorem card_orbits {α : Type} [Fintype α] [DecidableEq α] (σ : Equiv.Perm α) :
    Nat.card (Quotient (Equiv.Perm.SameCycle.setoid σ)) = σ.cycleType.card + (Fintype.card α - σ.support.card) := by
  rw [card_quotient _ (fun x => if σ x = x then (Sum.inr x : Equiv.Perm α ⊕ α) else Sum.inl (σ.cycleOf x)) ?_
    (σ.cycleFactorsFinset.disjSum (Finset.univ.filter (fun x => σ x = x))) ?_]
  · rw [Finset.card_disjSum]
    congr 1
    · rw [Equiv.Perm.cycleType_def, Multiset.card_map]; rfl
    · rw [← Finset.card_univ, ← Finset.card_sdiff_of_subset (Finset.subset_univ _)]
      congr 1
      ext x
      simp
  · intro x y
    by_cases hx : σ x = x
    · rw [if_pos hx]
      constructor
      · rintro ⟨i, hi⟩
        have : (σ ^ i) x = x := Equiv.Perm.zpow_apply_eq_self_of_apply_eq_self hx i
        rw [this] at hi
        subst hi
        rw [if_pos hx]
      · split_ifs with hy
        · intro h; injection h with h; subst h; exact Equiv.Perm.SameCycle.refl _ _
        · intro h; cases h
    · rw [if_neg hx]
      constructor
      · intro h
        have hy : σ y ≠ y := fun hy => hx (by
          obtain ⟨i, hi⟩ := Equiv.Perm.SameCycle.symm h
          rw [Equiv.Perm.zpow_apply_eq_self_of_apply_eq_self hy i] at hi
          subst hi; exact hy)
        rw [if_neg hy, Equiv.Perm.SameCycle.cycleOf_eq h]
      · split_ifs with hy
        · intro h; cases h
        · intro h
          injection h with h
          have : y ∈ (σ.cycleOf x).support := by
            rw [h, Equiv.Perm.mem_support_cycleOf_iff]
            exact ⟨Equiv.Perm.SameCycle.refl _ _, by simpa using hy⟩
          exact (Equiv.Perm.mem_support_cycleOf_iff.1 this).1
  · rintro (f | x)
    · rw [Finset.inl_mem_disjSum]
      constructor
      · intro hf
        obtain ⟨hc, hf'⟩ := Equiv.Perm.mem_cycleFactorsFinset_iff.1 hf
        obtain ⟨x, hx, -⟩ := id hc
        refine ⟨x, ?_⟩
        have hxs : x ∈ f.support := Equiv.Perm.mem_support.2 hx
        have hσ : σ x ≠ x := by rw [← hf' x hxs]; exact hx
        rw [if_neg hσ, ← Equiv.Perm.cycle_is_cycleOf hxs hf]
      · rintro ⟨x, hx⟩
        split_ifs at hx with h
        injection hx with hx
        rw [← hx, Equiv.Perm.cycleOf_mem_cycleFactorsFinset_iff]
        simpa using h
    · rw [Finset.inr_mem_disjSum]
      constructor
      · intro hx
        exact ⟨x, if_pos (by simpa using hx)⟩
      · rintro ⟨y, hy⟩
        split_ifs at hy with h
        injection hy with hy
        subst hy
        simpa using h

/-- The sign of a permutation is given by the parity of the number of its orbits. -/
theorem sign_orbits {α : Type} [Fintype α] [DecidableEq α] (σ : Equiv.Perm α) :
    Equiv.Perm.sign σ = (-1) ^ (Fintype.card α + Nat.card (Quotient (Equiv.Perm.SameCycle.setoid σ))) := by
  rw [Equiv.Perm.sign_of_cycleType, card_orbits, Equiv.Perm.sum_cycleType]
  have hle : σ.support.card ≤ Fintype.card α := Finset.card_le_univ _
  obtain ⟨m, hm⟩ := Nat.exists_eq_add_of_le hle
  rw [hm, show σ.support.card + m + (σ.cycleType.card + (σ.support.card + m - σ.support.card)) =
    (σ.support.card + σ.cycleType.card) + 2 * m by omega, pow_add _ (_ + _), pow_mul]
  simp

/-- For a product of permutations. -/
theorem orbits_mul {α : Type} [Fintype α] (σ τ : Equiv.Perm α) :
    (Fintype.card α + Nat.card (Quotient (Equiv.Perm.SameCycle.setoid σ)) + Nat.card (Quotient (Equiv.Perm.SameCycle.setoid τ)) +
      Nat.card (Quotient (Equiv.Perm.SameCycle.setoid (σ * τ)))) % 2 = 0 := by
  classical
  have h := Equiv.Perm.sign_mul σ τ
  rw [sign_orbits, sign_orbits, sign_orbits, ← pow_add] at h
  have h2 : ((-1 : ℤˣ)) ^ (Fintype.card α + Nat.card (Quotient (Equiv.Perm.SameCycle.setoid (σ * τ))) +
      (Fintype.card α + Nat.card (Quotient (Equiv.Perm.SameCycle.setoid σ)) +
        (Fintype.card α + Nat.card (Quotient (Equiv.Perm.SameCycle.setoid τ))))) = 1 := by
    rw [pow_add, h, ← pow_add, ← two_mul, pow_mul]
    simp
  have h3 := (neg_one_pow_eq_one_iff_even (R := ℤˣ) (by decide)).1 h2
  rw [Nat.even_iff] at h3
  omega

end Flat
