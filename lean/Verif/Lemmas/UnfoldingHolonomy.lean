import Verif.Lemmas.UnfoldingAngles
import Mathlib.Topology.Instances.AddCircle.Defs
import Mathlib.GroupTheory.Index
import Mathlib.Data.ZMod.QuotientGroup

/-!
# Holonomy groups generated by rational angles
-/

namespace Flat

/-- The subgroup of the angles modulo `p` full turns that is generated by the given angles. -/
def holonomyGroup (p : ℚ) (xs : List ℚ) : AddSubgroup (AddCircle p) := AddSubgroup.closure {z | ∃ x ∈ xs, z = (x : AddCircle p)}

variable {p : ℚ} [hp : Fact (0 < p)]

theorem addOrderOf_angle (x : ℚ) : addOrderOf (x : AddCircle p) = (x / p).den := by
  have := AddCircle.addOrderOf_coe_rat (p := p) (q := x / p)
  rw [Rat.cast_id, div_mul_cancel₀ _ hp.out.ne'] at this
  exact this

theorem card_holonomyGroup (xs : List ℚ) : Nat.card (holonomyGroup p xs) = lcmDen (xs.map (· / p)) := by
  set N := lcmDen (xs.map (· / p)) with hN
  have hpos : 0 < N := lcmDen_pos _
  have hle : holonomyGroup p xs ≤ AddSubgroup.zmultiples ((p / N : ℚ) : AddCircle p) := by
    rw [holonomyGroup, AddSubgroup.closure_le]
    rintro z ⟨x, hx, rfl⟩
    obtain ⟨k, hk⟩ := den_dvd_lcmDen (List.mem_map_of_mem (f := (· / p)) hx)
    rw [← hN] at hk
    refine ⟨(x / p).num * k, ?_⟩
    have h1 := Rat.mul_den_eq_num (x / p)
    have hp0 := hp.out.ne'
    have hk0 : (N : ℚ) ≠ 0 := by exact_mod_cast hpos.ne'
    have hx : x = (((x / p).num * k : ℤ) : ℚ) * (p / N) := by
      push_cast
      have hk' : (N : ℚ) = ((x / p).den : ℚ) * k := by exact_mod_cast hk
      have h2 : ((x / p).num : ℚ) * k * p = x * N := by
        rw [← h1, hk']
        field_simp
      rw [mul_div_assoc', h2, mul_div_cancel_right₀ _ hk0]
    show ((x / p).num * (k : ℤ)) • ((p / N : ℚ) : AddCircle p) = _
    rw [← AddCircle.coe_zsmul, zsmul_eq_mul, ← hx]
  have hcard : Nat.card (AddSubgroup.zmultiples ((p / N : ℚ) : AddCircle p)) = N := by
    rw [Nat.card_zmultiples, AddCircle.addOrderOf_period_div hpos]
  refine Nat.dvd_antisymm ?_ ?_
  · have := AddSubgroup.card_dvd_of_le hle
    rwa [hcard] at this
  · refine lcmDen_dvd.2 fun q hq => ?_
    obtain ⟨x, hx, rfl⟩ := List.mem_map.1 hq
    rw [← addOrderOf_angle]
    exact AddSubgroup.addOrderOf_dvd_natCard _ (AddSubgroup.subset_closure ⟨x, hx, rfl⟩)

/-- The number of cosets of the subgroup generated by one of the angles. -/
theorem relIndex_angle {xs : List ℚ} {x : ℚ} (hx : x ∈ xs) :
    (AddSubgroup.zmultiples (x : AddCircle p)).relIndex (holonomyGroup p xs) = lcmDen (xs.map (· / p)) / (x / p).den := by
  have hle : AddSubgroup.zmultiples (x : AddCircle p) ≤ holonomyGroup p xs := by
    rw [AddSubgroup.zmultiples_le]
    exact AddSubgroup.subset_closure ⟨x, hx, rfl⟩
  have h := AddSubgroup.relIndex_mul_relIndex ⊥ _ _ bot_le hle
  rw [AddSubgroup.relIndex_bot_left, AddSubgroup.relIndex_bot_left, card_holonomyGroup, Nat.card_zmultiples, addOrderOf_angle] at h
  rw [← h, Nat.mul_div_cancel_left _ (Rat.den_pos _)]

end Flat
