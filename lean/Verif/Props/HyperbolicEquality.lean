import Verif.Lemmas.HalfSpaceCanonical
import Verif.Props.HyperbolicPolygon

/-!
# C81: Equality and inclusion of convex sets in the hyperbolic plane
-/

namespace Flat
namespace Hyp
namespace Props

variable {K : Type} [Field K] [LinearOrder K] [IsStrictOrderedRing K]

/-- C81. Two convex sets are `==` iff they have the same points; it suffices to compare the points with coordinates in the base field. -/
theorem C81_equal (R S : ConvexSet K) (hR : R.Reduced) (hS : S.Reduced) : R.eqSet S = true ↔ ∀ z : K × K, R.Mem (RingHom.id K) z ↔ S.Mem (RingHom.id K) z :=
  ⟨fun h z => mem_of_eqSet hR hS h strictMono_ringHom_id z, eqSet_of_same hR hS⟩

/-- C81. Convex sets that are `==` have the same points over any extension of the base field. -/
theorem C81_equal_extension (R S : ConvexSet K) (hR : R.Reduced) (hS : S.Reduced) (h : R.eqSet S = true) (F : Type) [Field F] [LinearOrder F] [IsStrictOrderedRing F] (f : K →+* F) (hf : StrictMono f) (z : F × F) : R.Mem f z ↔ S.Mem f z :=
  mem_of_eqSet hR hS h hf z

/-- C81. The result of `polygon()` does not depend on random choices, on the order of the half spaces or on redundant half spaces. -/
theorem C81_canonical (pick pick' : Interval K → K) (hpick : PickOk pick) (hpick' : PickOk pick') (shuffle shuffle' : List (Geo K) → List (Geo K)) (hsh : ∀ l, (shuffle l).Perm l) (hsh' : ∀ l, (shuffle' l).Perm l)
    (l m : List (Geo K)) (hl : l ≠ []) (hm : m ≠ []) (vl : ∀ g ∈ l, g.a * g.a < g.b * g.b + g.c * g.c) (vm : ∀ g ∈ m, g.a * g.a < g.b * g.b + g.c * g.c)
    (h : ∀ z : K × K, z.1 * z.1 + z.2 * z.2 ≤ 1 → ((∀ g ∈ l, 0 ≤ g.a + g.b * z.1 + g.c * z.2) ↔ ∀ g ∈ m, 0 ≤ g.a + g.b * z.1 + g.c * z.2)) :
    ∃ R S, hypPolygon pick shuffle l = .ok R ∧ hypPolygon pick' shuffle' m = .ok S ∧ R.eqSet S = true := by
  obtain ⟨R, r1, r2, r3⟩ := C80_polygon pick hpick shuffle hsh l hl vl
  obtain ⟨S, s1, s2, s3⟩ := C80_polygon pick' hpick' shuffle' hsh' m hm vm
  refine ⟨R, S, r1, s1, (C81_equal R S r2 s2).2 fun z => ?_⟩
  rw [r3 K (RingHom.id K) strictMono_ringHom_id z, s3 K (RingHom.id K) strictMono_ringHom_id z]
  exact and_congr_right fun hz => h z hz

/-- C81. `is_subset()` never fails and decides inclusion: if it returns true, all points over all extensions are contained; if it returns false, there is a point over the base field that is not contained. -/
theorem C81_subset (pick : Interval K → K) (hpick : PickOk pick) (shuffle : List (Geo K) → List (Geo K)) (hsh : ∀ l, (shuffle l).Perm l) (R S : ConvexSet K) (hR : R.Reduced) (hS : S.Reduced) :
    ∃ b, isSubset pick shuffle R S = .ok b ∧
      (b = true → ∀ (F : Type) [Field F] [LinearOrder F] [IsStrictOrderedRing F] (f : K →+* F), StrictMono f → ∀ z : F × F, R.Mem f z → S.Mem f z) ∧
      (b = false → ∃ z : K × K, R.Mem (RingHom.id K) z ∧ ¬S.Mem (RingHom.id K) z) :=
  isSubset_spec hpick hsh hR hS

/-- C81. `dimension()` is monotone. -/
theorem C81_dimension (R S : ConvexSet K) (hR : R.Reduced) (hS : S.Reduced) (h : ∀ z : K × K, R.Mem (RingHom.id K) z → S.Mem (RingHom.id K) z) : R.dimension ≤ S.dimension := dimension_mono hR hS h

example : (ConvexSet.segment ⟨0, 1, 0⟩ none (some (0, -1/2)) : ConvexSet ℚ).eqSet (.segment ⟨0, -2, 0⟩ (some (0, -1/2)) none) = true := by decide +kernel

example : isSubset pickMiddle id (.segment ⟨0, 1, 0⟩ none (some (0, -1/2))) (.halfSpace ⟨1/2, 1, 1⟩ : ConvexSet ℚ) = .ok true := by decide +kernel

example : isSubset pickMiddle id (.segment ⟨0, 1, 0⟩ none (some (0, -1/2))) (.halfSpace ⟨1/3, 1, 1⟩ : ConvexSet ℚ) = .ok false := by decide +kernel

/-- The hypotheses of the theorems are met by any result of `polygon()`, here a square. -/
example : (ConvexSet.polygon [⟨1/2, -1, 0⟩, ⟨1/2, 0, -1⟩, ⟨1/2, 1, 0⟩, ⟨1/2, 0, 1⟩] : ConvexSet ℚ).Reduced := by
  obtain ⟨R, h1, h2, -⟩ := C80_polygon pickMiddle pickMiddle_ok List.reverse List.reverse_perm squareHalfSpaces (by simp [squareHalfSpaces]) (by decide +kernel)
  have : hypPolygon pickMiddle List.reverse squareHalfSpaces = .ok (.polygon [⟨1/2, -1, 0⟩, ⟨1/2, 0, -1⟩, ⟨1/2, 1, 0⟩, ⟨1/2, 0, 1⟩]) := by decide +kernel
  rw [this] at h1
  cases h1
  exact h2

end Props
end Hyp
end Flat
