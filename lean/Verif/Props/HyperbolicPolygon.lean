import Verif.Lemmas.HalfSpaceSets
import Mathlib.Data.Rat.Defs
import Mathlib.Algebra.Order.Ring.Rat

/-!
# C80: Intersections of half spaces and of convex sets in the hyperbolic plane

Convex sets are described in the Klein model.
The points of the closed unit disk are the finite and the ideal points; their coordinates may be in a larger field `F` since ideal end points of geodesics are usually not defined over the base field.
-/

namespace Flat
namespace Hyp
namespace Props

variable {K : Type} [Field K] [LinearOrder K] [IsStrictOrderedRing K]

/-- C80. The order of the half spaces is irreflexive. -/
theorem C80_order_irrefl (g : Geo K) (hg : g.Valid) : halfSpaceLt g g = false := by
  have := halfSpaceLt_irrefl hg.proper
  simpa using this

/-- C80. The order of the half spaces is transitive. -/
theorem C80_order_trans (g h k : Geo K) (hg : g.Valid) (hh : h.Valid) (hk : k.Valid) (h1 : halfSpaceLt g h = true) (h2 : halfSpaceLt h k = true) : halfSpaceLt g k = true :=
  halfSpaceLt_trans hg.proper hh.proper hk.proper h1 h2

/-- C80. Half spaces are comparable unless they are the same half space. -/
theorem C80_order_total (g h : Geo K) (hg : g.Valid) (hh : h.Valid) : halfSpaceLt g h = true ∨ halfSpaceLt h g = true ∨ ∃ s : K, 0 < s ∧ h = ⟨s * g.a, s * g.b, s * g.c⟩ := by
  by_cases h1 : halfSpaceLt g h = true
  · exact .inl h1
  by_cases h2 : halfSpaceLt h g = true
  · exact .inr (.inl h2)
  exact .inr (.inr (halfSpaceLt_total hg.proper hh.proper h1 h2))

/-- C80. `polygon()` terminates without an error for any non-empty list of half spaces, in any order, and it returns exactly the intersection of the half spaces, whatever random choices it makes.
The result is minimal: the half spaces of a polygon are sorted, the polygon has interior points and none of its half spaces can be dropped. -/
theorem C80_polygon (pick : Interval K → K) (hpick : PickOk pick) (shuffle : List (Geo K) → List (Geo K)) (hshuffle : ∀ l, (shuffle l).Perm l) (l : List (Geo K)) (hne : l ≠ []) (hl : ∀ g ∈ l, g.a * g.a < g.b * g.b + g.c * g.c) :
    ∃ R, hypPolygon pick shuffle l = .ok R ∧ R.Reduced ∧
      ∀ (F : Type) [Field F] [LinearOrder F] [IsStrictOrderedRing F] (f : K →+* F), StrictMono f → ∀ z : F × F,
        R.Mem f z ↔ z.1 * z.1 + z.2 * z.2 ≤ 1 ∧ ∀ g ∈ l, 0 ≤ f g.a + f g.b * z.1 + f g.c * z.2 := by
  have hv : ∀ g ∈ l, g.Valid := fun g hg => by have := hl g hg; simp only [Geo.Valid]; nlinarith
  have hs := orderedSet_spec halfSpaceOrder (fun g hg => (hv g hg).proper)
  have hne' : orderedSet halfSpaceLt l ≠ [] := by
    intro h
    obtain ⟨a, l', rfl⟩ := List.exists_cons_of_ne_nil hne
    obtain ⟨k, hk, -⟩ := hs.all a (by simp)
    rw [h] at hk
    cases hk
  obtain ⟨R, r1, r2, r3⟩ := normalizePolygon_spec hpick hshuffle (fun g hg => hv g (hs.sub g hg)) hs.sorted hne'
  refine ⟨R, r1, r2, fun F _ _ _ f hf z => ?_⟩
  rw [r3 F f hf z, sortedOf_inAll hf hs z]
  rfl

/-- C80. No intersection is computed for the empty list, as documented. -/
theorem C80_polygon_nil (pick : Interval K → K) (shuffle : List (Geo K) → List (Geo K)) : hypPolygon pick shuffle [] = .error .notImplemented ∧ intersectSets pick shuffle [] = .error .notImplemented := ⟨rfl, rfl⟩

/-- C80. `intersection()` of any non-empty sequence of convex sets returns a set that contains exactly the points that are in all the sets. -/
theorem C80_intersection (pick : Interval K → K) (hpick : PickOk pick) (shuffle : List (Geo K) → List (Geo K)) (hshuffle : ∀ l, (shuffle l).Perm l) (sets : List (ConvexSet K)) (hne : sets ≠ []) (hR : ∀ S ∈ sets, S.Reduced) :
    ∃ R, intersectSets pick shuffle sets = .ok R ∧ R.Reduced ∧
      ∀ (F : Type) [Field F] [LinearOrder F] [IsStrictOrderedRing F] (f : K →+* F), StrictMono f → ∀ z : F × F, R.Mem f z ↔ ∀ S ∈ sets, S.Mem f z :=
  intersectSets_spec hpick hshuffle hR hne

/-- C80. `half_spaces()` of a convex set are half spaces whose intersection is that set. -/
theorem C80_half_spaces (R : ConvexSet K) (hR : R.Reduced) : (∀ g ∈ R.halfSpaces, g.a * g.a < g.b * g.b + g.c * g.c) ∧
    ∀ (F : Type) [Field F] [LinearOrder F] [IsStrictOrderedRing F] (f : K →+* F), StrictMono f → ∀ z : F × F,
      R.Mem f z ↔ z.1 * z.1 + z.2 * z.2 ≤ 1 ∧ ∀ g ∈ R.halfSpaces, 0 ≤ f g.a + f g.b * z.1 + f g.c * z.2 := by
  obtain ⟨-, h2, -, h4⟩ := halfSpaces_spec hR
  exact ⟨fun g hg => by have := h2 g hg; simp only [Geo.Valid] at this; nlinarith, fun F _ _ _ f hf z => h4 F f hf z⟩

/-- C80. The operator `in` decides whether a point with coordinates in the base field is in a convex set. -/
theorem C80_contains (R : ConvexSet K) (hR : R.Reduced) (p : K × K) (hp : p.1 * p.1 + p.2 * p.2 ≤ 1) : R.containsPoint p = true ↔ R.Mem (RingHom.id K) p := by
  rw [(halfSpaces_spec hR).2.2.2 K (RingHom.id K) strictMono_ringHom_id p]
  have hs : ∀ x : K, (sgn x ≥ 0) ↔ 0 ≤ x := by
    intro x
    rcases lt_trichotomy x 0 with h | h | h
    · simp [sgn, h, h.not_ge, h.ne]
    · simp [sgn, h]
    · simp [sgn, h, h.le, h.not_gt, h.ne']
  simp only [ConvexSet.containsPoint, List.all_eq_true, Geo.leftCoords, decide_eq_true_eq, hs]
  exact ⟨fun h => ⟨hp, fun g hg => h g hg⟩, fun h g hg => h.2 g hg⟩

/-- A way to pick an element of an interval. -/
def pickMiddle : Interval ℚ → ℚ
  | (some a, some b) => (a + b) / 2
  | (some a, none) => a
  | (none, some b) => b
  | _ => 0

theorem pickMiddle_ok : PickOk pickMiddle := by
  rintro ⟨_ | a, _ | b⟩ h
  · simp [Interval.Mem]
  · simp [Interval.Mem, pickMiddle]
  · simp [Interval.Mem, pickMiddle]
  · simp only [Interval.isEmpty, decide_eq_false_iff_not, not_lt] at h
    simp only [Interval.Mem, pickMiddle, Option.mem_def, Option.some.injEq, forall_eq', RingHom.id_apply]
    constructor <;> linarith

/-- A square with a redundant half space. -/
def squareHalfSpaces : List (Geo ℚ) := [⟨1/2, 1, 0⟩, ⟨1/2, -1, 0⟩, ⟨1/2, 0, 1⟩, ⟨1/2, 0, -1⟩, ⟨5/4, 1, 1⟩]

example : ∀ g ∈ squareHalfSpaces, g.a * g.a < g.b * g.b + g.c * g.c := by decide +kernel

example : hypPolygon pickMiddle List.reverse squareHalfSpaces = .ok (.polygon [⟨1/2, -1, 0⟩, ⟨1/2, 0, -1⟩, ⟨1/2, 1, 0⟩, ⟨1/2, 0, 1⟩]) := by decide +kernel

example : hypPolygon pickMiddle id [(⟨1/2, 1, 0⟩ : Geo ℚ), ⟨-1/2, -1, 0⟩, ⟨1/2, 0, 1⟩] = .ok (.segment ⟨1/2, 1, 0⟩ none (some (-1/2, -1/2))) := by decide +kernel

example : ∀ l : List (Geo ℚ), (List.reverse l).Perm l := List.reverse_perm

/-- A geodesic and two half spaces. -/
def someSets : List (ConvexSet ℚ) := [.geodesic ⟨0, 1, 0⟩, .halfSpace ⟨1/2, 0, 1⟩, .halfSpace ⟨1/2, 1, 1⟩]

example : someSets ≠ [] ∧ ∀ S ∈ someSets, S.Reduced := by
  refine ⟨by simp [someSets], fun S hS => ?_⟩
  simp only [someSets, List.mem_cons, List.not_mem_nil, or_false] at hS
  rcases hS with rfl | rfl | rfl <;> (simp only [ConvexSet.Reduced, Geo.Valid]; norm_num)

example : intersectSets pickMiddle id someSets = .ok (.segment ⟨0, 1, 0⟩ none (some (0, -1/2))) := by decide +kernel

example : intersectSets pickMiddle id (.point (0, 1/3) :: someSets) = .ok (.point (0, 1/3)) := by decide +kernel

example : intersectSets pickMiddle id (.halfSpace ⟨-3/4, 0, -1⟩ :: someSets) = .ok .empty := by decide +kernel

example : (ConvexSet.segment ⟨0, 1, 0⟩ none (some (0, -1/2)) : ConvexSet ℚ).containsPoint (0, 1/3) = true := by decide +kernel

end Props
end Hyp
end Flat
