import Verif.Props.HomologyClass
import Verif.Props.HomologyGroupExamples

/-!
# C77: homology classes of surfaces, examples
-/

namespace Flat
open Module
namespace RSurf
variable {L K : Type} [Field K] [LinearOrder K] [IsStrictOrderedRing K] {S : RSurf L K} {valid : L → Prop} [DecidableEq L]

/-- The first homology of a surface: whatever generators and lifts Sage picks, there are `2g` generators (`2g + n - 1` relative to `n` vertices), the classes
with coefficients are those of the chains without boundary, and two of them are equal if and only if they differ by the boundary of a chain of polygons. -/
theorem C77_surface_partial (hS : S.Closed valid) (hc : S.Joined valid) (hself : ∀ d, S.IsDart valid d → S.opp d.1 d.2 ≠ .ok (some d)) {ls : List L}
    (hn : ls.Nodup) (hls : ∀ l, l ∈ ls ↔ valid l) (hne : ls ≠ []) {es : List (L × ℕ)} (he : S.edges ls = .ok es) {fuel : ℕ}
    (hf : es.length + 1 < fuel) (rel : Finset (Finset (L × Vec K))) (hrel : ∀ x ∈ rel, ∃ d, S.IsDart valid d ∧ S.surfaceVertex fuel d = .ok x)
    (R : Type) [CommRing R] [IsDomain R] [IsPrincipalIdealRing R] :
    ∃ (vx : List (Finset (L × Vec K))) (sx : List (L × ℕ)) (M1 M2 : List (List R)) (g : ℕ), S.simplices0 fuel rel ls = .ok vx ∧ S.simplices1 ls = .ok sx ∧
      S.chainRows1 R fuel rel sx vx = .ok M1 ∧ S.chainRows2 R ls sx = .ok M2 ∧ S.genus fuel ls = .ok g ∧
      Nonempty (Basis (Fin (2 * g + (rel.card - 1))) R (Homology1 M1 M2 ls.length sx.length vx.length)) ∧
      ∀ (m : ℕ) (basis : Basis (Fin m) R (Homology1 M1 M2 ls.length sx.length vx.length))
        (lift : Homology1 M1 M2 ls.length sx.length vx.length → LinearMap.ker (rowMap M1 sx.length vx.length)) (hl : ∀ x, Submodule.Quotient.mk (lift x) = x),
        (homologyGroup M1 M2 _ _ _ basis lift hl).gens.length = 2 * g + (rel.card - 1) ∧
        (∀ x : Fin sx.length → R, (∃ c, (homologyGroup M1 M2 _ _ _ basis lift hl).coefficients x = .ok c) ↔
          S.boundary1 fuel rel (items sx (chainOf sx x)) = .ok 0) ∧
        ∀ x y : Fin sx.length → R, S.boundary1 fuel rel (items sx (chainOf sx x)) = .ok 0 → S.boundary1 fuel rel (items sx (chainOf sx y)) = .ok 0 →
          ((homologyGroup M1 M2 _ _ _ basis lift hl).eq x y = .ok true ↔ ∃ w : L → R, S.boundary2 sx (items ls w) = .ok (chainOf sx (x - y))) := by
  obtain ⟨vx, sx, M1, M2, g, h1, h2, h3, h4, h5, ⟨e⟩, -⟩ := C70_homology_partial hS hc hself hn hls hne he hf rel hrel R
  refine ⟨vx, sx, M1, M2, g, h1, h2, h3, h4, h5, ⟨Basis.ofEquivFun e⟩, fun m basis lift hl => ⟨?_, fun x => ?_, fun x y hx hy => ?_⟩⟩
  · rw [HGroup.gens_length]
    show m = _
    have := Module.finrank_eq_card_basis basis
    rw [Module.finrank_eq_card_basis (Basis.ofEquivFun e), Fintype.card_fin, Fintype.card_fin] at this
    exact this.symm
  · rw [← mem_cycles hS hn hls he hf h1 h2 h3]
    constructor
    · rintro ⟨c, h⟩
      by_contra hx
      rw [HGroup.coefficients_not (homologyGroup M1 M2 _ _ _ basis lift hl) hx] at h
      cases h
    · intro hx
      exact ⟨_, HGroup.coefficients_ok (homologyGroup M1 M2 _ _ _ basis lift hl) ⟨x, hx⟩⟩
  · rw [← mem_cycles hS hn hls he hf h1 h2 h3] at hx hy
    rw [← mem_boundaries hS hn hls h2 h4]
    exact ((homologyGroup M1 M2 _ _ _ basis lift hl).eq_true_iff ⟨x, hx⟩ ⟨y, hy⟩).trans ((homologyGroup M1 M2 _ _ _ basis lift hl).coord_eq_iff ⟨x, hx⟩ ⟨y, hy⟩)

/-- Boundaries are cycles. -/
theorem boundaries_le_cycles (hS : S.Closed valid) (hc : S.Joined valid) {ls : List L} (hn : ls.Nodup) (hls : ∀ l, l ∈ ls ↔ valid l) (hne : ls ≠ [])
    {es : List (L × ℕ)} (he : S.edges ls = .ok es) {fuel : ℕ} (hf : es.length + 1 < fuel) {rel : Finset (Finset (L × Vec K))}
    (hrel : ∀ x ∈ rel, ∃ d, S.IsDart valid d ∧ S.surfaceVertex fuel d = .ok x) {R : Type} [CommRing R] [IsDomain R] [IsPrincipalIdealRing R]
    {vx : List (Finset (L × Vec K))} {sx : List (L × ℕ)} {M1 M2 : List (List R)} (h1 : S.simplices0 fuel rel ls = .ok vx) (h2 : S.simplices1 ls = .ok sx)
    (h3 : S.chainRows1 R fuel rel sx vx = .ok M1) (h4 : S.chainRows2 R ls sx = .ok M2) :
    LinearMap.range (rowMap M2 ls.length sx.length) ≤ LinearMap.ker (rowMap M1 sx.length vx.length) := by
  obtain ⟨vx', sx', M1', M2', k1, k2, k3, k4, k5, -⟩ := chain_complex hS hc hn hls hne he hf rel hrel R
  rw [h1] at k1; cases k1
  rw [h2] at k2; cases k2
  rw [h3] at k3; cases k3
  rw [h4] at k4; cases k4
  exact LinearMap.range_le_ker_iff.2 k5

/-- The homology of the surface `exThree` of genus 2. -/
theorem exThree_group : ∃ G : HGroup ℤ, G.n = 6 ∧ G.m = 4 ∧ G.B ≤ G.Z ∧ ∃ x ∈ G.B, x ≠ 0 := by
  obtain ⟨es, hes, hl⟩ : ∃ es, exThree.edges [0, 1, 2] = .ok es ∧ es.length = 12 := ⟨_, rfl, rfl⟩
  obtain ⟨vx, sx, M1, M2, g, h1, h2, h3, h4, h5, ⟨b⟩, h6⟩ := C77_surface_partial exThree_closed exThree_joined exThree_not_self (ls := [0, 1, 2]) (by decide)
    (by decide) (by decide) hes (fuel := 14) (by omega) ∅ (by simp) ℤ
  have hg : exThree.genus 14 [0, 1, 2] = .ok 2 := by decide +kernel
  rw [hg] at h5
  injection h5 with h5
  have h5 : g = 2 := by exact_mod_cast h5.symm
  subst h5
  have hsx : exThree.simplices1 [0, 1, 2] = .ok [(0, 0), (0, 1), (0, 2), (0, 3), (1, 0), (2, 1)] := by decide +kernel
  rw [hsx] at h2
  injection h2 with h2
  subst h2
  let lift : Homology1 M1 M2 3 6 vx.length → LinearMap.ker (rowMap M1 6 vx.length) := fun x => (Submodule.Quotient.mk_surjective _ x).choose
  have hlift : ∀ x, Submodule.Quotient.mk (lift x) = x := fun x => (Submodule.Quotient.mk_surjective _ x).choose_spec
  obtain ⟨k1, k2, k3⟩ := h6 _ b lift hlift
  refine ⟨homologyGroup M1 M2 _ _ _ b lift hlift, rfl, rfl, ?_, ?_⟩
  · exact boundaries_le_cycles exThree_closed exThree_joined (ls := [0, 1, 2]) (by decide) (by decide) (by decide) hes (fuel := 14) (by omega) (by simp) h1
      hsx h3 h4
  · have hM : exThree.chainRows2 ℤ [0, 1, 2] [(0, 0), (0, 1), (0, 2), (0, 3), (1, 0), (2, 1)] =
        .ok [[1, 1, 1, 1, 0, 0], [0, -1, 0, -1, 0, 0], [-1, 0, -1, 0, 0, 0]] := by decide +kernel
    rw [hM] at h4
    cases h4
    refine ⟨_, ⟨Pi.single 0 1, rfl⟩, fun h => ?_⟩
    have := congrFun h 0
    rw [rowMap_single] at this
    exact absurd (show (1 : ℤ) * 1 = 0 from this) (by decide)

/-- `C77_surface_partial` and `C77_bool_violation` in genus 2: there is a class that is equal to zero with `bool()` true. -/
example : ∃ (G : HGroup ℤ) (x : G.Chain), G.m = 4 ∧ G.eq x 0 = .ok true ∧ G.bool x = true := by
  obtain ⟨G, -, h2, h3, x, hx, h0⟩ := exThree_group
  exact ⟨G, x, h2, G.C77_bool_violation x h3 hx h0⟩

/-- The theorems about classes in genus 2: a class with coefficients `(1, 0, 0, 0)` that is not a generator by construction, cohomology classes with different
values. -/
example : ∃ G : HGroup ℤ, G.m = 4 ∧ (∃ x ∈ G.Z, ∃ y ∈ G.Z, x ≠ y ∧ G.eq x y = .ok true) ∧ (∃ x ∈ G.Z, ∃ y ∈ G.Z, G.eq x y = .ok false) ∧
    (∃ γ γ' : G.Chain, γ ∈ G.gens ∧ γ' ∈ G.gens ∧ γ ≠ γ') := by
  obtain ⟨G, -, h2, h3, x, hx, h0⟩ := exThree_group
  refine ⟨G, h2, ⟨x, h3 hx, 0, Submodule.zero_mem _, h0, (G.C77_bool_violation x h3 hx h0).1⟩, ?_⟩
  have hne : G.coord (G.gen ⟨0, by omega⟩) ≠ G.coord (G.gen ⟨1, by omega⟩) := by
    rw [G.coord_gen, G.coord_gen]
    intro h
    have := Cochain.single_injective h
    simp at this
  exact ⟨⟨_, (G.gen ⟨0, by omega⟩).2, _, (G.gen ⟨1, by omega⟩).2, G.eq_false _ _ hne⟩, _, _, List.mem_map.2 ⟨⟨0, by omega⟩, List.mem_finRange _, rfl⟩,
    List.mem_map.2 ⟨⟨1, by omega⟩, List.mem_finRange _, rfl⟩, fun h => hne (congrArg G.coord (Subtype.ext h))⟩

end RSurf
end Flat
