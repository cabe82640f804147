import Verif.Model.SymplecticBasis
import Verif.Lemmas.PerfectPairing
import Verif.Lemmas.SymplecticForms
import Verif.Props.HomologyGroup

/-!
# C71: the intersection form is a perfect pairing and has symplectic bases
-/

namespace Flat
namespace RSurf
open Duality Betti Module
variable {L K : Type} [Field K] [LinearOrder K] [IsStrictOrderedRing K] {S : RSurf L K} {valid : L → Prop} [DecidableEq L]

/-- Surfaces without edges that are glued to themselves: `algebraic_intersection` defines an alternating form on the first homology that is a perfect
pairing, i.e., every linear form on homology is the intersection with a unique class. -/
theorem C71_perfect_partial (hS : S.Closed valid) (hc : S.Joined valid) (hself : ∀ d, S.IsDart valid d → S.opp d.1 d.2 ≠ .ok (some d)) {ls : List L}
    (hn : ls.Nodup) (hls : ∀ l, l ∈ ls ↔ valid l) (hne : ls ≠ []) {es : List (L × ℕ)} (he : S.edges ls = .ok es) {fuel : ℕ}
    (hf : es.length + 1 < fuel) {starts : List (L × ℕ)} (hst : S.IsStarts valid starts)
    (R : Type) [CommRing R] [IsDomain R] [IsPrincipalIdealRing R] [DecidableEq R] :
    ∃ (vx : List (Finset (L × Vec K))) (sx : List (L × ℕ)) (M1 M2 : List (List R)) (g : ℕ), S.simplices0 fuel ∅ ls = .ok vx ∧ S.simplices1 ls = .ok sx ∧
      S.chainRows1 R fuel ∅ sx vx = .ok M1 ∧ S.chainRows2 R ls sx = .ok M2 ∧ S.genus fuel ls = .ok g ∧
      Nonempty (Homology1 M1 M2 ls.length sx.length vx.length ≃ₗ[R] (Fin (2 * g) → R)) ∧
      ∃ B : Homology1 M1 M2 ls.length sx.length vx.length →ₗ[R] Homology1 M1 M2 ls.length sx.length vx.length →ₗ[R] R,
        (∀ x y : LinearMap.ker (rowMap M1 sx.length vx.length), S.algebraicIntersection fuel starts (chainOf sx x.1) (chainOf sx y.1) =
          .ok (B (Submodule.Quotient.mk x) (Submodule.Quotient.mk y))) ∧ B.IsPerfPair ∧ B.IsAlt := by
  obtain ⟨vx, sx, M1, M2, g, h1, h2, h3, h4, h5, h6, -⟩ := C70_homology_partial hS hc hself hn hls hne he hf ∅ (by simp) R
  refine ⟨vx, sx, M1, M2, g, h1, h2, h3, h4, h5, by simpa using h6, ?_⟩
  obtain ⟨es', he', hnd, hmem⟩ := edges_spec hS.bordered ls hn (fun l hl => (hls l).1 hl)
  rw [he] at he'; injection he' with he'; subst he'
  have hes : ∀ d, d ∈ es ↔ S.IsDart valid d := fun d => by
    rw [hmem]
    exact ⟨fun h => h.2, fun h => ⟨(hls _).2 h.1, h⟩⟩
  obtain ⟨sx', q1, q2, q3, q4, q5⟩ := simplices1_spec hS hn hls
  rw [h2] at q1; injection q1 with q1; subst q1
  have hV : ∀ d, ∃ x, S.IsDart valid d → S.surfaceVertex fuel d = .ok x := by
    intro d
    by_cases hd : S.IsDart valid d
    · obtain ⟨x, hx⟩ := surfaceVertex_defined hS.bordered (fun d hd => (hes d).2 hd) hf hd
      exact ⟨x, fun _ => hx⟩
    · exact ⟨∅, fun h => absurd h hd⟩
  choose V hV using hV
  obtain ⟨vs, hvs, hvn, hvm, -⟩ := vertices_spec hS he hes hV
  have hvx : vx = vs := by
    unfold simplices0 at h1
    rw [hvs] at h1
    injection h1 with h1
    rw [← h1]
    simp
  subst hvx
  rw [chainRows1_eq hS ∅ hV q3 vx] at h3
  injection h3 with h3
  subst h3
  rw [chainRows2_eq hS q3 q4 q5 fun l hl => (hls l).1 hl] at h4
  injection h4 with h4
  subst h4
  haveI := dart_finite hes
  haveI := Fintype.ofFinite {d // S.IsDart valid d}
  have hself' : ∀ d, S.IsDart valid d → S.oppF d ≠ d := by
    intro d hd h
    apply hself d hd
    rw [hS.opp_oppF hd, h]
  obtain ⟨l0, hl0⟩ := List.exists_mem_of_ne_nil _ hne
  have hd0 : ∃ d0, S.IsDart valid d0 := by
    obtain ⟨p, hp, hv⟩ := hS.poly l0 ((hls _).1 hl0)
    have := hv.len3
    exact ⟨(l0, 0), (hls _).1 hl0, p, hp, by dsimp only; omega⟩
  obtain ⟨d0, hd0⟩ := hd0
  exact perfect_pairing hS hc hself' hd0 hes (by omega : es.length < fuel) hst q2 q3 q4 q5
    (ker_closed_iff hS hV q2 q3 hvn (fun d hd => (hvm _).2 ⟨d, hd, rfl⟩) fun v hv => (hvm v).1 hv) (range_face_iff hS q3 hself' hn hls)

theorem chainOf_sum {R : Type} [CommRing R] {sx : List (L × ℕ)} {n : ℕ} (r : Fin n → R) (x : Fin n → Fin sx.length → R) :
    ∑ j, r j • chainOf sx (x j) = chainOf sx (∑ j, r j • x j) := by
  classical
  have key : ∀ s : Finset (Fin n), ∑ j ∈ s, r j • chainOf sx (x j) = chainOf sx (∑ j ∈ s, r j • x j) := by
    intro s
    induction s using Finset.induction_on with
    | empty => funext d; simp [chainOf]
    | insert a s ha ih => rw [Finset.sum_insert ha, Finset.sum_insert ha, ih, chainOf_add, chainOf_smul]
  exact key _

/-- The computation of a symplectic basis for generators whose intersections are those of a perfect alternating form. -/
theorem symplecticBasis_spec {R : Type} [CommRing R] [IsDomain R] [DecidableEq R] {fuel : ℕ} {starts : List (L × ℕ)} {sx : List (L × ℕ)}
    {Z : Submodule R (Fin sx.length → R)} {W : Submodule R Z} {B : (Z ⧸ W) →ₗ[R] (Z ⧸ W) →ₗ[R] R} (hp : B.IsPerfPair) (ha : B.IsAlt)
    (hB : ∀ x y : Z, S.algebraicIntersection fuel starts (chainOf sx x.1) (chainOf sx y.1) = .ok (B (Submodule.Quotient.mk x) (Submodule.Quotient.mk y)))
    {normal : R → Prop} (hnormal : ∀ r, normal r → IsUnit r → r = 1) {n : ℕ} {sage : List (List R) → List (List R) × List (List R)}
    (z : Fin n → Z) (hsage : ∀ E : List (List R), S.intersectionRows fuel starts ((List.finRange n).map fun i => chainOf sx (z i).1) = .ok E → E.length = n →
      (∀ row ∈ E, row.length = n) → (ofRows n E).transpose = - ofRows n E → (∀ i, ofRows n E i i = 0) → IsSymplecticForm normal n E (sage E).1 (sage E).2)
    (v : Basis (Fin n) R (Z ⧸ W)) (hv : ∀ i, v i = Submodule.Quotient.mk (z i)) :
    ∃ (u : Fin n → Z) (w : Basis (Fin n) R (Z ⧸ W)) (k : ℕ), (∀ i, w i = Submodule.Quotient.mk (u i)) ∧ n = 2 * k ∧
      S.symplecticBasis fuel starts sage ((List.finRange n).map fun i => chainOf sx (z i).1) = .ok ((List.finRange n).map fun i => chainOf sx (u i).1) ∧
      ∀ a b : Fin n, S.algebraicIntersection fuel starts (chainOf sx (u a).1) (chainOf sx (u b).1) =
        .ok (if b.1 = a.1 + k then 1 else if a.1 = b.1 + k then -1 else 0) := by
  set E : List (List R) := (List.finRange n).map fun i => (List.finRange n).map fun j => B (v i) (v j) with hE
  have hEm : ofRows n E = Matrix.of fun i j => B (v i) (v j) := ofRows_map _
  have hrows : S.intersectionRows fuel starts ((List.finRange n).map fun i => chainOf sx (z i).1) = .ok E := by
    unfold intersectionRows
    rw [List.mapM_map]
    refine mapM_ok_map fun i _ => ?_
    show List.mapM _ _ = _
    rw [List.mapM_map]
    refine mapM_ok_map fun j _ => ?_
    show S.algebraicIntersection fuel starts (chainOf sx (z i).1) (chainOf sx (z j).1) = _
    rw [hB, hv, hv]
  obtain ⟨hF, hC, hCu, hform, k, d, hd, hs⟩ := hsage E hrows (by simp [hE]) (by
      intro row hr
      obtain ⟨i, -, rfl⟩ := List.mem_map.1 hr
      simp) (by
      rw [hEm]
      ext i j
      exact (ha.neg (v i) (v j)).symm) (by
      intro i
      rw [hEm]
      exact ha (v i))
  generalize hsE : sage E = FC at *
  obtain ⟨F, C⟩ := FC
  dsimp only at hF hC hCu hform hs
  have hFu : IsUnit (ofRows n F) := by
    rw [hform, hEm]
    refine (hCu.mul (gram_unit hp v)).mul ?_
    rw [Matrix.isUnit_iff_isUnit_det, Matrix.det_transpose]
    exact (Matrix.isUnit_iff_isUnit_det _).1 hCu
  obtain ⟨hk, hunit⟩ := symplectic_unit hFu hs
  have hone : ∀ a, a < k → a < n → d a = 1 := fun a h1 h2 => hnormal _ (hd a h1).2 (hunit a h1 h2)
  -- the entries
  have hs' : ∀ a b : Fin n, ofRows n F a b = if b.1 = a.1 + k then 1 else if a.1 = b.1 + k then -1 else 0 := by
    intro a b
    have h1 := a.2
    have h2 := b.2
    have h3 := hk (by omega)
    rw [hs]
    by_cases e1 : b.1 = a.1 + k
    · rw [if_pos ⟨by omega, e1⟩, if_pos e1, hone _ (by omega) (by omega)]
    · rw [if_neg (fun h => e1 h.2), if_neg e1]
      by_cases e2 : a.1 = b.1 + k
      · rw [if_pos ⟨by omega, e2⟩, if_pos e2, hone _ (by omega) (by omega)]
      · rw [if_neg (fun h => e2 h.2), if_neg e2]
  have hany : (F.any fun row => row.any fun entry => entry ∉ [(-1 : R), 0, 1]) = false := by
    rw [List.any_eq_false]
    intro row hrow
    rw [Bool.not_eq_true, List.any_eq_false]
    intro entry he
    obtain ⟨i, hi, rfl⟩ := List.getElem_of_mem hrow
    obtain ⟨j, hj, rfl⟩ := List.getElem_of_mem he
    obtain ⟨hi', hj', e⟩ := ofRows_get hF i j hi hj
    rw [e, hs']
    split_ifs <;> simp
  obtain ⟨w, hw⟩ := basis_change v hCu
  have hwu : ∀ i, w i = Submodule.Quotient.mk (∑ j, ofRows n C i j • z j) := by
    intro i
    rw [hw]
    simp only [hv, ← Submodule.Quotient.mk_smul]
    exact (map_sum W.mkQ _ _).symm
  have hBw : ∀ a b, B (w a) (w b) = ofRows n F a b := by
    intro a b
    rw [hform, hEm, hw, hw]
    simp only [map_sum, LinearMap.sum_apply, map_smul, LinearMap.smul_apply, smul_eq_mul, Matrix.mul_apply, Matrix.transpose_apply, Matrix.of_apply]
    refine Finset.sum_congr rfl fun j _ => ?_
    rw [mul_comm]
  have hout : C.map (fun row => ((row.zip ((List.finRange n).map fun i => chainOf sx (z i).1)).map fun cg => cg.1 • cg.2).sum) =
      (List.finRange n).map fun i => chainOf sx (∑ j, ofRows n C i j • z j : Z).1 := by
    refine List.ext_getElem (by simp [hC.1]) fun i h1 h2 => ?_
    rw [List.length_map] at h1
    have hl := hC.2 C[i] (List.getElem_mem h1)
    rw [List.getElem_map, zip_sum hl, List.getElem_map, chainOf_sum]
    congr 1
    rw [Submodule.coe_sum]
    refine Finset.sum_congr rfl fun j _ => ?_
    obtain ⟨hi', hj', e⟩ := ofRows_get hC i j.1 h1 (by omega)
    rw [e]
    simp
  refine ⟨fun i => ∑ j, ofRows n C i j • z j, w, n / 2, hwu, ?_, ?_, ?_⟩
  · rcases Nat.eq_zero_or_pos n with h0 | h0
    · omega
    · have := hk h0
      omega
  · unfold symplecticBasis
    rw [hrows]
    simp only [bind, Except.bind, hsE, hany, Bool.false_eq_true, if_false, pure, Except.pure]
    rw [hout]
  · intro a b
    have h0 := hk (by have := a.2; omega)
    have h1 : n / 2 = k := by omega
    rw [hB, ← hwu, ← hwu, hBw, hs', h1]

/-- Surfaces without edges that are glued to themselves: `symplectic_basis` returns, for every choice of generators that are a basis of homology, a
basis of homology whose intersections are those of a symplectic basis. -/
theorem C71_symplectic_partial (hS : S.Closed valid) (hc : S.Joined valid) (hself : ∀ d, S.IsDart valid d → S.opp d.1 d.2 ≠ .ok (some d)) {ls : List L}
    (hn : ls.Nodup) (hls : ∀ l, l ∈ ls ↔ valid l) (hne : ls ≠ []) {es : List (L × ℕ)} (he : S.edges ls = .ok es) {fuel : ℕ}
    (hf : es.length + 1 < fuel) {starts : List (L × ℕ)} (hst : S.IsStarts valid starts)
    (R : Type) [CommRing R] [IsDomain R] [IsPrincipalIdealRing R] [DecidableEq R] {normal : R → Prop} (hnormal : ∀ r, normal r → IsUnit r → r = 1)
    (sage : List (List R) → List (List R) × List (List R)) :
    ∃ (vx : List (Finset (L × Vec K))) (sx : List (L × ℕ)) (M1 M2 : List (List R)) (g : ℕ), S.simplices0 fuel ∅ ls = .ok vx ∧ S.simplices1 ls = .ok sx ∧
      S.chainRows1 R fuel ∅ sx vx = .ok M1 ∧ S.chainRows2 R ls sx = .ok M2 ∧ S.genus fuel ls = .ok g ∧
      ∀ (n : ℕ) (z : Fin n → LinearMap.ker (rowMap M1 sx.length vx.length)) (v : Basis (Fin n) R (Homology1 M1 M2 ls.length sx.length vx.length)),
        (∀ i, v i = Submodule.Quotient.mk (z i)) →
        (∀ E : List (List R), S.intersectionRows fuel starts ((List.finRange n).map fun i => chainOf sx (z i).1) = .ok E → E.length = n →
          (∀ row ∈ E, row.length = n) → (ofRows n E).transpose = - ofRows n E → (∀ i, ofRows n E i i = 0) →
          IsSymplecticForm normal n E (sage E).1 (sage E).2) → n = 2 * g ∧
        ∃ (u : Fin n → LinearMap.ker (rowMap M1 sx.length vx.length)) (w : Basis (Fin n) R (Homology1 M1 M2 ls.length sx.length vx.length)),
          (∀ i, w i = Submodule.Quotient.mk (u i)) ∧
          S.symplecticBasis fuel starts sage ((List.finRange n).map fun i => chainOf sx (z i).1) = .ok ((List.finRange n).map fun i => chainOf sx (u i).1) ∧
          ∀ a b : Fin n, S.algebraicIntersection fuel starts (chainOf sx (u a).1) (chainOf sx (u b).1) =
            .ok (if b.1 = a.1 + g then 1 else if a.1 = b.1 + g then -1 else 0) := by
  obtain ⟨vx, sx, M1, M2, g, h1, h2, h3, h4, h5, ⟨h6⟩, B, hB, hp, ha⟩ := C71_perfect_partial hS hc hself hn hls hne he hf hst R
  refine ⟨vx, sx, M1, M2, g, h1, h2, h3, h4, h5, fun n z v hv hsage => ?_⟩
  obtain ⟨u, w, k, hu, hk, hs, hi⟩ := symplecticBasis_spec (S := S) hp ha hB hnormal z hsage v hv
  have hng : n = 2 * g := by
    have e1 := finrank_eq_card_basis v
    have e2 := LinearEquiv.finrank_eq h6
    rw [Module.finrank_fin_fun] at e2
    rw [Fintype.card_fin] at e1
    omega
  have hkg : k = g := by omega
  subst hkg
  exact ⟨hk, u, w, hu, hs, hi⟩

end RSurf
end Flat
