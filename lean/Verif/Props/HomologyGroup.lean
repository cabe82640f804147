import Verif.Lemmas.HomologyRows

/-!
# C70: the ranks of homology groups
-/

namespace Flat
namespace RSurf
open Betti Module
variable {L K : Type} [Field K] [LinearOrder K] [IsStrictOrderedRing K] {S : RSurf L K} {valid : L → Prop} [DecidableEq L]

/-- Ranks of all homology groups, also with edges that are glued to themselves. -/
theorem C70_ranks (hS : S.Closed valid) (hc : S.Joined valid) {ls : List L} (hn : ls.Nodup) (hls : ∀ l, l ∈ ls ↔ valid l) (hne : ls ≠ [])
    {es : List (L × ℕ)} (he : S.edges ls = .ok es) {fuel : ℕ} (hf : es.length + 1 < fuel) (rel : Finset (Finset (L × Vec K)))
    (hrel : ∀ x ∈ rel, ∃ d, S.IsDart valid d ∧ S.surfaceVertex fuel d = .ok x) (R : Type) [CommRing R] [IsDomain R] [IsPrincipalIdealRing R] :
    ∃ (vx : List (Finset (L × Vec K))) (sx : List (L × ℕ)) (M1 M2 : List (List R)) (g : ℤ), S.simplices0 fuel rel ls = .ok vx ∧ S.simplices1 ls = .ok sx ∧
      S.chainRows1 R fuel rel sx vx = .ok M1 ∧ S.chainRows2 R ls sx = .ok M2 ∧ S.genus fuel ls = .ok g ∧
      Module.Free R (Homology1 M1 M2 ls.length sx.length vx.length) ∧
      (finrank R (Homology1 M1 M2 ls.length sx.length vx.length) : ℤ) = 2 * g + (S.selfGlued valid - 1 : ℕ) + (rel.card - 1 : ℕ) ∧
      (rel = ∅ → Nonempty (Homology0 M1 sx.length vx.length ≃ₗ[R] R)) ∧
      (rel ≠ ∅ → Subsingleton (Homology0 M1 sx.length vx.length)) ∧
      Module.Free R (Homology2 M2 ls.length sx.length) ∧
      finrank R (Homology2 M2 ls.length sx.length) = (if S.selfGlued valid = 0 then 1 else 0) := by
  obtain ⟨vx, sx, M1, M2, h1, h2, h3, h4, h5, h6, h7, h8, h9, h10, h11, h12, -⟩ := chain_complex hS hc hn hls hne he hf rel hrel R
  have hχ := C32_euler_characteristic hS.bordered hn hls he (by omega : es.length < fuel)
  obtain ⟨χ, g, e1, e2, e3⟩ := C32_even hS hn hls he (by omega : es.length < fuel)
  rw [e1] at hχ
  injection hχ with hχ
  have hH : finrank R (Homology1 M1 M2 ls.length sx.length vx.length) + _ + _ = _ := finrank_homology _ _ h5
  rw [h11, Module.finrank_fin_fun, Module.finrank_fin_fun] at hH
  refine ⟨vx, sx, M1, M2, g, h1, h2, h3, h4, e3, h12, ?_, h10, ?_, inferInstance, h11⟩
  · by_cases h0 : rel = ∅
    · have := h8 h0
      subst h0
      rw [Finset.card_empty] at h6 ⊢
      split_ifs at hH <;> omega
    · have hr := h9 h0
      rw [hr, finrank_top, Module.finrank_fin_fun] at hH
      have hp : 0 < rel.card := Finset.card_pos.2 (Finset.nonempty_iff_ne_empty.2 h0)
      split_ifs at hH <;> omega
  · intro h0
    exact Submodule.Quotient.subsingleton_iff.2 (h9 h0)

/-- The genus of a connected closed surface is a natural number. -/
theorem C70_genus (hS : S.Closed valid) (hc : S.Joined valid) {ls : List L} (hn : ls.Nodup) (hls : ∀ l, l ∈ ls ↔ valid l) (hne : ls ≠ [])
    {es : List (L × ℕ)} (he : S.edges ls = .ok es) {fuel : ℕ} (hf : es.length + 1 < fuel) : ∃ g : ℕ, S.genus fuel ls = .ok g := by
  obtain ⟨vx, sx, M1, M2, -, -, -, -, -, h6, h7, -, -, -, -, -, h13⟩ := chain_complex hS hc hn hls hne he hf ∅ (by simp) ℤ
  have hχ := C32_euler_characteristic hS.bordered hn hls he (by omega : es.length < fuel)
  obtain ⟨χ, g, e1, e2, e3⟩ := C32_even hS hn hls he (by omega : es.length < fuel)
  rw [e1] at hχ
  injection hχ with hχ
  have := h13 rfl
  rw [Finset.card_empty] at h6
  have hg : 0 ≤ g := by omega
  obtain ⟨n, rfl⟩ := Int.eq_ofNat_of_zero_le hg
  exact ⟨n, by rw [e3]; norm_cast⟩

/-- Surfaces without edges that are glued to themselves: the first homology, possibly relative to vertices, is free of rank `2g`, or `2g + n - 1`
relative to `n` vertices; the other groups are those of a closed surface. -/
theorem C70_homology_partial (hS : S.Closed valid) (hc : S.Joined valid) (hself : ∀ d, S.IsDart valid d → S.opp d.1 d.2 ≠ .ok (some d)) {ls : List L}
    (hn : ls.Nodup) (hls : ∀ l, l ∈ ls ↔ valid l) (hne : ls ≠ []) {es : List (L × ℕ)} (he : S.edges ls = .ok es) {fuel : ℕ}
    (hf : es.length + 1 < fuel) (rel : Finset (Finset (L × Vec K))) (hrel : ∀ x ∈ rel, ∃ d, S.IsDart valid d ∧ S.surfaceVertex fuel d = .ok x)
    (R : Type) [CommRing R] [IsDomain R] [IsPrincipalIdealRing R] :
    ∃ (vx : List (Finset (L × Vec K))) (sx : List (L × ℕ)) (M1 M2 : List (List R)) (g : ℕ), S.simplices0 fuel rel ls = .ok vx ∧ S.simplices1 ls = .ok sx ∧
      S.chainRows1 R fuel rel sx vx = .ok M1 ∧ S.chainRows2 R ls sx = .ok M2 ∧ S.genus fuel ls = .ok g ∧
      Nonempty (Homology1 M1 M2 ls.length sx.length vx.length ≃ₗ[R] (Fin (2 * g + (rel.card - 1)) → R)) ∧
      (rel = ∅ → Nonempty (Homology0 M1 sx.length vx.length ≃ₗ[R] R)) ∧
      (rel ≠ ∅ → Subsingleton (Homology0 M1 sx.length vx.length)) ∧
      Nonempty (Homology2 M2 ls.length sx.length ≃ₗ[R] R) := by
  obtain ⟨vx, sx, M1, M2, g, h1, h2, h3, h4, h5, h6, h7, h8, h9, h10, h11⟩ := C70_ranks hS hc hn hls hne he hf rel hrel R
  have hs0 : S.selfGlued valid = 0 := by
    unfold selfGlued
    haveI : IsEmpty {d // S.IsDart valid d ∧ S.opp d.1 d.2 = .ok (some d)} := ⟨fun d => hself d.1 d.2.1 d.2.2⟩
    exact Nat.card_of_isEmpty
  rw [hs0, if_pos rfl] at h11
  rw [hs0] at h7
  obtain ⟨g', hg'⟩ := C70_genus hS hc hn hls hne he hf
  rw [h5] at hg'
  injection hg' with hg'
  have hg' : g = g' := by exact_mod_cast hg'
  subst hg'
  refine ⟨vx, sx, M1, M2, g', h1, h2, h3, h4, by rw [h5]; norm_cast, ?_, h8, h9, ?_⟩
  · refine ⟨LinearEquiv.ofFinrankEq _ _ ?_⟩
    rw [Module.finrank_fin_fun]
    omega
  · exact ⟨LinearEquiv.ofFinrankEq _ _ (by rw [h11, Module.finrank_self])⟩

end RSurf
end Flat
