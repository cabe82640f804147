import Verif.Lemmas.EdgeMap

/-!
# Changing the gluings of some polygons in place

`triangle_flip` glues the edges of two polygons again without ungluing them first.
-/

namespace Flat
namespace MSurf
variable {L P : Type} [LinearOrder L] [NumVertices P]

/-- `t` arises from `t0` by gluing edges in `E` along `G`: the edges in `D` are glued along `G` already, and the edges
that are not involved at all are glued along `G`. -/
structure Patch (G : L → ℕ → Option (L × Int)) (E D : L × ℕ → Prop) (t0 t : MSurf L P) : Prop
    extends SameTables t0 t where
  ginv : GInv t
  rootsOK : RootsOK t
  full : FullRoots t0 → FullRoots t
  closed : ∀ x, D x → ∀ c (k : ℕ), G x.1 x.2 = some (c, (k : Int)) → D (c, k)
  done : ∀ x, D x → t.opp x.1 x.2 = G x.1 x.2
  rest : ∀ x, ¬ E x → (∀ c (k : ℕ), G x.1 x.2 = some (c, (k : Int)) → ¬ E (c, k)) → t.opp x.1 x.2 = G x.1 x.2

theorem glue_patch {G : L → ℕ → Option (L × Int)} {E D : L × ℕ → Prop} {t0 t : MSurf L P} (h : Patch G E D t0 t)
    (hm : t0.mutable = true) (hG : Target t0 G) (l : L) (e : ℕ) (hE : E (l, e)) (c : L × Int)
    (hc : G l e = some c) :
    wp (glue (l, (e : Int)) c)
      (fun _ t' => Patch G E (fun x => D x ∨ x = (l, e) ∨ x = (c.1, c.2.toNat)) t0 t')
      (fun _ _ => ¬ FullRoots t0) t := by
  obtain ⟨l', e'⟩ := c
  obtain ⟨k, rfl, hk⟩ := hG.inv _ _ _ _ hc
  have hx : t.IsEdge l e := h.toSameTables.isEdge.2 (hG.edge _ _ _ hc)
  have hy : t.IsEdge l' k := h.toSameTables.isEdge.2 (hG.edge _ _ _ hk)
  simp only [Int.toNat_natCast]
  refine wp_mono (wp_and (wp_and (glue_spec h.ginv (l, e) (l', k)) (glue_roots h.ginv h.rootsOK (l, e) (l', k)))
    (glue_err h.ginv (by rw [h.mutable, hm]) (x := (l, e)) (y := (l', k)) hx hy)) ?_ ?_
  swap
  · rintro x t' ⟨⟨_, _, hf⟩, rfl, _⟩ hfull
    exact (hf (h.full hfull)).2 rfl
  rintro _ t' ⟨⟨⟨-, -, -, gs⟩, hr', hf'⟩, -⟩
  refine ⟨h.toSameTables.trans gs.toSameTables, gs.ginv h.ginv, hr', fun hf => hf' (h.full hf), ?_, ?_, ?_⟩
  · rintro x (hx | rfl | rfl) c' k' hc'
    · exact Or.inl (h.closed x hx c' k' hc')
    · rw [hc] at hc'
      simp only [Option.some.injEq, Prod.mk.injEq, Int.natCast_inj] at hc'
      obtain ⟨rfl, rfl⟩ := hc'
      exact Or.inr (Or.inr rfl)
    · rw [hk] at hc'
      simp only [Option.some.injEq, Prod.mk.injEq, Int.natCast_inj] at hc'
      obtain ⟨rfl, rfl⟩ := hc'
      exact Or.inr (Or.inl rfl)
  · intro x hD
    by_cases h1 : x = (l, e)
    · subst h1; rw [gs.opp_x, hc]
    by_cases h2 : x = (l', k)
    · subst h2; rw [gs.opp_y, hk]
    have hD' : D x := by tauto
    rw [gs.opp_other x.1 x.2 h1 h2, if_neg, h.done x hD']
    rintro (h3 | h3)
    · obtain ⟨k', h4, h5⟩ := h.ginv.inv _ _ _ _ h3
      rw [Int.natCast_inj] at h4
      subst h4
      rw [h.done x hD'] at h5
      obtain ⟨k', h6, h7⟩ := hG.inv _ _ _ _ h5
      rw [Int.natCast_inj] at h6
      subst h6
      rw [hc] at h7
      simp only [Option.some.injEq, Prod.mk.injEq, Int.natCast_inj] at h7
      exact h2 (Prod.ext h7.1.symm h7.2.symm)
    · obtain ⟨k', h4, h5⟩ := h.ginv.inv _ _ _ _ h3
      rw [Int.natCast_inj] at h4
      subst h4
      rw [h.done x hD'] at h5
      obtain ⟨k', h6, h7⟩ := hG.inv _ _ _ _ h5
      rw [Int.natCast_inj] at h6
      subst h6
      rw [hk] at h7
      simp only [Option.some.injEq, Prod.mk.injEq, Int.natCast_inj] at h7
      exact h1 (Prod.ext h7.1.symm h7.2.symm)
  · intro x hxE hxG
    have h1 : x ≠ (l, e) := fun h => hxE (by rw [h]; exact hE)
    have h2 : x ≠ (l', k) := by
      rintro rfl
      exact hxG l e hk hE
    rw [gs.opp_other x.1 x.2 h1 h2, if_neg, h.rest x hxE hxG]
    rintro (h3 | h3)
    · obtain ⟨k', h4, h5⟩ := h.ginv.inv _ _ _ _ h3
      rw [Int.natCast_inj] at h4
      subst h4
      rw [h.rest x hxE hxG] at h5
      exact hxG _ _ h5 hE
    · obtain ⟨k', h4, h5⟩ := h.ginv.inv _ _ _ _ h3
      rw [Int.natCast_inj] at h4
      subst h4
      rw [h.rest x hxE hxG] at h5
      obtain ⟨k', h6, h7⟩ := hG.inv _ _ _ _ h5
      rw [Int.natCast_inj] at h6
      subst h6
      rw [hk] at h7
      simp only [Option.some.injEq, Prod.mk.injEq, Int.natCast_inj] at h7
      exact hxE (by rw [show x = (l, e) from Prod.ext h7.1.symm h7.2.symm]; exact hE)

/-- When all edges in `E` have been glued along `G`, all edges are. -/
theorem Patch.finish {G : L → ℕ → Option (L × Int)} {E D : L × ℕ → Prop} {t0 t : MSurf L P} (h : Patch G E D t0 t)
    (hG : Target t0 G) (hE : ∀ x, E x → t0.IsEdge x.1 x.2 → D x) (l : L) (e : ℕ) : t.opp l e = G l e := by
  by_cases he : t0.IsEdge l e
  swap
  · have h1 : G l e = none := by
      cases hc : G l e with
      | none => rfl
      | some c => exact absurd (hG.edge _ _ _ hc) he
    have h2 : t.opp l e = none := by
      cases hc : t.opp l e with
      | none => rfl
      | some c => exact absurd (h.toSameTables.isEdge.1 (opp_isEdge h.shape hc)) he
    rw [h1, h2]
  by_cases h1 : E (l, e)
  · exact h.done (l, e) (hE _ h1 he)
  · by_cases h2 : ∀ c (k : ℕ), G l e = some (c, (k : Int)) → ¬ E (c, k)
    · exact h.rest (l, e) h1 h2
    · push Not at h2
      obtain ⟨c, k, h3, h4⟩ := h2
      obtain ⟨k', h5, h6⟩ := hG.inv _ _ _ _ h3
      rw [Int.natCast_inj] at h5
      subst h5
      exact h.done (l, e) (h.closed _ (hE _ h4 (hG.edge _ _ _ h6)) _ _ h6)

end MSurf
end Flat
