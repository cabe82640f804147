import Verif.Lemmas.Swap

/-!
# Gluings given by a relation between edges
-/

namespace Flat
namespace MSurf
variable {L P : Type} [LinearOrder L] [NumVertices P]

/-- A symmetric functional relation on edges as a function. -/
theorem target_of_rel {t : MSurf L P} (R : L × ℕ → L × ℕ → Prop) (hsymm : ∀ x y, R x y → R y x)
    (hfun : ∀ x y z, R x y → R x z → y = z) (hedge : ∀ x y, R x y → t.IsEdge x.1 x.2) :
    ∃ G : L → ℕ → Option (L × Int), Target t G ∧
      ∀ l e c, G l e = some c ↔ ∃ k : ℕ, c.2 = k ∧ R (l, e) (c.1, k) := by
  classical
  refine ⟨fun l e => if h : ∃ y, R (l, e) y then some (h.choose.1, (h.choose.2 : Int)) else none, ?_⟩
  have key : ∀ l e c, (if h : ∃ y, R (l, e) y then some (h.choose.1, (h.choose.2 : Int)) else none) = some c ↔
      ∃ k : ℕ, c.2 = k ∧ R (l, e) (c.1, k) := by
    intro l e c
    split_ifs with h
    · constructor
      · intro hc
        injection hc with hc
        subst hc
        exact ⟨_, rfl, h.choose_spec⟩
      · rintro ⟨k, hk, hR⟩
        rw [← hfun _ _ _ hR h.choose_spec]
        simp [← hk]
    · constructor
      · intro hc; cases hc
      · rintro ⟨k, _, hR⟩; exact absurd ⟨_, hR⟩ h
  refine ⟨⟨?_, ?_⟩, key⟩
  · intro l e l' e' hc
    obtain ⟨k, hk, hR⟩ := (key _ _ _).1 hc
    exact ⟨k, hk, (key _ _ _).2 ⟨e, rfl, hsymm _ _ hR⟩⟩
  · intro l e c hc
    obtain ⟨k, hk, hR⟩ := (key _ _ _).1 hc
    exact hedge _ _ hR

/-- Gluing all the edges of one polygon. -/
theorem reglue {K : Type} [LabelNum L] [Field K] [LinearOrder K] [IsStrictOrderedRing K] {t : MSurf L (Poly K)} (hg : Good t)
    {G : L → ℕ → Option (L × Int)} (hT : Target t G) (hS : Sub t G) (l : L) (gl : List (L × Int))
    (hlen : ∀ e c, G l e = some c → e < gl.length) (hgl : ∀ i (hi : i < gl.length), G l i = some gl[i])
    (hold : ∀ x e c, x ≠ l → c.1 ≠ l → G x e = some c → t.opp x e = some c) :
    wp (glueAll l 0 gl) (fun _ t' => Good t' ∧ t'.polygons = t.polygons ∧ ∀ x e, t'.opp x e = G x e)
      (fun _ _ => ¬ FullRoots t) t := by
  refine wp_mono (glueAll_sub hg.1 hg.2.1 hg.2.2 hT hS l 0 gl (fun i hi => by rw [Nat.zero_add]; exact hgl i hi)) ?_ ?_
  · rintro _ t' ⟨g, h⟩
    refine ⟨⟨g.ginv, by rw [g.mutable, hg.2.1], g.rootsOK⟩, g.polygons, g.finish hT (fun x => x = l) ?_ ?_⟩
    · rintro x e c rfl hc
      have := h e (hlen e c hc)
      rw [Nat.zero_add] at this
      rw [this, ← hgl e (hlen e c hc), hc]
    · exact fun x e c hx hc => hold x e c hx hc
  · rintro x t' ⟨_, hf⟩
    exact hf

end MSurf
end Flat
