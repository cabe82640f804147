import Verif.Lemmas.Rebuild

/-!
# Replacing polygons of a surface: remove, add, glue again
-/

namespace Flat
namespace MSurf
variable {L K : Type} [LinearOrder L] [LabelNum L] [Field K] [LinearOrder K] [IsStrictOrderedRing K]

/-- The state after a polygon was removed, in terms of the gluings that are left. -/
theorem removePolygon_left {s : MSurf L (Poly K)} (hs : Good s) (l : L) (hl : l ∈ s.polygons.keys) :
    wp (removePolygon l) (fun _ t => Good t ∧ (∀ x, t.polygons.get x = if x = l then none else s.polygons.get x) ∧
      (∀ x e c, t.opp x e = some c ↔ s.opp x e = some c ∧ x ≠ l ∧ c.1 ≠ l) ∧
      t.roots = s.roots.filter (fun r => r ≠ l) ∧ t.nextLabel = s.nextLabel)
      (fun _ _ => False) s := by
  refine wp_mono (wp_and (removePolygon_spec hs.1 hs.2.1 l) (keeps_removePolygon hs l)) ?_ ?_
  · rintro _ t ⟨⟨_, hr⟩, hg⟩
    refine ⟨hg, fun x => ?_, fun x e c => ?_, hr.roots, hr.nextLabel⟩
    · rw [hr.polygons, Dict.get_erase _ hs.1.nodupP]
    · by_cases hx : x = l
      · subst hx
        rw [hr.own]
        simp
      · obtain ⟨h1, h2⟩ := hr.other x e hx
        by_cases hd : ∃ d, s.opp x e = some (l, d)
        · rw [h1 hd]
          obtain ⟨d, hd⟩ := hd
          rw [hd]
          constructor
          · intro h; cases h
          · rintro ⟨h, _, h3⟩
            injection h with h
            rw [← h] at h3
            exact absurd rfl h3
        · rw [h2 hd]
          refine ⟨fun h => ⟨h, hx, fun hc => hd ⟨c.2, by rw [h, ← hc]⟩⟩, fun h => h.1⟩
  · rintro x t ⟨⟨_, h', _⟩, _⟩
    exact h' hl

/-- The state after a polygon was added. -/
theorem addPolygon_more {s : MSurf L (Poly K)} (hs : Good s) (p : Poly K) (label : Option L)
    (hfree : ∀ l, label = some l → l ∉ s.polygons.keys) :
    wp (addPolygon p label) (fun l t => Good t ∧ (∀ l', label = some l' → l = l') ∧ l ∉ s.polygons.keys ∧
      (∀ x, t.polygons.get x = if x = l then some p else s.polygons.get x) ∧
      (∀ x e, t.opp x e = s.opp x e) ∧
      t.roots = (if s.roots = [] then [] else s.roots ++ [l])) (fun _ _ => False) s := by
  refine wp_mono (wp_and (addPolygon_spec hs.1.toShape p label) (keeps_addPolygon hs p label)) ?_ ?_
  · rintro l t ⟨⟨_, h1, ha⟩, hg⟩
    refine ⟨hg, h1, ha.fresh, fun x => ?_, ha.opp, ha.roots⟩
    rw [ha.polygons, Dict.get_set]
  · rintro e t ⟨⟨_, h' | ⟨_, l, hl, hl'⟩⟩, _⟩
    · rw [hs.2.1] at h'; cases h'.2
    · exact hfree l hl hl'

/-- When all edges with labels in `new` have been glued along `G` and the other gluings were there, the gluings
are those of `G`. -/
theorem Grown.finish {G : L → ℕ → Option (L × Int)} {t t' : MSurf L (Poly K)} (hG : Target t G)
    (g : Grown G t t') (new : L → Prop) (h1 : ∀ l e c, new l → G l e = some c → t'.opp l e = some c)
    (h2 : ∀ l e c, ¬ new l → ¬ new c.1 → G l e = some c → t.opp l e = some c) (l : L) (e : ℕ) :
    t'.opp l e = G l e := by
  cases hc : G l e with
  | none =>
    cases ho : t'.opp l e with
    | none => rfl
    | some c => rw [g.sub _ _ _ ho] at hc; cases hc
  | some c =>
    by_cases hl : new l
    · exact h1 l e c hl hc
    · by_cases hc' : new c.1
      · obtain ⟨l', e'⟩ := c
        obtain ⟨k, rfl, hk⟩ := hG.inv _ _ _ _ hc
        have := h1 l' k _ hc' hk
        obtain ⟨k', hk', h3⟩ := g.ginv.inv _ _ _ _ this
        rw [Int.natCast_inj] at hk'
        rw [hk']
        exact h3
      · exact g.keep _ _ _ (h2 l e c hl hc' hc)

end MSurf
end Flat
