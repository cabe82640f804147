import Verif.Lemmas.Batch

/-!
# Building a surface from a list of polygons and a list of gluings
-/

namespace Flat
namespace MSurf

theorem wp_ok {L P α : Type} {m : Act L P α} {Q : α → MSurf L P → Prop} {s : MSurf L P}
    (h : wp m Q (fun _ _ => False) s) : ∃ a t, m s = .ok a t ∧ Q a t := by
  unfold wp at h
  cases hm : m s with
  | ok a t => rw [hm] at h; exact ⟨a, t, rfl, h⟩
  | error e t => rw [hm] at h; exact h.elim

section
variable {L K : Type} [LinearOrder L] [LabelNum L] [Field K] [LinearOrder K] [IsStrictOrderedRing K]

/-- Adding polygons to a surface without polygons and gluing along an involution. -/
theorem rebuild_spec {s : MSurf L (Poly K)} (hs : Good s) (h0 : ∀ l, l ∉ s.polygons.keys)
    (ps : List (L × Poly K)) (hn : (Dict.keys ps).Nodup) (G : L → ℕ → Option (L × Int))
    (hinv : ∀ l (e : ℕ) l' e', G l e = some (l', e') → ∃ k : ℕ, e' = k ∧ G l' k = some (l, (e : Int)))
    (hedge : ∀ l e c, G l e = some c → ∃ p, Dict.get ps l = some p ∧ e < nv p)
    (gs : List ((L × Int) × (L × Int)))
    (hgs : ∀ x, x ∈ gs ↔ ∃ e : ℕ, x.1.2 = e ∧ G x.1.1 e = some x.2) :
    wp (do addAll ps; gluePairs gs)
      (fun _ t => Good t ∧ (∀ l, t.polygons.get l = Dict.get ps l) ∧ (∀ l e, t.opp l e = G l e) ∧ t.roots = [])
      (fun _ _ => False) s := by
  obtain ⟨e1, e2, e3⟩ := empty_of_keys hs h0
  rw [wp_bind]
  refine wp_mono (addAll_spec hs ps hn (fun l _ => h0 l)) ?_ (fun _ _ hh => hh)
  rintro _ t ⟨ht, hp, ho, hr, _⟩
  have hp' : ∀ l, t.polygons.get l = Dict.get ps l := by
    intro l
    rw [hp, e1]
    simp [Dict.get]
  have hr0 := hr e2
  have hG : Target t G := ⟨hinv, fun l e c hc => by
    obtain ⟨p, h1, h2⟩ := hedge l e c hc
    exact ⟨p, by rw [hp', h1], h2⟩⟩
  have hsub : Sub t G := by
    intro l e c hc
    rw [ho, e3] at hc
    cases hc
  refine wp_mono (gluePairs_sub ht.1 ht.2.1 ht.2.2 hG hsub gs (fun x hx => (hgs x).1 hx)) ?_ ?_
  · rintro _ t' ⟨g, hg⟩
    refine ⟨⟨g.ginv, by rw [g.mutable, ht.2.1], g.rootsOK⟩, fun l => by rw [g.polygons, hp'], fun l e => ?_,
      g.nil hr0⟩
    cases hc : G l e with
    | some c =>
      exact hg ((l, e), c) ((hgs _).2 ⟨e, rfl, hc⟩) e rfl
    | none =>
      cases ho' : t'.opp l e with
      | none => rfl
      | some c => rw [g.sub _ _ _ ho'] at hc; cases hc
  · rintro _ _ ⟨_, hf⟩
    exact hf (Or.inl hr0)

/-- The gluings made by `from_surface`. -/
theorem copyPairs_spec {s : MSurf L (Poly K)} (h : GInv s) (ls labels : List L)
    (hk : ∀ l ∈ ls, l ∈ s.polygons.keys) :
    ∃ gs, copyPairs s ls labels = .ok gs ∧
      ∀ x, x ∈ gs ↔ x.1.1 ∈ ls ∧ x.2.1 ∈ labels ∧ ∃ e : ℕ, x.1.2 = e ∧ s.opp x.1.1 e = some x.2 := by
  have one : ∀ l ∈ ls, ∃ g, (do
      let p ← s.polygon l
      let cs ← s.oppositeEdges l (nv p)
      return cs.zipIdx.filterMap (copyPair labels l) :
        Except Err (List ((L × Int) × (L × Int)))) = .ok g ∧
      ∀ x, x ∈ g ↔ x.1.1 = l ∧ x.2.1 ∈ labels ∧ ∃ e : ℕ, x.1.2 = e ∧ s.opp x.1.1 e = some x.2 := by
    intro l hl
    have hk := hk l hl
    rw [Dict.mem_keys_iff] at hk
    obtain ⟨p, hp⟩ := Option.isSome_iff_exists.1 hk
    have hcs : s.oppositeEdges l (nv p) = .ok ((List.range (nv p)).map (fun e => s.opp l e)) := by
      unfold oppositeEdges
      rw [mapM_ok_iff, List.forall₂_map_right_iff]
      exact List.forall₂_same.2 fun e he => oppositeEdge_eq_opp h.toShape ⟨p, hp, by simpa using he⟩
    have hpl : s.polygon l = .ok p := by unfold polygon; rw [hp]
    simp only [bind, Except.bind, hpl, hcs, pure, Except.pure]
    refine ⟨_, rfl, fun x => ?_⟩
    rw [List.mem_filterMap]
    constructor
    · rintro ⟨⟨c, e⟩, hce, hmap⟩
      have hidx := List.mem_zipIdx_iff_getElem?.1 hce
      dsimp only [copyPair] at hidx hmap
      rw [List.getElem?_map, Option.map_eq_some_iff] at hidx
      obtain ⟨e', he', ho⟩ := hidx
      rw [List.getElem?_range] at he'
      · injection he' with he'
        subst he'
        cases c with
        | none => simp at hmap
        | some c' =>
          dsimp only at hmap
          split_ifs at hmap with hc'
          injection hmap with hmap
          subst hmap
          exact ⟨rfl, hc', e, rfl, ho⟩
      · by_contra hlt
        rw [List.getElem?_eq_none (by simpa using hlt)] at he'
        cases he'
    · obtain ⟨⟨a, b⟩, c⟩ := x
      rintro ⟨rfl, hc, e, rfl, ho⟩
      dsimp only at ho hc
      obtain ⟨p', hp', hlt⟩ := opp_isEdge h.toShape ho
      dsimp only at hp
      rw [hp] at hp'
      injection hp' with hp'
      subst hp'
      refine ⟨(some c, e), ?_, by simp [copyPair, hc]⟩
      rw [List.mem_zipIdx_iff_getElem?]
      simp [hlt, ho]
  have all : ∀ ls' : List L, (∀ l ∈ ls', l ∈ ls) → ∃ gs, ls'.mapM (fun l => do
      let p ← s.polygon l
      let cs ← s.oppositeEdges l (nv p)
      return cs.zipIdx.filterMap (copyPair labels l) :
        L → Except Err (List ((L × Int) × (L × Int)))) = .ok gs ∧
      ∀ x, x ∈ gs.flatten ↔ x.1.1 ∈ ls' ∧ x.2.1 ∈ labels ∧ ∃ e : ℕ, x.1.2 = e ∧ s.opp x.1.1 e = some x.2 := by
    intro ls'
    induction ls' with
    | nil => intro _; exact ⟨[], rfl, by simp⟩
    | cons l ls' ih =>
      intro hsub
      obtain ⟨gs, h1, h2⟩ := ih (fun x hx => hsub x (by simp [hx]))
      obtain ⟨g, h3, h4⟩ := one l (hsub l (by simp))
      refine ⟨g :: gs, ?_, fun x => ?_⟩
      · rw [mapM_ok_iff] at h1 ⊢
        exact List.Forall₂.cons h3 h1
      · rw [List.flatten_cons, List.mem_append, h4, h2, List.mem_cons, ← or_and_right]
  obtain ⟨gs, h1, h2⟩ := all ls (fun _ h => h)
  refine ⟨gs.flatten, ?_, h2⟩
  unfold copyPairs
  simp only [bind, Except.bind, pure, Except.pure] at h1 ⊢
  rw [h1]

/-- `{f(label): self.polygon(label) for label in ls}`. -/
theorem mapM_polygon {s : MSurf L (Poly K)} (f : L → L) (ls : List L) (hk : ∀ l ∈ ls, l ∈ s.polygons.keys) :
    ∃ ps, ls.mapM (fun l => do return (f l, ← s.polygon l) : L → Except Err (L × Poly K)) = .ok ps ∧
      Dict.keys ps = ls.map f ∧ ∀ x, x ∈ ps ↔ ∃ l ∈ ls, x.1 = f l ∧ s.polygons.get l = some x.2 := by
  induction ls with
  | nil => exact ⟨[], rfl, rfl, by simp⟩
  | cons l ls ih =>
    obtain ⟨ps, h1, h2, h3⟩ := ih (fun x hx => hk x (by simp [hx]))
    have hl := hk l (by simp)
    rw [Dict.mem_keys_iff] at hl
    obtain ⟨p, hp⟩ := Option.isSome_iff_exists.1 hl
    have hpl : s.polygon l = .ok p := by unfold polygon; rw [hp]
    refine ⟨(f l, p) :: ps, ?_, ?_, ?_⟩
    · rw [mapM_ok_iff] at h1 ⊢
      refine List.Forall₂.cons ?_ h1
      rw [hpl]; rfl
    · simp only [Dict.keys, List.map_cons] at h2 ⊢
      rw [h2]
    · rintro ⟨a, b⟩
      rw [List.mem_cons, h3]
      constructor
      · rintro (h | ⟨l', h⟩)
        · injection h with ha hb
          exact ⟨l, by simp, ha, by rw [hp, hb]⟩
        · exact ⟨l', by simp [h.1], h.2⟩
      · rintro ⟨l', hl', h1, h2⟩
        rcases List.mem_cons.1 hl' with rfl | hl'
        · left; dsimp only at h1 h2; rw [hp] at h2; injection h2 with h2; rw [h1, h2]
        · exact Or.inr ⟨l', hl', h1, h2⟩

end
end MSurf
end Flat
