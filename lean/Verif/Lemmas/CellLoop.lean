import Verif.Lemmas.CellWalk

/-!
# The loop of `_cell`
-/

namespace Flat
variable {L K : Type} [DecidableEq L] [Field K] [LinearOrder K] [IsStrictOrderedRing K]
namespace CellGeom
variable {op : L × ℕ → L × ℕ} {V J : L × ℕ → Prop} {μ : L × ℕ → K}

open Classical in
/-- The number of edges that can be reached. -/
noncomputable def reach (op : L × ℕ → L × ℕ) (V J : L × ℕ → Prop) (U : Finset (L × ℕ)) (h : L × ℕ) : ℕ := (U.filter (D op V J h)).card

/-- The three edges of a triangle. -/
theorem others (e k : ℕ) (he : e < 3) (hk : k < 3) (hne : k ≠ e) : k = (e + 1) % 3 ∨ k = (e + 2) % 3 := by omega

theorem reach_not_join (U : Finset (L × ℕ)) {h : L × ℕ} (hU : h ∈ U) (hJ : ¬ J h) : reach op V J U h = 1 := by
  classical
  unfold reach
  rw [Finset.card_eq_one]
  refine ⟨h, ?_⟩
  ext x
  simp only [Finset.mem_filter, Finset.mem_singleton, D.of_not_join hJ]
  constructor
  · exact fun h => h.2
  · rintro rfl
    exact ⟨hU, rfl⟩

/-- What the loop does when it crosses an edge. -/
structure Cross (op : L × ℕ → L × ℕ) (V J : L × ℕ → Prop) (h k1 k2 : L × ℕ) : Prop where
  next1 : Next op V J h k1
  next2 : Next op V J h k2
  ne : k1 ≠ k2
  iff : ∀ x, D op V J h x ↔ x = h ∨ D op V J k1 x ∨ D op V J k2 x

theorem reach_join (hG : CellGeom op V J μ) (U : Finset (L × ℕ)) {h k1 k2 : L × ℕ} (hU : h ∈ U) (hc : Cross op V J h k1 k2) :
    reach op V J U h = 1 + reach op V J U k1 + reach op V J U k2 := by
  classical
  unfold reach
  have e : U.filter (D op V J h) = ({h} ∪ U.filter (D op V J k1)) ∪ U.filter (D op V J k2) := by
    ext x
    simp only [Finset.mem_filter, Finset.mem_union, Finset.mem_singleton, hc.iff x]
    constructor
    · rintro ⟨h1, rfl | h2 | h2⟩
      · exact Or.inl (Or.inl rfl)
      · exact Or.inl (Or.inr ⟨h1, h2⟩)
      · exact Or.inr ⟨h1, h2⟩
    · rintro ((rfl | ⟨h1, h2⟩) | ⟨h1, h2⟩)
      · exact ⟨hU, Or.inl rfl⟩
      · exact ⟨h1, Or.inr (Or.inl h2)⟩
      · exact ⟨h1, Or.inr (Or.inr h2)⟩
  have b1 := D.not_back hG hc.next1
  have b2 := D.not_back hG hc.next2
  rw [e, Finset.card_union_of_disjoint, Finset.card_union_of_disjoint]
  · simp
  · rw [Finset.disjoint_singleton_left]
    simp [b1]
  · rw [Finset.disjoint_left]
    intro x hx hx2
    simp only [Finset.mem_union, Finset.mem_singleton, Finset.mem_filter] at hx hx2
    rcases hx with rfl | ⟨_, hx⟩
    · exact b2 hx2.2
    · exact D.disjoint hG hc.next1.2.2.1 hc.next2.2.2.1 (hc.next1.2.2.2.1.trans hc.next2.2.2.2.1.symm) hc.ne hx hx2.2

/-- The walks that start at these edges never meet. -/
def Sep (op : L × ℕ → L × ℕ) (V J : L × ℕ → Prop) (w : List (L × ℕ)) : Prop :=
  w.Pairwise (fun a b => ∀ x, D op V J a x → D op V J b x → False)

theorem Sep.nodup {w : List (L × ℕ)} (h : Sep op V J w) : w.Nodup := by
  refine List.Pairwise.imp ?_ h
  rintro a b h rfl
  exact h a (D.refl a) (D.refl a)

theorem Sep.step (hG : CellGeom op V J μ) {pre post : List (L × ℕ)} {h k1 k2 : L × ℕ} (hc : Cross op V J h k1 k2)
    (hs : Sep op V J (pre ++ h :: post)) : Sep op V J (pre ++ k1 :: k2 :: post) := by
  unfold Sep at *
  have s1 : ∀ x, D op V J k1 x → D op V J h x := fun x hx => (hc.iff x).2 (Or.inr (Or.inl hx))
  have s2 : ∀ x, D op V J k2 x → D op V J h x := fun x hx => (hc.iff x).2 (Or.inr (Or.inr hx))
  rw [List.pairwise_append] at hs ⊢
  obtain ⟨h1, h2, h3⟩ := hs
  rw [List.pairwise_cons] at h2
  refine ⟨h1, ?_, ?_⟩
  · rw [List.pairwise_cons, List.pairwise_cons]
    refine ⟨?_, ?_, h2.2⟩
    · intro b hb x hx hxb
      rcases List.mem_cons.1 hb with rfl | hb
      · exact D.disjoint hG hc.next1.2.2.1 hc.next2.2.2.1 (hc.next1.2.2.2.1.trans hc.next2.2.2.2.1.symm) hc.ne hx hxb
      · exact h2.1 b hb x (s1 x hx) hxb
    · intro b hb x hx hxb
      exact h2.1 b hb x (s2 x hx) hxb
  · intro a ha b hb x hx hxb
    rcases List.mem_cons.1 hb with rfl | hb
    · exact h3 a ha h (List.mem_cons_self ..) x hx (s1 x hxb)
    · rcases List.mem_cons.1 hb with rfl | hb
      · exact h3 a ha h (List.mem_cons_self ..) x hx (s2 x hxb)
      · exact h3 a ha b (List.mem_cons_of_mem _ hb) x hx hxb

/-- The surface behaves like the geometry. -/
structure Agrees (S : RSurf L K) (op : L × ℕ → L × ℕ) (V J : L × ℕ → Prop) : Prop where
  lt3 : ∀ h, V h → h.2 < 3
  tri : ∀ h i, V h → i < 3 → V (h.1, i)
  opp : ∀ h, V h → S.opp! h.1 h.2 = .ok (op h)
  join : ∀ h, V h → J h → S.needsJoin h.1 h.2 = .ok true
  notJoin : ∀ h, V h → ¬ J h → S.needsJoin h.1 h.2 = .ok false

theorem Agrees.cross {S : RSurf L K} (hG : CellGeom op V J μ) (hA : Agrees S op V J) {h : L × ℕ} (hV : V h) (hJ : J h) :
    Cross op V J h ((op h).1, ((op h).2 + 1) % 3) ((op h).1, ((op h).2 + 2) % 3) := by
  have vo := hG.opV h hV
  have l3 := hA.lt3 _ vo
  have v1 := hA.tri (op h) (((op h).2 + 1) % 3) vo (Nat.mod_lt _ (by omega))
  have v2 := hA.tri (op h) (((op h).2 + 2) % 3) vo (Nat.mod_lt _ (by omega))
  have n1 : ((op h).1, ((op h).2 + 1) % 3) ≠ op h := by
    intro e
    have e2 := congrArg Prod.snd e
    simp only at e2
    omega
  have n2 : ((op h).1, ((op h).2 + 2) % 3) ≠ op h := by
    intro e
    have e2 := congrArg Prod.snd e
    simp only at e2
    omega
  refine ⟨⟨hV, hJ, v1, rfl, n1⟩, ⟨hV, hJ, v2, rfl, n2⟩, ?_, ?_⟩
  · intro e
    have e2 := congrArg Prod.snd e
    simp only at e2
    omega
  · intro x
    refine D.of_join hV hJ v1 v2 rfl rfl n1 n2 ?_
    intro k vk ek nk
    have k3 := hA.lt3 k vk
    have : k.2 ≠ (op h).2 := fun e => nk (Prod.ext ek e)
    rcases others _ _ l3 k3 this with e | e
    · exact Or.inl (Prod.ext ek e)
    · exact Or.inr (Prod.ext ek e)

/-- The loop terminates, and every property of the cyclic words `edges ++ explore` that is preserved by crossing an edge
holds for the edges that are returned. -/
theorem cellLoop_ok {S : RSurf L K} (hG : CellGeom op V J μ) (hA : Agrees S op V J) (U : Finset (L × ℕ)) (hU : ∀ h, V h → h ∈ U)
    (I : List (L × ℕ) → Prop)
    (hI : ∀ pre h post, V h → J h → (∀ x ∈ pre ++ h :: post, V x) → I (pre ++ h :: post) →
      I (pre ++ ((op h).1, ((op h).2 + 1) % 3) :: ((op h).1, ((op h).2 + 2) % 3) :: post)) :
    ∀ (fuel : ℕ) (explore edges : List (L × ℕ)) (cell : List L), (∀ x ∈ edges ++ explore, V x) → (∀ x ∈ edges, ¬ J x) →
      Sep op V J (edges ++ explore) → I (edges ++ explore) → (explore.map (reach op V J U)).sum ≤ fuel →
      ∃ c es, S.cellLoop fuel explore edges cell = .ok (c, es) ∧ (∀ x ∈ es, V x) ∧ Sep op V J es ∧ I es ∧
        (∀ x, x ∈ es ↔ ¬ J x ∧ ∃ h ∈ edges ++ explore, D op V J h x) ∧
        (∀ t, t ∈ c ↔ t ∈ cell ∨ ∃ h ∈ explore, ∃ x, D op V J h x ∧ x.1 = t) := by
  intro fuel
  have base : ∀ (fuel : ℕ) (edges : List (L × ℕ)) (cell : List L), (∀ x ∈ edges ++ [], V x) → (∀ x ∈ edges, ¬ J x) →
      Sep op V J (edges ++ []) → I (edges ++ []) →
      ∃ c es, S.cellLoop fuel [] edges cell = .ok (c, es) ∧ (∀ x ∈ es, V x) ∧ Sep op V J es ∧ I es ∧
        (∀ x, x ∈ es ↔ ¬ J x ∧ ∃ h ∈ edges ++ [], D op V J h x) ∧
        (∀ t, t ∈ c ↔ t ∈ cell ∨ ∃ h ∈ ([] : List (L × ℕ)), ∃ x, D op V J h x ∧ x.1 = t) := by
    intro fuel edges cell hv hj hs hi
    rw [List.append_nil] at hv hs hi
    refine ⟨cell, edges, by cases fuel <;> rfl, hv, hs, hi, fun x => ⟨fun hx => ⟨hj x hx, x, by simpa using hx, D.refl x⟩, ?_⟩, fun t => by simp⟩
    rintro ⟨h1, h, hh, hd⟩
    rw [List.append_nil] at hh
    rw [D.of_not_join (hj h hh)] at hd
    rw [hd]
    exact hh
  induction fuel with
  | zero =>
    intro explore edges cell hv hj hs hi hf
    cases explore with
    | nil => exact base 0 edges cell hv hj hs hi
    | cons h explore =>
      exfalso
      have vh := hv h (by simp)
      have : 0 < reach op V J U h := by
        classical
        unfold reach
        rw [Finset.card_pos]
        exact ⟨h, by simp [hU h vh, D.refl]⟩
      simp only [List.map_cons, List.sum_cons] at hf
      omega
  | succ fuel ih =>
    intro explore edges cell hv hj hs hi hf
    cases explore with
    | nil => exact base (fuel + 1) edges cell hv hj hs hi
    | cons h explore =>
      have vh := hv h (by simp)
      simp only [List.map_cons, List.sum_cons] at hf
      by_cases hJ : J h
      · have hc := hA.cross hG vh hJ
        set k1 : L × ℕ := ((op h).1, ((op h).2 + 1) % 3) with hk1
        set k2 : L × ℕ := ((op h).1, ((op h).2 + 2) % 3) with hk2
        have hs' := hs.step hG hc
        have hnd := hs'.nodup
        rw [List.nodup_append] at hnd
        obtain ⟨-, hnd2, hnd3⟩ := hnd
        rw [List.nodup_cons, List.nodup_cons] at hnd2
        have a1 : k2 ∉ edges := fun hm => hnd3 k2 hm k2 (by simp) rfl
        have a2 : k2 ∉ explore := hnd2.2.1
        have a3 : k1 ∉ edges := fun hm => hnd3 k1 hm k1 (by simp) rfl
        have a4 : k1 ∉ k2 :: explore := hnd2.1
        have ev : S.cellLoop (fuel + 1) (h :: explore) edges cell = S.cellLoop fuel (k1 :: k2 :: explore) edges (cell ++ [h.1]) := by
          obtain ⟨t, e⟩ := h
          simp only [RSurf.cellLoop, hA.join _ vh hJ, hA.opp _ vh, bind, Except.bind, not_true_eq_false, if_false]
          rw [← hk1, ← hk2, if_neg a1, if_neg a2, if_neg a3, if_neg a4]
        have hr := reach_join hG U (hU h vh) hc
        have hv' : ∀ x ∈ edges ++ k1 :: k2 :: explore, V x := by
          intro x hx
          rcases List.mem_append.1 hx with hx | hx
          · exact hv x (List.mem_append_left _ hx)
          · rcases List.mem_cons.1 hx with rfl | hx
            · exact hc.next1.2.2.1
            · rcases List.mem_cons.1 hx with rfl | hx
              · exact hc.next2.2.2.1
              · exact hv x (List.mem_append_right _ (List.mem_cons_of_mem _ hx))
        obtain ⟨c, es, e1, e2, e3, e4, e5, e6⟩ := ih (k1 :: k2 :: explore) edges (cell ++ [h.1]) hv' hj hs'
          (hI edges h explore vh hJ hv hi) (by simp only [List.map_cons, List.sum_cons]; omega)
        refine ⟨c, es, by rw [ev, e1], e2, e3, e4, ?_, ?_⟩
        · intro x
          rw [e5 x]
          constructor
          · rintro ⟨h1, g, hg, hd⟩
            refine ⟨h1, ?_⟩
            rcases List.mem_append.1 hg with hg | hg
            · exact ⟨g, List.mem_append_left _ hg, hd⟩
            · rcases List.mem_cons.1 hg with rfl | hg
              · exact ⟨h, by simp, (hc.iff x).2 (Or.inr (Or.inl hd))⟩
              · rcases List.mem_cons.1 hg with rfl | hg
                · exact ⟨h, by simp, (hc.iff x).2 (Or.inr (Or.inr hd))⟩
                · exact ⟨g, List.mem_append_right _ (List.mem_cons_of_mem _ hg), hd⟩
          · rintro ⟨h1, g, hg, hd⟩
            refine ⟨h1, ?_⟩
            rcases List.mem_append.1 hg with hg | hg
            · exact ⟨g, List.mem_append_left _ hg, hd⟩
            · rcases List.mem_cons.1 hg with rfl | hg
              · rcases (hc.iff x).1 hd with rfl | hd | hd
                · exact absurd hJ h1
                · exact ⟨k1, by simp, hd⟩
                · exact ⟨k2, by simp, hd⟩
              · exact ⟨g, by simp [hg], hd⟩
        · intro t
          rw [e6 t, List.mem_append, List.mem_singleton]
          constructor
          · rintro ((ht | rfl) | ⟨g, hg, x, hd, hx⟩)
            · exact Or.inl ht
            · exact Or.inr ⟨h, List.mem_cons_self .., h, D.refl h, rfl⟩
            · rcases List.mem_cons.1 hg with rfl | hg
              · exact Or.inr ⟨h, List.mem_cons_self .., x, (hc.iff x).2 (Or.inr (Or.inl hd)), hx⟩
              · rcases List.mem_cons.1 hg with rfl | hg
                · exact Or.inr ⟨h, List.mem_cons_self .., x, (hc.iff x).2 (Or.inr (Or.inr hd)), hx⟩
                · exact Or.inr ⟨g, List.mem_cons_of_mem _ hg, x, hd, hx⟩
          · rintro (ht | ⟨g, hg, x, hd, hx⟩)
            · exact Or.inl (Or.inl ht)
            · rcases List.mem_cons.1 hg with rfl | hg
              · rcases (hc.iff x).1 hd with rfl | hd | hd
                · exact Or.inl (Or.inr hx.symm)
                · exact Or.inr ⟨k1, by simp, x, hd, hx⟩
                · exact Or.inr ⟨k2, by simp, x, hd, hx⟩
              · exact Or.inr ⟨g, by simp [hg], x, hd, hx⟩
      · have ev : S.cellLoop (fuel + 1) (h :: explore) edges cell = S.cellLoop fuel explore (edges ++ [h]) (cell ++ [h.1]) := by
          obtain ⟨t, e⟩ := h
          simp only [RSurf.cellLoop, hA.notJoin _ vh hJ, bind, Except.bind]
          rfl
        have hr := reach_not_join (op := op) (V := V) U (hU h vh) hJ
        have ea : edges ++ [h] ++ explore = edges ++ h :: explore := by simp
        obtain ⟨c, es, e1, e2, e3, e4, e5, e6⟩ := ih explore (edges ++ [h]) (cell ++ [h.1]) (by rw [ea]; exact hv)
          (by
            intro x hx
            rcases List.mem_append.1 hx with hx | hx
            · exact hj x hx
            · rw [List.mem_singleton] at hx
              rw [hx]
              exact hJ) (by rw [ea]; exact hs) (by rw [ea]; exact hi) (by omega)
        refine ⟨c, es, by rw [ev, e1], e2, e3, e4, by rw [ea] at e5; exact e5, ?_⟩
        intro t
        rw [e6 t, List.mem_append, List.mem_singleton]
        constructor
        · rintro ((ht | rfl) | ⟨g, hg, x, hd, hx⟩)
          · exact Or.inl ht
          · exact Or.inr ⟨h, List.mem_cons_self .., h, D.refl h, rfl⟩
          · exact Or.inr ⟨g, List.mem_cons_of_mem _ hg, x, hd, hx⟩
        · rintro (ht | ⟨g, hg, x, hd, hx⟩)
          · exact Or.inl (Or.inl ht)
          · rcases List.mem_cons.1 hg with rfl | hg
            · rw [D.of_not_join hJ] at hd
              rw [hd] at hx
              exact Or.inl (Or.inr hx.symm)
            · exact Or.inr ⟨g, hg, x, hd, hx⟩

end CellGeom
end Flat
