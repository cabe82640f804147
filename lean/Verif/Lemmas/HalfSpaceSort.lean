import Verif.Lemmas.HalfSpaceOrder

/-!
# Sorting half spaces

Helper lemmas about `Verif.Model.HyperbolicPolygon`: the merge sort of ordered sets, and dropping half spaces that are trivially redundant.
-/

namespace Flat
namespace Hyp

section OrderedSet

variable {α : Type} {lt : α → α → Bool} {V : α → Prop} {E : α → α → Prop}

/-- What is needed of an order for the merge sort. -/
structure SortOrder (lt : α → α → Bool) (V : α → Prop) (E : α → α → Prop) : Prop where
  trans : ∀ x y z, V x → V y → V z → lt x y = true → lt y z = true → lt x z = true
  total : ∀ x y, V x → V y → ¬lt x y = true → ¬lt y x = true → E x y
  erefl : ∀ x, E x x
  etrans : ∀ x y z, E x y → E y z → E x z

/-- The first list stands for the second one. -/
structure SortedOf (lt : α → α → Bool) (E : α → α → Prop) (r l : List α) : Prop where
  sorted : r.Pairwise fun x y => lt x y = true
  sub : ∀ x ∈ r, x ∈ l
  all : ∀ x ∈ l, ∃ y ∈ r, E x y

theorem mergeTwo_spec (ho : SortOrder lt V E) : ∀ (n : ℕ) (A B merged : List α), A.length + B.length ≤ n → (∀ x ∈ A ++ B ++ merged, V x) →
    (A.reverse ++ merged).Pairwise (fun x y => lt x y = true) → (B.reverse ++ merged).Pairwise (fun x y => lt x y = true) →
    SortedOf lt E (mergeTwo lt n A B merged) (A ++ B ++ merged) := by
  have base1 : ∀ (n : ℕ) (B merged : List α), (B.reverse ++ merged).Pairwise (fun x y => lt x y = true) → SortedOf lt E (mergeTwo lt n [] B merged) ([] ++ B ++ merged) := by
    intro n B merged h
    have : mergeTwo lt n [] B merged = B.reverse ++ merged := by cases n <;> rfl
    rw [this]
    exact ⟨h, by simp, fun x hx => ⟨x, by simpa using hx, ho.erefl x⟩⟩
  have base2 : ∀ (n : ℕ) (A merged : List α), (A.reverse ++ merged).Pairwise (fun x y => lt x y = true) → SortedOf lt E (mergeTwo lt n A [] merged) (A ++ [] ++ merged) := by
    intro n A merged h
    have : mergeTwo lt n A [] merged = A.reverse ++ merged := by cases n <;> cases A <;> rfl
    rw [this]
    exact ⟨h, by simp, fun x hx => ⟨x, by simpa using hx, ho.erefl x⟩⟩
  intro n
  induction n with
  | zero =>
    intro A B merged hn hV hA hB
    have hA0 : A = [] := List.length_eq_zero_iff.mp (by omega)
    subst hA0
    exact base1 0 B merged hB
  | succ n ih =>
    intro A B merged hn hV hA hB
    cases A with
    | nil => exact base1 _ B merged hB
    | cons a A =>
      cases B with
      | nil => exact base2 _ (a :: A) merged hA
      | cons b B =>
        have hVa : V a := hV a (by simp)
        have hVb : V b := hV b (by simp)
        have hVA : ∀ x ∈ A, V x := fun x hx => hV x (by simp [hx])
        have hVB : ∀ x ∈ B, V x := fun x hx => hV x (by simp [hx])
        have hVm : ∀ x ∈ merged, V x := fun x hx => hV x (by simp [hx])
        rw [List.reverse_cons, List.append_assoc, List.singleton_append, List.pairwise_append, List.pairwise_cons] at hA hB
        unfold mergeTwo
        by_cases h1 : lt a b = true
        · rw [if_pos h1]
          have hbm : (b :: merged).Pairwise fun x y => lt x y = true := List.pairwise_cons.mpr hB.2.1
          have hAb : ∀ x ∈ a :: A, lt x b = true := by
            intro x hx
            rcases List.mem_cons.mp hx with rfl | hx
            · exact h1
            · exact ho.trans x a b (hVA x hx) hVa hVb (hA.2.2 x (List.mem_reverse.mpr hx) a (by simp)) h1
          have key := ih (a :: A) B (b :: merged) (by simp at hn ⊢; omega) (by
              intro x hx
              apply hV
              simp only [List.mem_append, List.mem_cons] at hx ⊢
              tauto)
            (List.pairwise_append.mpr ⟨by
                rw [List.reverse_cons, List.pairwise_append]
                refine ⟨hA.1, by simp, ?_⟩
                intro x hx y hy
                rw [List.mem_singleton] at hy
                subst hy
                exact hA.2.2 x hx _ (by simp), hbm, by
                intro x hx y hy
                have hx' : x ∈ a :: A := List.mem_reverse.mp hx
                rcases List.mem_cons.mp hy with rfl | hy
                · exact hAb x hx'
                · exact ho.trans x b y (by rcases List.mem_cons.mp hx' with rfl | h; exacts [hVa, hVA x h]) hVb (hVm y hy) (hAb x hx') (hB.2.1.1 y hy)⟩)
            (List.pairwise_append.mpr ⟨hB.1, hbm, hB.2.2⟩)
          refine ⟨key.sorted, fun x hx => ?_, fun x hx => ?_⟩
          · have := key.sub x hx
            simp only [List.mem_append, List.mem_cons] at this ⊢
            tauto
          · refine key.all x ?_
            simp only [List.mem_append, List.mem_cons] at hx ⊢
            tauto
        · rw [if_neg h1]
          by_cases h2 : lt b a = true
          · rw [if_pos h2]
            have ham : (a :: merged).Pairwise fun x y => lt x y = true := List.pairwise_cons.mpr hA.2.1
            have hBa : ∀ x ∈ b :: B, lt x a = true := by
              intro x hx
              rcases List.mem_cons.mp hx with rfl | hx
              · exact h2
              · exact ho.trans x b a (hVB x hx) hVb hVa (hB.2.2 x (List.mem_reverse.mpr hx) b (by simp)) h2
            have key := ih A (b :: B) (a :: merged) (by simp at hn ⊢; omega) (by
                intro x hx
                apply hV
                simp only [List.mem_append, List.mem_cons] at hx ⊢
                tauto)
              (List.pairwise_append.mpr ⟨hA.1, ham, hA.2.2⟩)
              (List.pairwise_append.mpr ⟨by
                  rw [List.reverse_cons, List.pairwise_append]
                  refine ⟨hB.1, by simp, ?_⟩
                  intro x hx y hy
                  rw [List.mem_singleton] at hy
                  subst hy
                  exact hB.2.2 x hx _ (by simp), ham, by
                  intro x hx y hy
                  have hx' : x ∈ b :: B := List.mem_reverse.mp hx
                  rcases List.mem_cons.mp hy with rfl | hy
                  · exact hBa x hx'
                  · exact ho.trans x a y (by rcases List.mem_cons.mp hx' with rfl | h; exacts [hVb, hVB x h]) hVa (hVm y hy) (hBa x hx') (hA.2.1.1 y hy)⟩)
            refine ⟨key.sorted, fun x hx => ?_, fun x hx => ?_⟩
            · have := key.sub x hx
              simp only [List.mem_append, List.mem_cons] at this ⊢
              tauto
            · refine key.all x ?_
              simp only [List.mem_append, List.mem_cons] at hx ⊢
              tauto
          · rw [if_neg h2]
            have key := ih A (b :: B) merged (by simp at hn ⊢; omega) (by
                intro x hx
                apply hV
                simp only [List.mem_append, List.mem_cons] at hx ⊢
                tauto)
              (List.pairwise_append.mpr ⟨hA.1, hA.2.1.2, fun x hx y hy => hA.2.2 x hx y (List.mem_cons_of_mem _ hy)⟩)
              (by
                rw [List.reverse_cons, List.append_assoc, List.singleton_append]
                exact List.pairwise_append.mpr ⟨hB.1, List.pairwise_cons.mpr hB.2.1, hB.2.2⟩)
            refine ⟨key.sorted, fun x hx => ?_, fun x hx => ?_⟩
            · have := key.sub x hx
              simp only [List.mem_append, List.mem_cons] at this ⊢
              tauto
            · by_cases hxa : x = a
              · obtain ⟨y, hy, hey⟩ := key.all b (by simp)
                exact ⟨y, hy, ho.etrans x b y (hxa ▸ ho.total a b hVa hVb h1 h2) hey⟩
              · refine key.all x ?_
                simp only [List.mem_append, List.mem_cons] at hx ⊢
                tauto

theorem merge2_spec (ho : SortOrder lt V E) {A B : List α} (hV : ∀ x ∈ A ++ B, V x) (hA : A.Pairwise fun x y => lt x y = true) (hB : B.Pairwise fun x y => lt x y = true) :
    SortedOf lt E (merge2 lt A B) (A ++ B) := by
  have key := mergeTwo_spec ho (A.length + B.length) A.reverse B.reverse [] (by simp) (by simpa using hV) (by simpa using hA) (by simpa using hB)
  exact ⟨key.sorted, fun x hx => by simpa using key.sub x hx, fun x hx => key.all x (by simpa using hx)⟩

theorem mergeAll_spec (ho : SortOrder lt V E) : ∀ (n : ℕ) (sets : List (List α)), sets.length ≤ n + 1 → (∀ x ∈ sets.flatten, V x) → (∀ s ∈ sets, s.Pairwise fun x y => lt x y = true) →
    SortedOf lt E (mergeAll lt n sets) sets.flatten := by
  have small : ∀ (n : ℕ) (sets : List (List α)), sets.length ≤ 2 → (∀ x ∈ sets.flatten, V x) → (∀ s ∈ sets, s.Pairwise fun x y => lt x y = true) →
      SortedOf lt E (mergeAll lt n sets) sets.flatten := by
    intro n sets hn hV hs
    match sets, hn with
    | [], _ =>
      have : mergeAll lt n [] = [] := by cases n <;> rfl
      rw [this]; exact ⟨by simp, by simp, by simp⟩
    | [s], _ =>
      have : mergeAll lt n [s] = s := by cases n <;> rfl
      rw [this]; exact ⟨hs s (by simp), by simp, fun x hx => ⟨x, by simpa using hx, ho.erefl x⟩⟩
    | [A, B], _ =>
      have : mergeAll lt n [A, B] = merge2 lt A B := by cases n <;> rfl
      rw [this]
      have := merge2_spec ho (A := A) (B := B) (by simpa using hV) (hs A (by simp)) (hs B (by simp))
      simpa using this
  intro n
  induction n with
  | zero => intro sets hn hV hs; exact small 0 sets (by omega) hV hs
  | succ n ih =>
    intro sets hn hV hs
    by_cases h2 : sets.length ≤ 2
    · exact small _ sets h2 hV hs
    · have hun : mergeAll lt (n + 1) sets = merge2 lt (mergeAll lt n (sets.take (sets.length / 2))) (mergeAll lt n (sets.drop (sets.length / 2))) := by
        match sets, h2 with
        | [], h2 => simp at h2
        | [_], h2 => simp at h2
        | [_, _], h2 => simp at h2
        | _ :: _ :: _ :: _, _ => rfl
      have hfl : sets.flatten = (sets.take (sets.length / 2)).flatten ++ (sets.drop (sets.length / 2)).flatten := by
        rw [← List.flatten_append, List.take_append_drop]
      rw [hun, hfl]
      rw [hfl] at hV
      have i1 := ih (sets.take (sets.length / 2)) (by rw [List.length_take]; omega) (fun x hx => hV x (List.mem_append_left _ hx)) (fun s h => hs s (List.mem_of_mem_take h))
      have i2 := ih (sets.drop (sets.length / 2)) (by rw [List.length_drop]; omega) (fun x hx => hV x (List.mem_append_right _ hx)) (fun s h => hs s (List.mem_of_mem_drop h))
      have i3 := merge2_spec ho (A := mergeAll lt n (sets.take (sets.length / 2))) (B := mergeAll lt n (sets.drop (sets.length / 2)))
        (fun x hx => by
          rcases List.mem_append.mp hx with h | h
          · exact hV x (List.mem_append_left _ (i1.sub x h))
          · exact hV x (List.mem_append_right _ (i2.sub x h))) i1.sorted i2.sorted
      refine ⟨i3.sorted, fun x hx => ?_, fun x hx => ?_⟩
      · rcases List.mem_append.mp (i3.sub x hx) with h | h
        · exact List.mem_append_left _ (i1.sub x h)
        · exact List.mem_append_right _ (i2.sub x h)
      · rcases List.mem_append.mp hx with h | h
        · obtain ⟨y, hy, e1⟩ := i1.all x h
          obtain ⟨z, hz, e2⟩ := i3.all y (List.mem_append_left _ hy)
          exact ⟨z, hz, ho.etrans _ _ _ e1 e2⟩
        · obtain ⟨y, hy, e1⟩ := i2.all x h
          obtain ⟨z, hz, e2⟩ := i3.all y (List.mem_append_right _ hy)
          exact ⟨z, hz, ho.etrans _ _ _ e1 e2⟩

theorem orderedSet_spec (ho : SortOrder lt V E) {l : List α} (hV : ∀ x ∈ l, V x) : SortedOf lt E (orderedSet lt l) l := by
  have hfl : (l.map fun e => [e]).flatten = l := by
    clear hV
    induction l with
    | nil => rfl
    | cons a l ih => simpa using ih
  have := mergeAll_spec ho l.length (l.map fun e => [e]) (by simp) (by rwa [hfl]) (by simp)
  rw [hfl] at this
  exact this

end OrderedSet

variable {K : Type} [Field K] [LinearOrder K] [IsStrictOrderedRing K]

/-- The order of half spaces sorts half spaces up to positive multiples of their equations. -/
theorem halfSpaceOrder : SortOrder (halfSpaceLt (K := K)) Geo.Proper (fun g h => ∃ s, 0 < s ∧ h = g.smul s) where
  trans _ _ _ h1 h2 h3 := halfSpaceLt_trans h1 h2 h3
  total _ _ h1 h2 := halfSpaceLt_total h1 h2
  erefl x := ⟨1, one_pos, by ext <;> simp [Geo.smul]⟩
  etrans := by
    rintro x y z ⟨s, hs, rfl⟩ ⟨t, ht, rfl⟩
    exact ⟨t * s, mul_pos ht hs, by ext <;> simp [Geo.smul, mul_assoc]⟩

theorem trivialAfter_iff {A g : Geo K} (pA : A.Proper) (pg : g.Proper) : trivialAfter A g = true ↔ (A.Left ↔ g.Left) ∧ A.cross g = 0 := by
  unfold trivialAfter
  rw [Bool.and_eq_true, Bool.and_eq_true, decide_eq_true_iff, decide_eq_true_iff, decide_eq_true_iff]
  constructor
  · rintro ⟨⟨h0, hb⟩, hc⟩
    have hcr : A.cross g = 0 := by simp only [Geo.cross]; linear_combination h0
    refine ⟨?_, hcr⟩
    have hb1 : A.b < 0 ↔ g.b < 0 := by rw [← sgn_neg_iff, ← sgn_neg_iff, hb]
    have hb2 : A.b = 0 ↔ g.b = 0 := by rw [← sgn_eq_zero_iff, ← sgn_eq_zero_iff (x := g.b), hb]
    have hc1 : A.c < 0 ↔ g.c < 0 := by rw [← sgn_neg_iff, ← sgn_neg_iff, hc]
    simp only [Geo.Left, hb1, hb2, hc1]
  · rintro ⟨hl, h0⟩
    obtain ⟨s, hs, hb, hc⟩ := same_side_smul pA pg hl h0
    have key : ∀ x : K, sgn (s * x) = sgn x := by
      intro x
      rcases lt_trichotomy x 0 with h | h | h
      · rw [sgn_neg h, sgn_neg (mul_neg_of_pos_of_neg hs h)]
      · rw [h, mul_zero]
      · rw [sgn_pos h, sgn_pos (mul_pos hs h)]
    rw [hb, hc, key, key]
    exact ⟨⟨by ring, rfl⟩, rfl⟩

/-- The half space `g` is contained in `h`, seen over any larger field. -/
def Geo.Sub (g h : Geo K) : Prop := ∃ s, 0 < s ∧ h.b = s * g.b ∧ h.c = s * g.c ∧ s * g.a ≤ h.a

theorem dropTrivialAfter_spec : ∀ (l : List (Geo K)) (A : Geo K), (∀ g ∈ A :: l, g.Proper) → (A :: l).Pairwise (fun g h => halfSpaceLt g h = true) →
    (dropTrivialAfter A l).Sublist l ∧ (A :: dropTrivialAfter A l).Pairwise DirLt ∧ ∀ g ∈ l, ∃ h ∈ A :: dropTrivialAfter A l, h.Sub g := by
  intro l
  induction l with
  | nil => intro A _ _; simp [dropTrivialAfter]
  | cons g l ih =>
    intro A hp hs
    have pA : A.Proper := hp A (by simp)
    have pg : g.Proper := hp g (by simp)
    rw [List.pairwise_cons] at hs
    have hAg := hs.1 g (by simp)
    rw [halfSpaceLt_iff pA pg] at hAg
    unfold dropTrivialAfter
    by_cases ht : trivialAfter A g = true
    · rw [if_pos ht]
      obtain ⟨i1, i2, i3⟩ := ih A (fun x hx => hp x (by rcases List.mem_cons.mp hx with h | h <;> simp [h]))
        (List.pairwise_cons.mpr ⟨fun x hx => hs.1 x (by simp [hx]), (List.pairwise_cons.mp hs.2).2⟩)
      refine ⟨i1.trans (List.sublist_cons_self _ _), i2, fun x hx => ?_⟩
      rcases List.mem_cons.mp hx with rfl | hx
      · refine ⟨A, by simp, ?_⟩
        obtain ⟨hl, h0⟩ := (trivialAfter_iff pA pg).1 ht
        rcases hAg with (⟨h1, h2⟩ | ⟨-, h1⟩) | ⟨-, s, a, b, c, d⟩
        · exact absurd (hl.1 h1) h2
        · exact absurd h0 h1.ne'
        · exact ⟨s, a, b, c, d.le⟩
      · exact i3 x hx
    · rw [if_neg ht]
      obtain ⟨i1, i2, i3⟩ := ih g (fun x hx => hp x (List.mem_cons_of_mem _ hx)) hs.2
      have hD : DirLt A g := by
        rcases hAg with h | ⟨hl, s, a, b, c, d⟩
        · exact h
        · exact absurd ((trivialAfter_iff pA pg).2 ⟨hl, not_cross_of_smul b c⟩) ht
      refine ⟨i1.cons_cons g, List.pairwise_cons.mpr ⟨fun x hx => ?_, i2⟩, fun x hx => ?_⟩
      · rcases List.mem_cons.mp hx with rfl | hx
        · exact hD
        · exact hD.trans pA pg (hp x (by simp [i1.subset hx])) ((List.pairwise_cons.mp i2).1 x hx)
      · rcases List.mem_cons.mp hx with rfl | hx
        · exact ⟨x, by simp, 1, one_pos, by ring, by ring, by linarith⟩
        · obtain ⟨h, hh, hsub⟩ := i3 x hx
          exact ⟨h, List.mem_cons_of_mem _ hh, hsub⟩

theorem dropTrivial_spec {l : List (Geo K)} (hp : ∀ g ∈ l, g.Proper) (hs : l.Pairwise fun g h => halfSpaceLt g h = true) :
    (dropTrivial l).Sublist l ∧ (dropTrivial l).Pairwise DirLt ∧ ∀ g ∈ l, ∃ h ∈ dropTrivial l, h.Sub g := by
  cases l with
  | nil => simp [dropTrivial]
  | cons A l =>
    obtain ⟨h1, h2, h3⟩ := dropTrivialAfter_spec l A hp hs
    refine ⟨h1.cons_cons A, h2, fun g hg => ?_⟩
    rcases List.mem_cons.mp hg with rfl | hg
    · exact ⟨g, by simp [dropTrivial], 1, one_pos, by ring, by ring, by linarith⟩
    · exact h3 g hg

end Hyp
end Flat
