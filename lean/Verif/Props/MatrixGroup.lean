import Verif.Model.MatrixGroup
import Mathlib.Algebra.Group.Subgroup.Lattice
import Mathlib.GroupTheory.OrderOfElement
import Mathlib.Data.Set.Finite.Basic
import Mathlib.Data.Set.Card
import Mathlib.Tactic.Linarith

/-!
# C42: finitely generated matrix groups
-/

namespace Flat
namespace MatGroup

section
variable {G : Type} [Group G] [DecidableEq G]

/-- The group generated by a list of elements. -/
def gen (gens : List G) : Subgroup G := Subgroup.closure {g | g ∈ gens}

theorem visit_fold (ms : List G) (st : IterState G) (hn : st.seen.Nodup) : ∃ new, ms.foldl visit st = ⟨st.seen ++ new, st.wait ++ new⟩ ∧
    (st.seen ++ new).Nodup ∧ (∀ a ∈ new, a ∈ ms) ∧ ∀ m ∈ ms, m ∈ st.seen ++ new := by
  induction ms generalizing st with
  | nil => exact ⟨[], by simp, by simpa using hn, by simp, by simp⟩
  | cons m ms ih =>
    rw [List.foldl_cons]
    by_cases hm : m ∈ st.seen
    · have h1 : visit st m = st := if_pos hm
      rw [h1]
      obtain ⟨new, h2, h3, h4, h5⟩ := ih st hn
      refine ⟨new, h2, h3, fun a ha => List.mem_cons_of_mem _ (h4 a ha), ?_⟩
      intro x hx
      rcases List.mem_cons.1 hx with rfl | hx
      · exact List.mem_append_left _ hm
      · exact h5 x hx
    · have h1 : visit st m = ⟨st.seen ++ [m], st.wait ++ [m]⟩ := if_neg hm
      rw [h1]
      obtain ⟨new, h2, h3, h4, h5⟩ := ih ⟨st.seen ++ [m], st.wait ++ [m]⟩ (by
        rw [List.nodup_append]
        refine ⟨hn, by simp, ?_⟩
        intro a ha b hb hab
        rw [List.mem_singleton] at hb
        rw [hab, hb] at ha
        exact hm ha)
      refine ⟨m :: new, by rw [h2]; simp, by simpa using h3, ?_, ?_⟩
      · intro a ha
        rcases List.mem_cons.1 ha with rfl | ha
        · simp
        · exact List.mem_cons_of_mem _ (h4 a ha)
      · intro x hx
        rcases List.mem_cons.1 hx with rfl | hx
        · simp
        · simpa using h5 x hx

/-- The elements that are looked at in one round. -/
def products (p : G) (gens : List G) : List G := gens.flatMap (fun g => [p * g, p * g⁻¹, g * p, g⁻¹ * p])

theorem visitAll_eq (p : G) (gens : List G) (st : IterState G) : visitAll p gens st = (products p gens).foldl visit st := by
  unfold visitAll products
  rw [List.foldl_flatMap]

theorem mem_products {p : G} {gens : List G} {m : G} : m ∈ products p gens ↔ ∃ g ∈ gens, m = p * g ∨ m = p * g⁻¹ ∨ m = g * p ∨ m = g⁻¹ * p := by
  simp [products]

theorem iterStep_cons {gens : List G} {st : IterState G} {p : G} {wait : List G} (hw : st.wait = p :: wait) (hn : st.seen.Nodup) :
    ∃ new new', iterStep gens st = ⟨st.seen ++ new' ++ new, wait ++ new⟩ ∧ (st.seen ++ new' ++ new).Nodup ∧ (∀ a ∈ new', a = p) ∧ p ∈ st.seen ++ new' ∧
      (∀ a ∈ new, a ∈ products p gens) ∧ ∀ m ∈ products p gens, m ∈ st.seen ++ new' ++ new := by
  unfold iterStep
  rw [hw]
  dsimp only
  by_cases hp : p ∈ st.seen
  · rw [if_pos hp, visitAll_eq]
    obtain ⟨new, h1, h2, h3, h4⟩ := visit_fold (products p gens) ⟨st.seen, wait⟩ hn
    exact ⟨new, [], by rw [h1]; simp, by simpa using h2, by simp, by simpa using hp, h3, by simpa using h4⟩
  · rw [if_neg hp, visitAll_eq]
    obtain ⟨new, h1, h2, h3, h4⟩ := visit_fold (products p gens) ⟨st.seen ++ [p], wait⟩ (by
      rw [List.nodup_append]
      refine ⟨hn, by simp, ?_⟩
      intro a ha b hb hab
      rw [List.mem_singleton] at hb
      rw [hab, hb] at ha
      exact hp ha)
    exact ⟨new, [p], by rw [h1], h2, by simp, by simp, h3, h4⟩

/-- **C42**. Iterating over the group never yields an element twice. -/
theorem C42_iter_nodup (gens : List G) (n : ℕ) : (iter gens n).seen.Nodup := by
  induction n with
  | zero => simp [iter]
  | succ n ih =>
    unfold iter
    cases hw : (iter gens n).wait with
    | nil => unfold iterStep; rw [hw]; exact ih
    | cons p wait =>
      obtain ⟨new, new', h1, h2, -⟩ := iterStep_cons (gens := gens) hw ih
      rw [h1]
      exact h2

/-- What has been yielded remains so: the elements yielded by the first rounds are the beginning of the elements yielded by more rounds. -/
theorem iter_prefix (gens : List G) (n m : ℕ) : (iter gens n).seen <+: (iter gens (n + m)).seen := by
  induction m with
  | zero => exact List.prefix_rfl
  | succ m ih =>
    refine ih.trans ?_
    show _ <+: (iterStep gens (iter gens (n + m))).seen
    cases hw : (iter gens (n + m)).wait with
    | nil => unfold iterStep; rw [hw]
    | cons p wait =>
      obtain ⟨new, new', h1, -⟩ := iterStep_cons (gens := gens) hw (C42_iter_nodup gens _)
      rw [h1]
      rw [List.append_assoc]
      exact List.prefix_append _ _

theorem products_mem {gens : List G} {p m : G} (hp : p ∈ gen gens) (hm : m ∈ products p gens) : m ∈ gen gens := by
  obtain ⟨g, hg, h⟩ := mem_products.1 hm
  have hg' : g ∈ gen gens := Subgroup.subset_closure hg
  rcases h with rfl | rfl | rfl | rfl
  · exact mul_mem hp hg'
  · exact mul_mem hp (inv_mem hg')
  · exact mul_mem hg' hp
  · exact mul_mem (inv_mem hg') hp

theorem iter_sound (gens : List G) (n : ℕ) : (∀ x ∈ (iter gens n).seen, x ∈ gen gens) ∧ ∀ x ∈ (iter gens n).wait, x ∈ gen gens := by
  induction n with
  | zero =>
    refine ⟨fun x hx => ?_, fun x hx => Subgroup.subset_closure hx⟩
    have : x = 1 := by simpa [iter] using hx
    rw [this]
    exact one_mem _
  | succ n ih =>
    unfold iter
    cases hw : (iter gens n).wait with
    | nil => unfold iterStep; rw [hw]; exact ⟨ih.1, by simp [hw]⟩
    | cons p wait =>
      obtain ⟨new, new', h1, -, h2, -, h3, -⟩ := iterStep_cons (gens := gens) hw (C42_iter_nodup gens n)
      have hp : p ∈ gen gens := ih.2 p (by rw [hw]; simp)
      have hnew : ∀ x ∈ new, x ∈ gen gens := fun x hx => products_mem hp (h3 x hx)
      rw [h1]
      constructor
      · intro x hx
        rw [List.mem_append, List.mem_append] at hx
        rcases hx with (hx | hx) | hx
        · exact ih.1 x hx
        · rw [h2 x hx]; exact hp
        · exact hnew x hx
      · intro x hx
        rw [List.mem_append] at hx
        rcases hx with hx | hx
        · exact ih.2 x (by rw [hw]; simp [hx])
        · exact hnew x hx

/-- **C42**. Iterating over the group only yields elements of the group. -/
theorem C42_iter_sound (gens : List G) (n : ℕ) (x : G) (hx : x ∈ (iter gens n).seen) : x ∈ gen gens := (iter_sound gens n).1 x hx

/-- `x` is yielded at some time. -/
def Yielded (gens : List G) (x : G) : Prop := ∃ n, x ∈ (iter gens n).seen

def Popped (gens : List G) (x : G) : Prop := ∃ n, (iter gens n).wait.head? = some x

theorem popped_of_wait {gens : List G} {x : G} (k n : ℕ) (h : (iter gens n).wait[k]? = some x) : Popped gens x := by
  induction k generalizing n with
  | zero => exact ⟨n, by rw [List.head?_eq_getElem?]; exact h⟩
  | succ k ih =>
    apply ih (n + 1)
    unfold iter
    cases hw : (iter gens n).wait with
    | nil => rw [hw] at h; simp at h
    | cons p wait =>
      obtain ⟨new, new', h1, -⟩ := iterStep_cons (gens := gens) hw (C42_iter_nodup gens n)
      rw [h1]
      rw [hw, List.getElem?_cons_succ] at h
      dsimp only
      rw [List.getElem?_append_left (List.getElem?_eq_some_iff.1 h).1]
      exact h

theorem popped_of_mem {gens : List G} {x : G} {n : ℕ} (h : x ∈ (iter gens n).wait) : Popped gens x := by
  obtain ⟨k, hk⟩ := List.mem_iff_getElem?.1 h
  exact popped_of_wait k n hk

theorem Popped.yields {gens : List G} {p : G} (h : Popped gens p) : Yielded gens p ∧ ∀ g ∈ gens, Yielded gens (p * g) ∧ Yielded gens (p * g⁻¹) ∧
    Yielded gens (g * p) ∧ Yielded gens (g⁻¹ * p) := by
  obtain ⟨n, hn⟩ := h
  obtain ⟨wait, hw⟩ : ∃ wait, (iter gens n).wait = p :: wait := by
    cases hw : (iter gens n).wait with
    | nil => rw [hw] at hn; cases hn
    | cons q wait => rw [hw] at hn; cases hn; exact ⟨wait, rfl⟩
  obtain ⟨new, new', h1, -, -, h2, -, h3⟩ := iterStep_cons (gens := gens) hw (C42_iter_nodup gens n)
  have hs : (iter gens (n + 1)).seen = (iter gens n).seen ++ new' ++ new := by
    show (iterStep gens (iter gens n)).seen = _
    rw [h1]
  refine ⟨⟨n + 1, by rw [hs]; exact List.mem_append_left _ h2⟩, fun g hg => ⟨⟨n + 1, ?_⟩, ⟨n + 1, ?_⟩, ⟨n + 1, ?_⟩, ⟨n + 1, ?_⟩⟩⟩ <;>
    (rw [hs]; exact h3 _ (mem_products.2 ⟨g, hg, by simp⟩))

theorem Yielded.popped {gens : List G} {x : G} (h : Yielded gens x) : x = 1 ∨ Popped gens x := by
  obtain ⟨n, hn⟩ := h
  induction n with
  | zero => left; simpa [iter] using hn
  | succ n ih =>
    have hn0 := hn
    unfold iter at hn
    cases hw : (iter gens n).wait with
    | nil => unfold iterStep at hn; rw [hw] at hn; exact ih hn
    | cons p wait =>
      obtain ⟨new, new', h1, -, h2, -⟩ := iterStep_cons (gens := gens) hw (C42_iter_nodup gens n)
      rw [h1] at hn
      rw [List.mem_append, List.mem_append] at hn
      rcases hn with (hn | hn) | hn
      · exact ih hn
      · right
        exact ⟨n, by rw [hw, h2 x hn]; rfl⟩
      · right
        refine popped_of_mem (n := n + 1) ?_
        show x ∈ (iterStep gens (iter gens n)).wait
        rw [h1]
        exact List.mem_append_right _ hn

theorem yielded_one (gens : List G) : Yielded gens 1 := ⟨0, by simp [iter]⟩

theorem popped_gen {gens : List G} {g : G} (hg : g ∈ gens) : Popped gens g := popped_of_mem (n := 0) hg

theorem complete_of_inv {gens : List G} (h : ∀ g ∈ gens, Yielded gens g⁻¹) {x : G} (hx : x ∈ gen gens) : Yielded gens x := by
  unfold gen at hx
  induction hx using Subgroup.closure_induction_right with
  | one => exact yielded_one gens
  | mul_right y hy g hg ih =>
    rcases ih.popped with rfl | hp
    · rw [one_mul]; exact (popped_gen hg).yields.1
    · exact (hp.yields.2 g hg).1
  | mul_inv_cancel y hy g hg ih =>
    rcases ih.popped with rfl | hp
    · rw [one_mul]; exact h g hg
    · exact (hp.yields.2 g hg).2.1

/-- **C42**, if there are two different generators or the group is finite.  Every element of the group is yielded at some time. -/
theorem C42_iter_complete_partial (gens : List G) (h : (∃ g ∈ gens, ∃ h ∈ gens, g ≠ h) ∨ (gen gens : Set G).Finite) (x : G) (hx : x ∈ gen gens) : Yielded gens x := by
  refine complete_of_inv (fun g hg => ?_) hx
  rcases h with ⟨a, ha, b, hb, hab⟩ | hfin
  · obtain ⟨h, hh, hne⟩ : ∃ h ∈ gens, h ≠ g := by
      by_cases hga : a = g
      · exact ⟨b, hb, fun h => hab (hga.trans h.symm)⟩
      · exact ⟨a, ha, hga⟩
    have h1 := ((popped_gen hh).yields.2 g hg).2.1
    rcases h1.popped with h2 | h2
    · exact absurd (mul_inv_eq_one.1 h2) hne
    · have := (h2.yields.2 h hh).2.2.2
      rwa [inv_mul_cancel_left] at this
  · have hpow : ∀ k : ℕ, Yielded gens (g ^ k) := by
      intro k
      induction k with
      | zero => rw [pow_zero]; exact yielded_one gens
      | succ k ih =>
        rcases ih.popped with h1 | h1
        · rw [pow_succ, h1, one_mul]; exact (popped_gen hg).yields.1
        · rw [pow_succ]; exact (h1.yields.2 g hg).1
    have hfo : IsOfFinOrder g := by
      have : Finite (gen gens) := hfin.to_subtype
      have h1 := isOfFinOrder_of_finite (⟨g, Subgroup.subset_closure hg⟩ : gen gens)
      exact (gen gens).subtype.isOfFinOrder h1
    obtain ⟨n, hn, hgn⟩ := isOfFinOrder_iff_pow_eq_one.1 hfo
    have : g⁻¹ = g ^ (n - 1) := by
      rw [inv_eq_iff_mul_eq_one, ← pow_succ', Nat.sub_add_cancel hn, hgn]
    rw [this]
    exact hpow _

theorem iter_measure (gens : List G) (n : ℕ) : (iter gens n).wait = [] ∨ (iter gens n).wait.length + n ≤ gens.length + (iter gens n).seen.length := by
  induction n with
  | zero => right; simp [iter]
  | succ n ih =>
    cases hw : (iter gens n).wait with
    | nil =>
      left
      show (iterStep gens (iter gens n)).wait = []
      unfold iterStep
      rw [hw]
      exact hw
    | cons p wait =>
      right
      obtain ⟨new, new', h1, -⟩ := iterStep_cons (gens := gens) hw (C42_iter_nodup gens n)
      rcases ih with ih | ih
      · rw [hw] at ih; cases ih
      · show (iterStep gens (iter gens n)).wait.length + (n + 1) ≤ gens.length + (iterStep gens (iter gens n)).seen.length
        rw [h1]
        rw [hw] at ih
        simp only [List.length_cons, List.length_append] at ih ⊢
        omega

/-- **C42**. The iteration over a finite group comes to an end, and then all its elements have been yielded.  So `cardinality()` of a finite group is its order. -/
theorem C42_iter_finite (gens : List G) (h : (gen gens : Set G).Finite) : ∃ n, (iter gens n).wait = [] ∧ (∀ x, x ∈ (iter gens n).seen ↔ x ∈ gen gens) ∧
    (iter gens n).seen.length = (gen gens : Set G).ncard := by
  have hle : ∀ n, (iter gens n).seen.length ≤ (gen gens : Set G).ncard := by
    intro n
    rw [← List.toFinset_card_of_nodup (C42_iter_nodup gens n), ← Set.ncard_coe_finset]
    refine Set.ncard_le_ncard ?_ h
    intro x hx
    exact C42_iter_sound gens n x (by simpa using hx)
  have hend : ∃ n, (iter gens n).wait = [] := by
    by_contra hcon
    push Not at hcon
    have h1 := (iter_measure gens (gens.length + (gen gens : Set G).ncard)).resolve_left (hcon _)
    have h2 := hle (gens.length + (gen gens : Set G).ncard)
    have h3 := hcon (gens.length + (gen gens : Set G).ncard)
    have h4 : 0 < (iter gens (gens.length + (gen gens : Set G).ncard)).wait.length := List.length_pos_iff.2 h3
    omega
  obtain ⟨n, hn⟩ := hend
  have hstay : ∀ m, iter gens (n + m) = iter gens n := by
    intro m
    induction m with
    | zero => rfl
    | succ m ih =>
      show iterStep gens (iter gens (n + m)) = _
      rw [ih]
      unfold iterStep
      rw [hn]
  have hall : ∀ x, x ∈ (iter gens n).seen ↔ x ∈ gen gens := by
    intro x
    refine ⟨C42_iter_sound gens n x, fun hx => ?_⟩
    obtain ⟨m, hm⟩ := C42_iter_complete_partial gens (.inr h) x hx
    have h1 := (iter_prefix gens m n).subset hm
    rwa [Nat.add_comm, hstay] at h1
  refine ⟨n, hn, hall, ?_⟩
  rw [← List.toFinset_card_of_nodup (C42_iter_nodup gens n), ← Set.ncard_coe_finset]
  congr 1
  ext x
  simp [hall]

/-- **C42** fails for a single generator of infinite order: its inverse is never yielded. -/
theorem C42_iter_violation (g : G) (hg : ¬ IsOfFinOrder g) : g⁻¹ ∈ gen [g] ∧ ¬ Yielded [g] g⁻¹ := by
  have hpow : ∀ n, (∀ x ∈ (iter [g] n).seen, ∃ k : ℕ, x = g ^ k) ∧ ∀ x ∈ (iter [g] n).wait, ∃ k : ℕ, x = g ^ (k + 1) := by
    intro n
    induction n with
    | zero => exact ⟨fun x hx => ⟨0, by simpa [iter] using hx⟩, fun x hx => ⟨0, by simpa [iter] using hx⟩⟩
    | succ n ih =>
      unfold iter
      cases hw : (iter [g] n).wait with
      | nil => unfold iterStep; rw [hw]; exact ⟨ih.1, by simp [hw]⟩
      | cons p wait =>
        obtain ⟨new, new', h1, h0, h2, h2', h3, -⟩ := iterStep_cons (gens := [g]) hw (C42_iter_nodup [g] n)
        obtain ⟨k, hk⟩ := ih.2 p (by rw [hw]; simp)
        have hone : (1 : G) ∈ (iter [g] n).seen ++ new' := by
          have := (iter_prefix [g] 0 n).subset (show (1 : G) ∈ _ by simp [iter])
          rw [Nat.zero_add] at this
          exact List.mem_append_left _ this
        have hnew : ∀ x ∈ new, ∃ k : ℕ, x = g ^ (k + 1) := by
          intro x hx
          have hx1 : x ≠ 1 := by
            rintro rfl
            exact (List.nodup_append.1 h0).2.2 _ hone _ hx rfl
          obtain ⟨g', hg', h⟩ := mem_products.1 (h3 x hx)
          rw [List.mem_singleton] at hg'
          subst hg'
          have hk' : k = 0 ∨ ∃ j, k = j + 1 := by cases k <;> simp
          rcases h with rfl | rfl | rfl | rfl
          · exact ⟨k + 1, by rw [hk, ← pow_succ]⟩
          · rcases hk' with rfl | ⟨j, rfl⟩
            · exact absurd (by rw [hk]; simp) hx1
            · exact ⟨j, by rw [hk, pow_succ, mul_inv_cancel_right]⟩
          · exact ⟨k + 1, by rw [hk, ← pow_succ']⟩
          · rcases hk' with rfl | ⟨j, rfl⟩
            · exact absurd (by rw [hk]; simp) hx1
            · exact ⟨j, by rw [hk, pow_succ', inv_mul_cancel_left]⟩
        rw [h1]
        constructor
        · intro x hx
          rw [List.mem_append, List.mem_append] at hx
          rcases hx with (hx | hx) | hx
          · exact ih.1 x hx
          · exact ⟨k + 1, by rw [h2 x hx, hk]⟩
          · obtain ⟨k, hk⟩ := hnew x hx
            exact ⟨k + 1, hk⟩
        · intro x hx
          rw [List.mem_append] at hx
          rcases hx with hx | hx
          · exact ih.2 x (by rw [hw]; simp [hx])
          · exact hnew x hx
  refine ⟨inv_mem (Subgroup.subset_closure (by simp)), ?_⟩
  rintro ⟨n, hn⟩
  obtain ⟨k, hk⟩ := (hpow n).1 _ hn
  apply hg
  rw [isOfFinOrder_iff_pow_eq_one]
  refine ⟨k + 1, Nat.succ_pos _, ?_⟩
  rw [pow_succ, ← hk, inv_mul_cancel]

/-- **C42**. `is_abelian()` says whether the group is abelian. -/
theorem C42_is_abelian (gens : List G) : isAbelian gens = true ↔ ∀ x ∈ gen gens, ∀ y ∈ gen gens, x * y = y * x := by
  simp only [isAbelian, List.all_eq_true, decide_eq_true_eq]
  constructor
  · intro h x hx y hy
    have h1 : ∀ a ∈ gens, ∀ y ∈ gen gens, Commute a y := by
      intro a ha y hy
      have : gen gens ≤ Subgroup.centralizer {a} := by
        unfold gen
        rw [Subgroup.closure_le]
        intro b hb
        rw [SetLike.mem_coe, Subgroup.mem_centralizer_iff]
        intro c hc
        rw [Set.mem_singleton_iff] at hc
        rw [hc]
        exact h a ha b hb
      have h2 := Subgroup.mem_centralizer_iff.1 (this hy) a rfl
      exact h2
    have : gen gens ≤ Subgroup.centralizer {y} := by
      unfold gen
      rw [Subgroup.closure_le]
      intro b hb
      rw [SetLike.mem_coe, Subgroup.mem_centralizer_iff]
      intro c hc
      rw [Set.mem_singleton_iff] at hc
      rw [hc]
      exact (h1 b hb y hy).symm
    exact (Subgroup.mem_centralizer_iff.1 (this hx) y rfl).symm
  · intro h a ha b hb
    exact h a (Subgroup.subset_closure ha) b (Subgroup.subset_closure hb)

end

/-- The hypotheses of `C42_iter_complete_partial` and `C42_iter_finite` hold for a finite group with two generators. -/
example : ∃ x y : Equiv.Perm (Fin 3), x * y ≠ y * x ∧ (∃ g ∈ [x, y], ∃ h ∈ [x, y], g ≠ h) ∧ (gen [x, y] : Set (Equiv.Perm (Fin 3))).Finite :=
  ⟨Equiv.swap 0 1, Equiv.swap 1 2, by decide, ⟨_, by simp, _, by simp, (by decide : (Equiv.swap 0 1 : Equiv.Perm (Fin 3)) ≠ Equiv.swap 1 2)⟩, Set.toFinite _⟩

/-- The hypothesis of `C42_iter_violation` holds for the translations of the integers. -/
example : ¬ IsOfFinOrder (Multiplicative.ofAdd (1 : ℤ)) := by
  rw [isOfFinOrder_iff_pow_eq_one]
  rintro ⟨n, hn, h⟩
  rw [← ofAdd_nsmul] at h
  have : (n • (1 : ℤ)) = 0 := h
  simp at this
  omega

end MatGroup
end Flat
