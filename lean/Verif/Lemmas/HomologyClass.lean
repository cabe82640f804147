import Verif.Model.HomologyClass
import Verif.Lemmas.Dict
import Verif.Lemmas.MapM

/-!
# Coordinates of homology classes
-/

namespace Flat
open Module
namespace HGroup
variable {R : Type} [CommRing R] (G : HGroup R)

/-- The coordinates of a cycle. -/
noncomputable def coord : G.Z →ₗ[R] (Fin G.m → R) := G.basis.equivFun.toLinearMap ∘ₗ (G.B.submoduleOf G.Z).mkQ

theorem coefficients_ok (x : G.Z) : G.coefficients x.1 = .ok (G.coord x) := by
  unfold coefficients
  rw [dif_pos x.2]
  rfl

theorem coefficients_not {x : G.Chain} (h : x ∉ G.Z) : G.coefficients x = .error .valueError := by
  unfold coefficients
  rw [dif_neg h]

theorem coord_eq_iff (x y : G.Z) : G.coord x = G.coord y ↔ x.1 - y.1 ∈ G.B := by
  unfold coord
  rw [LinearMap.comp_apply, LinearMap.comp_apply]
  show G.basis.equivFun _ = G.basis.equivFun _ ↔ _
  rw [G.basis.equivFun.injective.eq_iff, Submodule.mkQ_apply, Submodule.mkQ_apply, Submodule.Quotient.eq]
  rfl

theorem eq_true (x y : G.Z) (h : G.coord x = G.coord y) : G.eq x.1 y.1 = .ok true := by
  classical
  unfold eq
  simp only [G.coefficients_ok, bind, Except.bind, pure, Except.pure, h, decide_true]

theorem eq_false (x y : G.Z) (h : G.coord x ≠ G.coord y) : G.eq x.1 y.1 = .ok false := by
  classical
  unfold eq
  simp only [G.coefficients_ok, bind, Except.bind, pure, Except.pure, h, decide_false]

theorem eq_true_iff (x y : G.Z) : G.eq x.1 y.1 = .ok true ↔ G.coord x = G.coord y := by
  constructor
  · intro h
    by_contra h'
    rw [G.eq_false x y h'] at h
    cases h
  · exact G.eq_true x y

theorem coord_lift (q : G.Z ⧸ G.B.submoduleOf G.Z) : G.coord (G.lift q) = G.basis.equivFun q := by
  unfold coord
  rw [LinearMap.comp_apply, Submodule.mkQ_apply, G.lift_mk]
  rfl

theorem coord_lift_sum (c : Fin G.m → R) : G.coord (G.lift (∑ i, c i • G.basis i)) = c := by
  rw [coord_lift]
  funext i
  rw [Basis.equivFun_apply, Basis.repr_sum_self]

theorem coord_lift_basis (i : Fin G.m) : G.coord (G.lift (G.basis i)) = Pi.single i 1 := by
  rw [coord_lift]
  funext j
  rw [Basis.equivFun_self, Pi.single_apply]
  simp only [eq_comm]

theorem gens_length : G.gens.length = G.m := by
  unfold gens
  rw [List.length_map, List.length_finRange]

/-- The generator with the given number. -/
noncomputable def gen (i : Fin G.m) : G.Z := G.lift (G.basis i)

theorem gens_eq : G.gens = (List.finRange G.m).map fun i => (G.gen i).1 := rfl

theorem coord_gen (i : Fin G.m) : G.coord (G.gen i) = Pi.single i 1 := G.coord_lift_basis i

theorem filter_single [Nontrivial R] (n : ℕ) (i : Fin n) [∀ j : Fin n, Decidable ((Pi.single i (1 : R) : Fin n → R) j ≠ 0)] :
    (List.finRange n).filter (fun j => (Pi.single i (1 : R) : Fin n → R) j ≠ 0) = [i] := by
  have h : (fun j : Fin n => decide ((Pi.single i (1 : R) : Fin n → R) j ≠ 0)) = fun j => j == i := by
    funext j
    by_cases h : j = i
    · subst h; simp
    · simp [h]
  rw [h]
  rw [List.filter_beq, List.count_eq_one_of_mem (List.nodup_finRange n) (List.mem_finRange i)]
  rfl

/-- The coefficient at a class with the coordinates of a generator. -/
theorem coefficient_ok [Nontrivial R] (x y : G.Z) (i : Fin G.m) (h : G.coord y = Pi.single i 1) : G.coefficient x.1 y.1 = .ok (G.coord x i) := by
  unfold coefficient
  rw [coefficients_ok, coefficients_ok, h]
  simp only [bind, Except.bind, filter_single, Pi.single_eq_same, ne_eq, not_true_eq_false, if_false, pure, Except.pure]

theorem coefficient_gen [Nontrivial R] (x : G.Z) (i : Fin G.m) : G.coefficient x.1 (G.gen i).1 = .ok (G.coord x i) :=
  G.coefficient_ok x _ i (G.coord_gen i)

theorem filter_eq_singleton {n : ℕ} {p : Fin n → Prop} [DecidablePred p] {i : Fin n} (h : (List.finRange n).filter (fun j => p j) = [i]) : ∀ j, p j ↔ j = i := by
  intro j
  have : j ∈ (List.finRange n).filter (fun j => p j) ↔ j ∈ [i] := by rw [h]
  simpa using this

theorem coefficient_succeeds {x y : G.Z} {r : R} (h : G.coefficient x.1 y.1 = .ok r) : ∃ i, G.coord y = Pi.single i 1 := by
  classical
  unfold coefficient at h
  rw [coefficients_ok] at h
  simp only [bind, Except.bind] at h
  split at h
  · rename_i i hi
    have hi' := filter_eq_singleton (p := fun j => G.coord y j ≠ 0) (by simpa using hi)
    split_ifs at h with h1
    · refine ⟨i, ?_⟩
      funext j
      by_cases hj : j = i
      · subst hj
        rw [Pi.single_eq_same]
        exact not_not.1 h1
      · rw [Pi.single_eq_of_ne hj]
        by_contra h2
        exact hj ((hi' j).1 h2)
  · cases h

end HGroup

namespace Cochain
variable {G : HGroup ℤ} {A : Type} [CommRing A] [DecidableEq A]

/-- The value at a generator. -/
def val (f : Cochain G A) (i : Fin G.m) : A := (Dict.get f (Pi.single i 1)).getD 0

theorem evalLoop_ok (f : Cochain G A) (h : G.Z) (is : List (Fin G.m)) :
    f.evalLoop h.1 (is.map fun i => (G.gen i).1) = .ok ((is.map fun i => f.val i * (G.coord h i : A)).sum) := by
  induction is with
  | nil => rfl
  | cons i is ih =>
    rw [List.map_cons, evalLoop, ih, G.coefficients_ok, G.coefficient_gen, G.coord_gen]
    simp only [bind, Except.bind, pure, Except.pure, List.map_cons, List.sum_cons]
    rfl

theorem eval_ok (f : Cochain G A) (h : G.Z) : f.eval h.1 = .ok (∑ i, f.val i * (G.coord h i : A)) := by
  unfold eval
  rw [G.gens_eq, evalLoop_ok, ← List.ofFn_eq_map, List.sum_ofFn]

theorem eval_gen (f : Cochain G A) (i : Fin G.m) : f.eval (G.gen i).1 = .ok (f.val i) := by
  rw [eval_ok, G.coord_gen, Finset.sum_eq_single i]
  · simp
  · intro j _ hj
    simp [Pi.single_eq_of_ne hj]
  · simp

theorem addLoop_ok (f g : Cochain G A) (is : List (Fin G.m)) :
    addLoop f g (is.map fun i => (G.gen i).1) = .ok ((is.filter fun i => f.val i + g.val i ≠ 0).map fun i => ((G.gen i).1, f.val i + g.val i)) := by
  induction is with
  | nil => rfl
  | cons i is ih =>
    rw [List.map_cons, addLoop, eval_gen, eval_gen, ih]
    simp only [bind, Except.bind, pure, Except.pure]
    by_cases h : f.val i + g.val i = 0
    · rw [if_pos h, List.filter_cons_of_neg (by simpa using h)]
    · rw [if_neg h, List.filter_cons_of_pos (by simpa using h)]
      rfl

/-- What `makeLoop` stores. -/
theorem makeLoop_ok (x : List (G.Z × A)) (d : Cochain G A) : ∃ f, makeLoop d (x.map fun e => (e.1.1, e.2)) = .ok f ∧
    ∀ c, Dict.get f c = ((x.filter fun e => e.2 ≠ 0).reverse.find? fun e => decide (G.coord e.1 = c)).elim (Dict.get d c) (fun e => some e.2) := by
  induction x generalizing d with
  | nil => exact ⟨d, rfl, fun c => rfl⟩
  | cons e x ih =>
    rw [List.map_cons, makeLoop]
    by_cases h : e.2 = 0
    · obtain ⟨f, h1, h2⟩ := ih d
      refine ⟨f, by rw [if_pos h, h1], fun c => ?_⟩
      rw [h2, List.filter_cons_of_neg (by simpa using h)]
    · obtain ⟨f, h1, h2⟩ := ih (Dict.set d (G.coord e.1) e.2)
      refine ⟨f, ?_, fun c => ?_⟩
      · rw [if_neg h, G.coefficients_ok]
        simp only [bind, Except.bind]
        exact h1
      · rw [h2, List.filter_cons_of_pos (by simpa using h), List.reverse_cons, List.find?_append]
        cases List.find? (fun e => decide (G.coord e.1 = c)) (List.filter (fun e => decide (e.2 ≠ 0)) x).reverse with
        | some e' => rfl
        | none =>
          rw [Dict.get_set]
          by_cases hc : G.coord e.1 = c
          · simp [hc]
          · simp [hc, Ne.symm hc]

omit [DecidableEq A] in
theorem single_injective {n : ℕ} {i j : Fin n} (h : (Pi.single i 1 : Fin n → ℤ) = Pi.single j 1) : i = j := by
  by_contra hij
  have := congrFun h i
  rw [Pi.single_eq_same, Pi.single_eq_of_ne hij] at this
  exact one_ne_zero this

/-- A dictionary whose keys are different generators. -/
theorem make_gens (is : List (Fin G.m)) (a : Fin G.m → A) : ∃ f, make G (is.map fun i => ((G.gen i).1, a i)) = .ok f ∧
    (∀ i, Dict.get f (Pi.single i 1) = if i ∈ is ∧ a i ≠ 0 then some (a i) else none) ∧ ∀ c, (∀ i, c ≠ Pi.single i 1) → Dict.get f c = none := by
  obtain ⟨f, h1, h2⟩ := makeLoop_ok (is.map fun i => (G.gen i, a i)) ([] : Cochain G A)
  refine ⟨f, by rw [← h1, List.map_map]; rfl, fun i => ?_, fun c hc => ?_⟩
  · rw [h2]
    split_ifs with h
    · cases hf : List.find? (fun e : G.Z × A => decide (G.coord e.1 = Pi.single i 1)) ((is.map fun i => (G.gen i, a i)).filter fun e => e.2 ≠ 0).reverse with
      | none =>
        have := List.find?_eq_none.1 hf (G.gen i, a i) (by
          rw [List.mem_reverse, List.mem_filter]
          exact ⟨List.mem_map.2 ⟨i, h.1, rfl⟩, by simpa using h.2⟩)
        exact absurd (by simpa using G.coord_gen i) this
      | some e =>
        have h3 := List.find?_some hf
        have h4 := List.mem_of_find?_eq_some hf
        rw [List.mem_reverse, List.mem_filter, List.mem_map] at h4
        obtain ⟨⟨j, hj, rfl⟩, -⟩ := h4
        have h3 : G.coord (G.gen j) = Pi.single i 1 := by simpa using h3
        rw [G.coord_gen] at h3
        rw [single_injective h3]
        rfl
    · have hf : List.find? (fun e : G.Z × A => decide (G.coord e.1 = Pi.single i 1)) ((is.map fun i => (G.gen i, a i)).filter fun e => e.2 ≠ 0).reverse = none := by
        rw [List.find?_eq_none]
        intro e he
        rw [List.mem_reverse, List.mem_filter, List.mem_map] at he
        obtain ⟨⟨j, hj, rfl⟩, h4⟩ := he
        intro h3
        have h3 : G.coord (G.gen j) = Pi.single i 1 := by simpa using h3
        rw [G.coord_gen] at h3
        have := single_injective h3
        subst this
        exact h ⟨hj, by simpa using h4⟩
      rw [hf]
      rfl
  · rw [h2]
    have hf : List.find? (fun e : G.Z × A => decide (G.coord e.1 = c)) ((is.map fun i => (G.gen i, a i)).filter fun e => e.2 ≠ 0).reverse = none := by
      rw [List.find?_eq_none]
      intro e he
      rw [List.mem_reverse, List.mem_filter, List.mem_map] at he
      obtain ⟨⟨j, hj, rfl⟩, h4⟩ := he
      intro h3
      have h3 : G.coord (G.gen j) = c := by simpa using h3
      rw [G.coord_gen] at h3
      exact hc j h3.symm
    rw [hf]
    rfl

end Cochain
end Flat
