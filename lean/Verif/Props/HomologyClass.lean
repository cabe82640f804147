import Verif.Lemmas.HomologyClass
import Verif.Lemmas.HomologyCycles
import Verif.Props.HomologyGroup

/-!
# C77: homology and cohomology classes
-/

namespace Flat
open Module
namespace HGroup
variable {R : Type} [CommRing R] (G : HGroup R)

/-- Cycles are equal as homology classes if and only if they differ by a boundary; the coefficients, and so `==` and `hash`, of any other chain are an
error. -/
theorem C77_equality (x y : G.Chain) :
    (x ∈ G.Z → y ∈ G.Z → (G.eq x y = .ok true ∧ x - y ∈ G.B) ∨ (G.eq x y = .ok false ∧ x - y ∉ G.B)) ∧
      (x ∉ G.Z → G.coefficients x = .error .valueError ∧ G.eq x y = .error .valueError) := by
  constructor
  · intro hx hy
    have h := G.coord_eq_iff ⟨x, hx⟩ ⟨y, hy⟩
    by_cases hb : x - y ∈ G.B
    · exact .inl ⟨G.eq_true ⟨x, hx⟩ ⟨y, hy⟩ (h.2 hb), hb⟩
    · exact .inr ⟨G.eq_false ⟨x, hx⟩ ⟨y, hy⟩ fun h' => hb (h.1 h'), hb⟩
  · intro hx
    refine ⟨G.coefficients_not hx, ?_⟩
    unfold eq
    rw [G.coefficients_not hx]
    rfl

/-- Equal classes have equal coefficients, i.e., the same hash. -/
theorem C77_hash (x y : G.Chain) (h : G.eq x y = .ok true) : ∃ c, G.coefficients x = .ok c ∧ G.coefficients y = .ok c := by
  classical
  unfold eq at h
  obtain ⟨a, ha, h⟩ := RSurf.except_bind_ok.1 h
  obtain ⟨b, hb, h⟩ := RSurf.except_bind_ok.1 h
  have h := Except.ok.inj h
  have := of_decide_eq_true h
  subst this
  exact ⟨a, ha, hb⟩

/-- The coefficients are linear. -/
theorem C77_coefficients_linear (x y : G.Chain) (a b : Fin G.m → R) (hx : G.coefficients x = .ok a) (hy : G.coefficients y = .ok b) (r : R) :
    G.coefficients (G.add x y) = .ok (a + b) ∧ G.coefficients (G.sub x y) = .ok (a - b) ∧ G.coefficients (G.neg x) = .ok (-a) ∧
      G.coefficients (G.scale r x) = .ok (r • a) := by
  have hxZ : x ∈ G.Z := by
    by_contra h
    rw [G.coefficients_not h] at hx
    cases hx
  have hyZ : y ∈ G.Z := by
    by_contra h
    rw [G.coefficients_not h] at hy
    cases hy
  rw [G.coefficients_ok ⟨x, hxZ⟩] at hx
  rw [G.coefficients_ok ⟨y, hyZ⟩] at hy
  injection hx with hx
  injection hy with hy
  subst hx hy
  refine ⟨?_, ?_, ?_, ?_⟩
  · rw [← map_add, ← G.coefficients_ok]; rfl
  · rw [← map_sub, ← G.coefficients_ok]; rfl
  · rw [← map_neg, ← G.coefficients_ok]; rfl
  · rw [← map_smul, ← G.coefficients_ok]; rfl

/-- Every class is the combination of the generators with its coefficients, and in no other way. -/
theorem C77_expansion [Nontrivial R] (x : G.Chain) (hx : x ∈ G.Z) : ∃ c : Fin G.m → R, G.coefficients x = .ok c ∧
    (∀ i : Fin G.m, ∃ γ, G.gens[i]? = some γ ∧ G.coefficient x γ = .ok (c i)) ∧
    ∀ b : Fin G.m → R, G.eq x (∑ i, G.scale (b i) (G.gens.getD i 0)) = .ok true ↔ b = c := by
  refine ⟨G.coord ⟨x, hx⟩, G.coefficients_ok ⟨x, hx⟩, fun i => ⟨(G.gen i).1, ?_, G.coefficient_gen ⟨x, hx⟩ i⟩, fun b => ?_⟩
  · rw [G.gens_eq]
    simp
  · have hg : ∀ i : Fin G.m, G.gens.getD i 0 = (G.gen i).1 := by
      intro i
      rw [G.gens_eq]
      simp [List.getD_eq_getElem?_getD]
    have hs : ∑ i, G.scale (b i) (G.gens.getD i 0) = (∑ i, b i • G.gen i : G.Z).1 := by
      rw [AddSubmonoidClass.coe_finset_sum]
      exact Finset.sum_congr rfl fun i _ => by rw [hg]; rfl
    have hc : G.coord (∑ i, b i • G.gen i) = b := by
      rw [map_sum]
      funext j
      rw [Finset.sum_apply, Finset.sum_eq_single j]
      · rw [map_smul, G.coord_gen]; simp
      · intro k _ hk
        rw [map_smul, G.coord_gen]; simp [Pi.single_eq_of_ne (Ne.symm hk)]
      · simp
    rw [hs, G.eq_true_iff ⟨x, hx⟩, hc]
    exact eq_comm

/-- `coefficient()` accepts exactly the classes that are equal to a generator. -/
theorem C77_coefficient_accepts [Nontrivial R] (x γ : G.Chain) (hx : x ∈ G.Z) (hγ : γ ∈ G.Z) :
    (∃ r, G.coefficient x γ = .ok r) ↔ ∃ g ∈ G.gens, G.eq γ g = .ok true := by
  constructor
  · rintro ⟨r, h⟩
    obtain ⟨i, hi⟩ := G.coefficient_succeeds (x := ⟨x, hx⟩) (y := ⟨γ, hγ⟩) h
    refine ⟨(G.gen i).1, by rw [G.gens_eq]; exact List.mem_map.2 ⟨i, List.mem_finRange i, rfl⟩, ?_⟩
    exact G.eq_true ⟨γ, hγ⟩ _ (by rw [hi, G.coord_gen])
  · rintro ⟨g, hg, h⟩
    rw [G.gens_eq] at hg
    obtain ⟨i, -, rfl⟩ := List.mem_map.1 hg
    refine ⟨_, G.coefficient_ok ⟨x, hx⟩ ⟨γ, hγ⟩ i ?_⟩
    obtain ⟨c, h1, h2⟩ := G.C77_hash _ _ h
    rw [G.coefficients_ok ⟨γ, hγ⟩] at h1
    rw [G.coefficients_ok, G.coord_gen] at h2
    rw [Except.ok.inj h1, ← Except.ok.inj h2]

/-- For a class that is not equal to a generator, `coefficient()` raises a `ValueError`. -/
theorem C77_coefficient_error [Nontrivial R] (x γ : G.Chain) (hx : x ∈ G.Z) (hγ : γ ∈ G.Z)
    (h : ∀ g ∈ G.gens, G.eq γ g ≠ .ok true) : G.coefficient x γ = .error .valueError := by
  have hn : ¬ ∃ r, G.coefficient x γ = .ok r := fun hr => by
    obtain ⟨g, hg, he⟩ := (G.C77_coefficient_accepts x γ hx hγ).1 hr
    exact h g hg he
  have h1 := G.coefficients_ok ⟨γ, hγ⟩
  have h2 := G.coefficients_ok ⟨x, hx⟩
  simp only at h1 h2
  simp only [coefficient, h1, h2, bind, Except.bind, pure, Except.pure] at hn ⊢
  split at hn
  · rename_i i _
    by_cases hc : G.coord ⟨γ, hγ⟩ i ≠ 1
    · rw [if_pos hc]; rfl
    · rw [if_neg hc] at hn
      exact absurd ⟨_, rfl⟩ hn
  · rfl

/-- **C77, violation.** `bool()` of a homology class does not tell whether the class is zero: a boundary is equal to zero but `bool()` is true. -/
theorem C77_bool_violation (x : G.Chain) (hB : G.B ≤ G.Z) (hx : x ∈ G.B) (h0 : x ≠ 0) : G.eq x 0 = .ok true ∧ G.bool x = true := by
  refine ⟨?_, by unfold bool; classical exact decide_eq_true h0⟩
  rcases (G.C77_equality x 0).1 (hB hx) (Submodule.zero_mem _) with h | h
  · exact h.1
  · rw [sub_zero] at h
    exact absurd hx h.2

end HGroup

namespace Cochain
variable {G : HGroup ℤ} {A : Type} [CommRing A] [DecidableEq A]

/-- A cohomology class is a homomorphism from homology: its value only depends on the homology class, and it is additive. -/
theorem C77_evaluate_linear (f : Cochain G A) (x y : G.Chain) (hx : x ∈ G.Z) (hy : y ∈ G.Z) (r : ℤ) :
    ∃ a b : A, f.eval x = .ok a ∧ f.eval y = .ok b ∧ f.eval (G.add x y) = .ok (a + b) ∧ f.eval (G.sub x y) = .ok (a - b) ∧
      f.eval (G.scale r x) = .ok (r * a) ∧ (G.eq x y = .ok true → a = b) := by
  refine ⟨_, _, f.eval_ok ⟨x, hx⟩, f.eval_ok ⟨y, hy⟩, ?_, ?_, ?_, ?_⟩
  · have := f.eval_ok (⟨x, hx⟩ + ⟨y, hy⟩)
    rw [map_add] at this
    refine Eq.trans this ?_
    congr 1
    rw [← Finset.sum_add_distrib]
    exact Finset.sum_congr rfl fun i _ => by rw [Pi.add_apply]; push_cast; ring
  · have := f.eval_ok (⟨x, hx⟩ - ⟨y, hy⟩)
    rw [map_sub] at this
    refine Eq.trans this ?_
    congr 1
    rw [← Finset.sum_sub_distrib]
    exact Finset.sum_congr rfl fun i _ => by rw [Pi.sub_apply]; push_cast; ring
  · have := f.eval_ok (r • ⟨x, hx⟩)
    rw [map_smul] at this
    refine Eq.trans this ?_
    congr 1
    rw [Finset.mul_sum]
    exact Finset.sum_congr rfl fun i _ => by rw [Pi.smul_apply, smul_eq_mul]; push_cast; ring
  · intro h
    obtain ⟨c, h1, h2⟩ := G.C77_hash _ _ h
    rw [G.coefficients_ok ⟨x, hx⟩] at h1
    rw [G.coefficients_ok ⟨y, hy⟩] at h2
    rw [Except.ok.inj h1, Except.ok.inj h2]

/-- The sum of cohomology classes is the pointwise sum. -/
theorem C77_evaluate_add (f g : Cochain G A) : ∃ s, f.add g = .ok s ∧
    ∀ x ∈ G.Z, ∃ a b : A, f.eval x = .ok a ∧ g.eval x = .ok b ∧ s.eval x = .ok (a + b) := by
  have h1 : f.add g = make G (((List.finRange G.m).filter fun i => f.val i + g.val i ≠ 0).map fun i => ((G.gen i).1, f.val i + g.val i)) := by
    unfold add
    rw [G.gens_eq, addLoop_ok]
    rfl
  obtain ⟨s, h2, h3, -⟩ := make_gens (G := G) ((List.finRange G.m).filter fun i => f.val i + g.val i ≠ 0) (fun i => f.val i + g.val i)
  refine ⟨s, by rw [h1, h2], fun x hx => ⟨_, _, f.eval_ok ⟨x, hx⟩, g.eval_ok ⟨x, hx⟩, ?_⟩⟩
  have := s.eval_ok ⟨x, hx⟩
  refine Eq.trans this ?_
  congr 1
  rw [← Finset.sum_add_distrib]
  refine Finset.sum_congr rfl fun i _ => ?_
  have hv : s.val i = f.val i + g.val i := by
    unfold val
    rw [h3]
    by_cases h : f.val i + g.val i = 0
    · rw [if_neg fun h' => h'.2 h]
      exact h.symm
    · rw [if_pos ⟨List.mem_filter.2 ⟨List.mem_finRange i, by simpa using h⟩, h⟩]
      rfl
  rw [hv]
  ring

/-- Cohomology is dual to homology: every homomorphism from homology is a cohomology class, given by its values at the generators, and
cohomology classes that are made of values at generators are equal if and only if they agree everywhere. -/
theorem C77_dual (φ : G.Chain → A) (hadd : ∀ x ∈ G.Z, ∀ y ∈ G.Z, φ (x + y) = φ x + φ y) (hB : ∀ x ∈ G.B, x ∈ G.Z → φ x = 0) :
    ∃ f : Cochain G A, make G (G.gens.map fun γ => (γ, φ γ)) = .ok f ∧ ∀ x ∈ G.Z, f.eval x = .ok (φ x) := by
  have hz : φ 0 = 0 := by
    have := hadd 0 (Submodule.zero_mem _) 0 (Submodule.zero_mem _)
    rw [add_zero] at this
    simpa using this
  obtain ⟨f, h1, h2, -⟩ := make_gens (G := G) (List.finRange G.m) (fun i => φ (G.gen i).1)
  refine ⟨f, by rw [← h1, G.gens_eq, List.map_map]; rfl, fun x hx => ?_⟩
  -- `φ` as a homomorphism
  let Φ : G.Z →+ A := ⟨⟨fun x => φ x.1, hz⟩, fun x y => hadd _ x.2 _ y.2⟩
  have hval : ∀ i, f.val i = Φ (G.gen i) := by
    intro i
    unfold val
    rw [h2]
    by_cases h : φ (G.gen i).1 = 0
    · rw [if_neg fun h' => h'.2 h]
      exact h.symm
    · rw [if_pos ⟨List.mem_finRange i, h⟩]
      rfl
  have hsum : Φ ⟨x, hx⟩ = Φ (∑ i, G.coord ⟨x, hx⟩ i • G.gen i) := by
    have hb : x - (∑ i, G.coord ⟨x, hx⟩ i • G.gen i : G.Z).1 ∈ G.B := by
      rw [← G.coord_eq_iff ⟨x, hx⟩, map_sum]
      funext j
      rw [Finset.sum_apply, Finset.sum_eq_single j]
      · rw [map_smul, G.coord_gen]; simp
      · intro k _ hk
        rw [map_smul, G.coord_gen]; simp [Pi.single_eq_of_ne (Ne.symm hk)]
      · simp
    have h3 := hB _ hb (Submodule.sub_mem _ hx (∑ i, G.coord ⟨x, hx⟩ i • G.gen i : G.Z).2)
    have h4 : Φ (⟨x, hx⟩ - ∑ i, G.coord ⟨x, hx⟩ i • G.gen i) = 0 := h3
    rw [map_sub] at h4
    exact sub_eq_zero.1 h4
  refine (f.eval_ok ⟨x, hx⟩).trans ?_
  congr 1
  refine Eq.trans ?_ hsum.symm
  rw [map_sum]
  exact Finset.sum_congr rfl fun i _ => by rw [hval, map_zsmul, zsmul_eq_mul, mul_comm]

/-- Cohomology classes that are made of values at generators are equal if and only if they agree on all of homology. -/
theorem C77_cohomology_equality_partial (is js : List (Fin G.m)) (a b : Fin G.m → A) (f g : Cochain G A)
    (hf : make G (is.map fun i : Fin G.m => (G.gens.getD i 0, a i)) = .ok f) (hg : make G (js.map fun i : Fin G.m => (G.gens.getD i 0, b i)) = .ok g) :
    Eq f g ↔ ∀ x ∈ G.Z, f.eval x = g.eval x := by
  have hgen : ∀ i : Fin G.m, G.gens.getD i 0 = (G.gen i).1 := by
    intro i
    rw [G.gens_eq]
    simp [List.getD_eq_getElem?_getD]
  simp only [hgen] at hf hg
  obtain ⟨f', h1, h2, h3⟩ := make_gens (G := G) is a
  rw [hf] at h1
  cases h1
  obtain ⟨g', h1, k2, k3⟩ := make_gens (G := G) js b
  rw [hg] at h1
  cases h1
  constructor
  · intro h x hx
    have h := fun c => h c
    rw [f.eval_ok ⟨x, hx⟩, g.eval_ok ⟨x, hx⟩]
    congr 1
    exact Finset.sum_congr rfl fun i _ => by unfold val; rw [h]
  · intro h c
    by_cases hc : ∃ i, c = Pi.single i 1
    · obtain ⟨i, rfl⟩ := hc
      have := h _ (G.gen i).2
      rw [eval_gen, eval_gen] at this
      have hv := Except.ok.inj this
      unfold val at hv
      rw [h2, k2] at hv ⊢
      split_ifs at hv ⊢ with p q q
      · exact congrArg some hv
      · exact absurd hv p.2
      · exact absurd hv.symm q.2
      · rfl
    · push Not at hc
      rw [h3 c hc, k3 c hc]

/-- `gens()` is the dual basis of the generators of homology. -/
theorem C77_cohomology_gens [Nontrivial A] : ∃ fs : List (Cochain G A), gens G A = .ok fs ∧ fs.length = G.m ∧
    ∀ i j : Fin G.m, ∃ f γ, fs[i]? = some f ∧ G.gens[j]? = some γ ∧ f.eval γ = .ok (if i = j then 1 else 0) := by
  have hF : ∀ i : Fin G.m, ∃ f : Cochain G A, make G [((G.gen i).1, (1 : A))] = .ok f ∧ ∀ j, f.val j = if i = j then 1 else 0 := by
    intro i
    obtain ⟨f, h1, h2, -⟩ := make_gens (G := G) [i] (fun _ => (1 : A))
    refine ⟨f, h1, fun j => ?_⟩
    unfold val
    rw [h2]
    by_cases h : i = j
    · subst h
      simp
    · rw [if_neg fun h' => h (List.mem_singleton.1 h'.1).symm, if_neg h]
      rfl
  choose F hF1 hF2 using hF
  refine ⟨(List.finRange G.m).map F, ?_, by simp, fun i j => ⟨F i, (G.gen j).1, by simp, by rw [G.gens_eq]; simp, ?_⟩⟩
  · unfold gens
    rw [G.gens_eq]
    generalize List.finRange G.m = is
    induction is with
    | nil => rfl
    | cons i is ih =>
      rw [List.map_cons, List.mapM_cons, hF1, ih]
      rfl
  · rw [eval_gen, hF2]

/-- **C77, violation.** A value at a class that is not a generator is accepted but ignored: the class with value 1 at twice a generator is not equal to zero,
although it is zero everywhere, also at twice the generator. -/
theorem C77_values_violation [Nontrivial A] (γ : G.Chain) (hγ : γ ∈ G.gens) : ∃ f : Cochain G A, make G [(G.scale 2 γ, (1 : A))] = .ok f ∧
    (∀ x ∈ G.Z, f.eval x = .ok 0) ∧ ¬ Eq f [] := by
  rw [G.gens_eq] at hγ
  obtain ⟨i, -, rfl⟩ := List.mem_map.1 hγ
  have hne : ∀ j, ((2 : ℤ) • (Pi.single i 1 : Fin G.m → ℤ)) ≠ Pi.single j 1 := by
    intro j h
    have := congrFun h i
    rw [Pi.smul_apply, Pi.single_eq_same, Pi.single_apply] at this
    split_ifs at this <;> simp at this
  refine ⟨[((2 : ℤ) • Pi.single i 1, 1)], ?_, fun x hx => ?_, fun h => ?_⟩
  · unfold make
    rw [makeLoop, if_neg one_ne_zero]
    have : G.coefficients (G.scale 2 (G.gen i).1) = .ok ((2 : ℤ) • Pi.single i 1) := by
      rw [← G.coord_gen, ← map_smul, ← G.coefficients_ok]
      rfl
    rw [this]
    rfl
  · refine (eval_ok _ ⟨x, hx⟩).trans ?_
    congr 1
    refine Finset.sum_eq_zero fun j _ => ?_
    unfold val
    rw [Dict.get, if_neg (hne j)]
    simp
  · have := h ((2 : ℤ) • Pi.single i 1)
    simp [Dict.get] at this

end Cochain
end Flat
