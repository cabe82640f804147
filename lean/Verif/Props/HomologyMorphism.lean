import Verif.Lemmas.HomologyMorphism
import Verif.Props.HomologyClassSurface

/-!
# C78: morphisms of homology groups
-/

namespace Flat
open Module
namespace HGroup
variable {R : Type} [CommRing R] {G H J : HGroup R}

theorem cycle_of_coefficients {x : G.Chain} {c : Fin G.m → R} (h : G.coefficients x = .ok c) : ∃ hx : x ∈ G.Z, c = G.coord ⟨x, hx⟩ := by
  by_cases hx : x ∈ G.Z
  · rw [G.coefficients_ok ⟨x, hx⟩] at h
    exact ⟨hx, (Except.ok.inj h).symm⟩
  · rw [G.coefficients_not hx] at h
    cases h

/-- `hom()` with a matrix succeeds exactly if the matrix has the right shape; then `matrix()` returns this matrix, and the image of the `j`-th generator has
the `j`-th column as its coefficients. -/
theorem C78_hom_matrix (A : PMat R) :
    (A.rows = H.m ∧ A.cols = G.m → ∃ f : HMor G H, G.hom A (some H) = .ok ⟨H, f⟩ ∧
      (∃ B, matrix f = .ok B ∧ B.rows = A.rows ∧ B.cols = A.cols ∧ ∀ i < A.rows, ∀ j < A.cols, B.entry i j = A.entry i j) ∧
      ∀ j : Fin G.m, ∃ γ y, G.gens[j]? = some γ ∧ call f γ = .ok y ∧ H.coefficients y = .ok fun i : Fin H.m => A.entry i j) ∧
    (¬(A.rows = H.m ∧ A.cols = G.m) → G.hom A (some H) = .error .valueError) := by
  constructor
  · rintro ⟨h1, h2⟩
    refine ⟨.ofMatrix A, hom_some h1 h2, ?_, fun j => ?_⟩
    · obtain ⟨B, k1, k2, k3, k4⟩ := matrix_of_acts (acts_ofMatrix (G := G) (H := H) A)
      refine ⟨B, k1, k2.trans h1.symm, k3.trans h2.symm, fun i hi j hj => ?_⟩
      exact k4 ⟨i, h1 ▸ hi⟩ ⟨j, h2 ▸ hj⟩
    · obtain ⟨y, k1, k2⟩ := acts_ofMatrix (H := H) A (G.gen j)
      refine ⟨_, _, by rw [G.gens_eq]; simp, k1, ?_⟩
      rw [H.coefficients_ok, k2, G.coord_gen]
      congr 1
      funext i
      simp [Pi.single_apply]
  · intro h
    by_cases hc : A.cols = G.m
    · have hr : A.rows ≠ H.m := fun hr => h ⟨hr, hc⟩
      simp [hom, bind, Except.bind, pure, Except.pure, hc, hr, throw, throwThe, MonadExceptOf.throw]
    · simp [hom, bind, Except.bind, pure, Except.pure, hc, throw, throwThe, MonadExceptOf.throw]

/-- A morphism multiplies the coefficients with its matrix. -/
theorem C78_call_matrix {f : HMor G H} {A : PMat R} (hf : matrix f = .ok A) (x : G.Chain) (c : Fin G.m → R) (hx : G.coefficients x = .ok c) :
    ∃ y, call f x = .ok y ∧ H.coefficients y = .ok fun i : Fin H.m => ∑ j : Fin G.m, A.entry i j * c j := by
  obtain ⟨hx', rfl⟩ := cycle_of_coefficients hx
  obtain ⟨y, h1, h2⟩ := (acts_of_matrix hf).1 ⟨x, hx'⟩
  exact ⟨y.1, h1, by rw [H.coefficients_ok, h2]⟩

/-- A morphism is a homomorphism on classes: equal classes have equal images, sums are mapped to sums and multiples to multiples. -/
theorem C78_call_linear {f : HMor G H} {A : PMat R} (hf : matrix f = .ok A) (x y : G.Chain) (hx : x ∈ G.Z) (hy : y ∈ G.Z) (r : R) :
    ∃ a b s t, call f x = .ok a ∧ call f y = .ok b ∧ call f (G.add x y) = .ok s ∧ call f (G.scale r x) = .ok t ∧
      H.eq s (H.add a b) = .ok true ∧ H.eq t (H.scale r a) = .ok true ∧ (G.eq x y = .ok true → H.eq a b = .ok true) := by
  obtain ⟨a, a1, a2⟩ := (acts_of_matrix hf).1 ⟨x, hx⟩
  obtain ⟨b, b1, b2⟩ := (acts_of_matrix hf).1 ⟨y, hy⟩
  obtain ⟨s, s1, s2⟩ := (acts_of_matrix hf).1 (⟨x, hx⟩ + ⟨y, hy⟩)
  obtain ⟨t, t1, t2⟩ := (acts_of_matrix hf).1 (r • ⟨x, hx⟩)
  refine ⟨a, b, s, t, a1, b1, s1, t1, ?_, ?_, fun h => ?_⟩
  · refine H.eq_true s (a + b) ?_
    rw [map_add, s2, a2, b2, map_add]
    funext i
    simp [mul_add, Finset.sum_add_distrib]
  · refine H.eq_true t (r • a) ?_
    rw [map_smul, t2, a2, map_smul]
    funext i
    simp only [Pi.smul_apply, smul_eq_mul, Finset.mul_sum]
    exact Finset.sum_congr rfl fun j _ => by ring
  · refine H.eq_true a b ?_
    have := (G.eq_true_iff ⟨x, hx⟩ ⟨y, hy⟩).1 h
    rw [a2, b2, this]

/-- The sum of morphisms is the pointwise sum. -/
theorem C78_add {f g : HMor G H} {A B : PMat R} (hf : matrix f = .ok A) (hg : matrix g = .ok B) :
    ∃ s : HMor G H, addMor f g = .ok ⟨H, s⟩ ∧ ∀ x ∈ G.Z, ∃ a b c, call f x = .ok a ∧ call g x = .ok b ∧ call s x = .ok c ∧
      H.eq c (H.add a b) = .ok true := by
  obtain ⟨kf, f1, f2⟩ := acts_of_matrix hf
  obtain ⟨kg, -, -⟩ := acts_of_matrix hg
  refine ⟨.ofMatrix (A.add B), ?_, fun x hx => ?_⟩
  · simp only [addMor, hf, hg, bind, Except.bind]
    exact hom_some f1 f2
  · obtain ⟨a, a1, a2⟩ := kf ⟨x, hx⟩
    obtain ⟨b, b1, b2⟩ := kg ⟨x, hx⟩
    obtain ⟨c, c1, c2⟩ := acts_ofMatrix (H := H) (A.add B) ⟨x, hx⟩
    refine ⟨a, b, c, a1, b1, c1, H.eq_true c (a + b) ?_⟩
    rw [map_add, a2, b2, c2]
    funext i
    simp [PMat.add, add_mul, Finset.sum_add_distrib]

/-- The negative of a morphism is the pointwise negative. -/
theorem C78_neg {f : HMor G H} {A : PMat R} (hf : matrix f = .ok A) :
    ∃ s : HMor G H, negMor f = .ok ⟨H, s⟩ ∧ ∀ x ∈ G.Z, ∃ a c, call f x = .ok a ∧ call s x = .ok c ∧ H.eq c (H.neg a) = .ok true := by
  obtain ⟨kf, f1, f2⟩ := acts_of_matrix hf
  refine ⟨.ofMatrix A.neg, ?_, fun x hx => ?_⟩
  · simp only [negMor, hf, bind, Except.bind]
    exact hom_some f1 f2
  · obtain ⟨a, a1, a2⟩ := kf ⟨x, hx⟩
    obtain ⟨c, c1, c2⟩ := acts_ofMatrix (H := H) A.neg ⟨x, hx⟩
    refine ⟨a, c, a1, c1, H.eq_true c (-a) ?_⟩
    rw [map_neg, a2, c2]
    funext i
    simp [PMat.neg]

/-- The composition of morphisms. -/
theorem C78_composition {f : HMor G H} {g : HMor H J} {A B : PMat R} (hf : matrix f = .ok A) (hg : matrix g = .ok B) :
    ∃ s : HMor G J, compMor g f = .ok ⟨J, s⟩ ∧ ∀ x ∈ G.Z, ∃ a b c, call f x = .ok a ∧ call g a = .ok b ∧ call s x = .ok c ∧ J.eq c b = .ok true := by
  obtain ⟨kf, f1, f2⟩ := acts_of_matrix hf
  obtain ⟨kg, g1, g2⟩ := acts_of_matrix hg
  refine ⟨.ofMatrix (B.mul A), ?_, fun x hx => ?_⟩
  · simp only [compMor, hf, hg, bind, Except.bind]
    exact hom_some g1 f2
  · obtain ⟨a, a1, a2⟩ := kf ⟨x, hx⟩
    obtain ⟨b, b1, b2⟩ := kg a
    obtain ⟨c, c1, c2⟩ := acts_ofMatrix (H := J) (B.mul A) ⟨x, hx⟩
    refine ⟨a, b, c, a1, b1, c1, J.eq_true c b ?_⟩
    rw [b2, c2, a2]
    funext i
    simp only [PMat.mul, g2, Finset.sum_range, Finset.sum_mul, Finset.mul_sum]
    rw [Finset.sum_comm]
    exact Finset.sum_congr rfl fun k _ => Finset.sum_congr rfl fun j _ => by ring

/-- `identity()` maps every class to itself. -/
theorem C78_identity (x : G.Chain) (hx : x ∈ G.Z) : ∃ y, call G.identity x = .ok y ∧ G.eq y x = .ok true := by
  obtain ⟨y, h1, h2⟩ := acts_ofMatrix (H := G) (PMat.one G.m) ⟨x, hx⟩
  refine ⟨y, h1, G.eq_true y ⟨x, hx⟩ ?_⟩
  rw [h2]
  funext i
  simp [PMat.one, Fin.val_inj]

/-- `bool()` of a morphism: whether some class has a nonzero image. -/
theorem C78_bool {f : HMor G H} {A : PMat R} (hf : matrix f = .ok A) :
    ∃ b, boolMor f = .ok b ∧ (b = true ↔ ∃ x ∈ G.Z, ∃ y, call f x = .ok y ∧ H.eq y 0 = .ok false) := by
  classical
  obtain ⟨kf, f1, f2⟩ := acts_of_matrix hf
  refine ⟨decide (∃ i < A.rows, ∃ j < A.cols, A.entry i j ≠ 0), ?_, ?_⟩
  · simp only [boolMor, hf, bind, Except.bind, pure, Except.pure]
  rw [decide_eq_true_iff]
  constructor
  · rintro ⟨i, hi, j, hj, h⟩
    obtain ⟨y, h1, h2⟩ := kf (G.gen ⟨j, f2 ▸ hj⟩)
    refine ⟨_, (G.gen ⟨j, f2 ▸ hj⟩).2, y, h1, H.eq_false y 0 fun h' => h ?_⟩
    have := congrFun (h2.symm.trans h') ⟨i, f1 ▸ hi⟩
    rw [G.coord_gen, map_zero] at this
    simpa [Pi.single_apply] using this
  · rintro ⟨x, hx, y, h1, h2⟩
    by_contra hne
    push Not at hne
    obtain ⟨z, k1, k2⟩ := kf ⟨x, hx⟩
    rw [h1] at k1
    cases k1
    have : H.coord z = H.coord 0 := by
      rw [k2, map_zero]
      funext i
      refine Finset.sum_eq_zero fun j _ => ?_
      rw [hne i (by omega) j (by omega), zero_mul]
    rw [show H.eq z.1 0 = _ from H.eq_true z 0 this] at h2
    cases h2

/-- Multiples of an endomorphism are the pointwise multiples.  `_partial`: for other morphisms see `C78_scale_violation`. -/
theorem C78_scale_partial {f : HMor G G} {A : PMat R} (hf : matrix f = .ok A) (r : R) :
    ∃ s : HMor G G, scaleMor r f = .ok ⟨G, s⟩ ∧ ∀ x ∈ G.Z, ∃ a c, call f x = .ok a ∧ call s x = .ok c ∧ G.eq c (G.scale r a) = .ok true := by
  obtain ⟨kf, f1, f2⟩ := acts_of_matrix hf
  refine ⟨.ofMatrix (A.scale r), ?_, fun x hx => ?_⟩
  · simp [scaleMor, hf, bind, Except.bind, hom, pure, Except.pure, PMat.scale, f1, f2]
  · obtain ⟨a, a1, a2⟩ := kf ⟨x, hx⟩
    obtain ⟨c, c1, c2⟩ := acts_ofMatrix (H := G) (A.scale r) ⟨x, hx⟩
    refine ⟨a, c, a1, c1, G.eq_true c (r • a) ?_⟩
    rw [map_smul, a2, c2]
    funext i
    simp only [PMat.scale, Pi.smul_apply, smul_eq_mul, Finset.mul_sum]
    exact Finset.sum_congr rfl fun j _ => by ring

/-- **C78, violation.** A multiple of a morphism to a different group forgets its codomain: it is an endomorphism of the domain when the numbers of generators
agree, and an error otherwise. -/
theorem C78_scale_violation {f : HMor G H} {A : PMat R} (hf : matrix f = .ok A) (r : R) :
    (G.m = H.m → ∃ s : HMor G G, scaleMor r f = .ok ⟨G, s⟩) ∧ (G.m ≠ H.m → scaleMor r f = .error .notImplemented) := by
  obtain ⟨kf, f1, f2⟩ := acts_of_matrix hf
  constructor
  · intro h
    exact ⟨.ofMatrix (A.scale r), by simp [scaleMor, hf, bind, Except.bind, hom, pure, Except.pure, PMat.scale, f1, f2, h]⟩
  · intro h
    simp [scaleMor, hf, bind, Except.bind, hom, pure, Except.pure, PMat.scale, f1, f2, Ne.symm h, throw, throwThe, MonadExceptOf.throw]

/-- A morphism of surfaces whose images of the edges define a map of chains that maps cycles to cycles and boundaries to boundaries induces the map of classes
of this map of chains. -/
theorem C78_induced [Nontrivial R] (E : Fin G.n → Except Err H.Chain) (Φ : G.Chain →ₗ[R] H.Chain) (hE : ∀ e, E e = .ok (Φ (Pi.single e 1)))
    (hZ : ∀ x ∈ G.Z, Φ x ∈ H.Z) (hB : ∀ x ∈ G.B, x ∈ G.Z → Φ x ∈ H.B) :
    (∃ A, matrix (.induced E : HMor G H) = .ok A) ∧ ∀ x ∈ G.Z, ∃ y, call (.induced E : HMor G H) x = .ok y ∧ H.eq y (Φ x) = .ok true := by
  obtain ⟨A, h1, h2⟩ := imageMatrix_ok Φ hE hZ
  constructor
  · obtain ⟨B, k, -⟩ := matrix_of_acts (acts_induced h1)
    exact ⟨B, k⟩
  · intro x hx
    obtain ⟨y, k1, k2⟩ := acts_induced h1 ⟨x, hx⟩
    refine ⟨y, k1, H.eq_true y ⟨Φ x, hZ x hx⟩ ?_⟩
    rw [k2]
    funext i
    rw [coord_map Φ hZ hB ⟨x, hx⟩ i]
    exact Finset.sum_congr rfl fun j _ => by rw [h2]

/-- Endomorphisms of the homology in genus 2, with a matrix that is not invertible. -/
example : ∃ (G : HGroup ℤ) (f : HMor G G) (A : PMat ℤ), G.m = 4 ∧ matrix f = .ok A ∧ A.entry 1 2 = 1 ∧ A.entry 0 0 = 0 := by
  obtain ⟨G, -, h2, -⟩ := RSurf.exThree_group
  let A : PMat ℤ := ⟨4, 4, fun i j => if i = 1 then 1 else 0⟩
  obtain ⟨f, -, ⟨B, h3, -, -, h4⟩, -⟩ := (C78_hom_matrix (G := G) (H := G) A).1 ⟨h2.symm, h2.symm⟩
  exact ⟨G, f, B, h2, h3, h4 1 (by decide) 2 (by decide), h4 0 (by decide) 0 (by decide)⟩

end HGroup
end Flat
