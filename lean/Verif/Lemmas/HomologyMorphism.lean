import Verif.Lemmas.HomologyClass
import Verif.Lemmas.HomologyCycles

/-!
# Matrices of morphisms of homology groups
-/

namespace Flat
open Module
namespace HGroup
variable {R : Type} [CommRing R] {G H J : HGroup R}

/-- The morphism multiplies coordinates with the matrix. -/
def Acts (f : HMor G H) (A : PMat R) : Prop :=
  ∀ x : G.Z, ∃ y : H.Z, call f x.1 = .ok y.1 ∧ H.coord y = fun i : Fin H.m => ∑ j : Fin G.m, A.entry i j * G.coord x j

theorem callMatrix_ok (A : PMat R) (x : G.Z) : ∃ y : H.Z, (callMatrix A x.1 : Except Err H.Chain) = .ok y.1 ∧
    H.coord y = fun i : Fin H.m => ∑ j : Fin G.m, A.entry i j * G.coord x j := by
  refine ⟨H.lift (∑ i : Fin H.m, (∑ j : Fin G.m, A.entry i j * G.coord x j) • H.basis i), ?_, H.coord_lift_sum _⟩
  unfold callMatrix
  rw [G.coefficients_ok]
  rfl

theorem mapM_gens {B : Type} {f : G.Chain → Except Err B} {g : Fin G.m → B} (h : ∀ i, f (G.gen i).1 = .ok (g i)) :
    G.gens.mapM f = .ok ((List.finRange G.m).map g) := by
  rw [G.gens_eq]
  generalize List.finRange G.m = is
  induction is with
  | nil => rfl
  | cons i is ih =>
    rw [List.map_cons, List.mapM_cons, h, ih]
    rfl

theorem mapM_gens_inv {B : Type} {f : G.Chain → Except Err B} {l : List B} (h : G.gens.mapM f = .ok l) (i : Fin G.m) : ∃ b, f (G.gen i).1 = .ok b := by
  rw [G.gens_eq] at h
  have hi := List.mem_finRange i
  revert h hi
  generalize List.finRange G.m = is
  induction is generalizing l with
  | nil => intro _ h; cases h
  | cons k is ih =>
    intro h hi
    rw [List.map_cons, List.mapM_cons] at h
    cases hk : f (G.gen k).1 with
    | error e => rw [hk] at h; cases h
    | ok b =>
      rw [hk] at h
      cases hr : List.mapM f (is.map fun i => (G.gen i).1) with
      | error e => rw [hr] at h; cases h
      | ok bs =>
        rcases List.mem_cons.1 hi with rfl | hi
        · exact ⟨b, hk⟩
        · exact ih hr hi

/-- The matrix of a morphism. -/
theorem matrix_of_acts {f : HMor G H} {B : PMat R} (h : Acts f B) : ∃ A, matrix f = .ok A ∧ A.rows = H.m ∧ A.cols = G.m ∧
    ∀ (i : Fin H.m) (j : Fin G.m), A.entry i j = B.entry i j := by
  choose y hy1 hy2 using h
  have hcol : G.gens.mapM (fun gen => do H.coefficients (← call f gen)) = .ok ((List.finRange G.m).map fun i => H.coord (y (G.gen i))) := by
    apply mapM_gens
    intro i
    rw [hy1]
    exact H.coefficients_ok _
  unfold matrix
  rw [hcol]
  refine ⟨_, rfl, rfl, rfl, fun i j => ?_⟩
  show (if h : (i : ℕ) < H.m then _ else (0 : R)) = _
  rw [dif_pos i.2]
  have : ((List.finRange G.m).map fun k => H.coord (y (G.gen k))).getD j 0 = H.coord (y (G.gen j)) := by
    simp [List.getD_eq_getElem?_getD]
  rw [this, hy2, G.coord_gen]
  simp [Pi.single_apply]

theorem acts_ofMatrix (A : PMat R) : Acts (.ofMatrix A : HMor G H) A := fun x => callMatrix_ok A x

theorem acts_congr {f : HMor G H} {A B : PMat R} (h : Acts f A) (hAB : ∀ (i : Fin H.m) (j : Fin G.m), A.entry i j = B.entry i j) : Acts f B := by
  intro x
  obtain ⟨y, h1, h2⟩ := h x
  refine ⟨y, h1, ?_⟩
  rw [h2]
  funext i
  exact Finset.sum_congr rfl fun j _ => by rw [hAB]

theorem imageMatrix_dims {E : Fin G.n → Except Err H.Chain} {A : PMat R} (h : imageMatrix E = .ok A) : A.rows = H.m ∧ A.cols = G.m := by
  unfold imageMatrix at h
  obtain ⟨c, -, h⟩ := RSurf.except_bind_ok.1 h
  cases h
  exact ⟨rfl, rfl⟩

theorem call_induced {E : Fin G.n → Except Err H.Chain} {A : PMat R} (h : imageMatrix E = .ok A) (x : G.Chain) :
    call (.induced E : HMor G H) x = callMatrix A x := by
  obtain ⟨h1, h2⟩ := imageMatrix_dims h
  simp only [call, h, bind, Except.bind, h1, h2, ne_eq, not_true_eq_false, if_false]

theorem acts_induced {E : Fin G.n → Except Err H.Chain} {A : PMat R} (h : imageMatrix E = .ok A) : Acts (.induced E : HMor G H) A := by
  intro x
  rw [call_induced h]
  exact callMatrix_ok A x

/-- When `matrix()` succeeds, the morphism acts by it. -/
theorem acts_of_matrix {f : HMor G H} {A : PMat R} (h : matrix f = .ok A) : Acts f A ∧ A.rows = H.m ∧ A.cols = G.m := by
  have key : ∀ B, Acts f B → Acts f A ∧ A.rows = H.m ∧ A.cols = G.m := by
    intro B hB
    obtain ⟨A', k1, k2, k3, k4⟩ := matrix_of_acts hB
    rw [h] at k1
    cases k1
    exact ⟨acts_congr hB fun i j => (k4 i j).symm, k2, k3⟩
  cases f with
  | ofMatrix B => exact key B (acts_ofMatrix B)
  | induced E =>
    cases hE : imageMatrix E with
    | ok B => exact key B (acts_induced hE)
    | error e =>
      exfalso
      unfold matrix at h
      obtain ⟨c, hc, -⟩ := RSurf.except_bind_ok.1 h
      by_cases hm : G.m = 0
      · have hg : G.gens = [] := List.length_eq_zero_iff.1 (by rw [G.gens_length, hm])
        unfold imageMatrix at hE
        rw [hg] at hE
        cases hE
      · obtain ⟨b, hb⟩ := mapM_gens_inv hc ⟨0, by omega⟩
        obtain ⟨z, hz, -⟩ := RSurf.except_bind_ok.1 hb
        simp only [call, hE, bind, Except.bind] at hz
        cases hz

theorem hom_some {A : PMat R} (h1 : A.rows = H.m) (h2 : A.cols = G.m) : G.hom A (some H) = .ok ⟨H, .ofMatrix A⟩ := by
  simp only [hom, bind, Except.bind, pure, Except.pure, h1, h2, ne_eq, not_true_eq_false, if_false]

/-- The image of a chain is the combination of the images of simplices. -/
theorem imageGen_ok {E : Fin G.n → Except Err H.Chain} (Φ : G.Chain →ₗ[R] H.Chain) (hE : ∀ e, E e = .ok (Φ (Pi.single e 1))) (x : G.Chain) :
    imageGen E x = .ok (Φ x) := by
  classical
  have hloop : ∀ es : List (Fin G.n), imageLoop E x es = .ok ((es.map fun e => x e • Φ (Pi.single e 1)).sum) := by
    intro es
    induction es with
    | nil => rfl
    | cons e es ih =>
      by_cases h : x e = 0
      · rw [imageLoop, if_pos h, ih, List.map_cons, List.sum_cons, h, zero_smul, zero_add]
      · rw [imageLoop, if_neg h, ih, hE]
        rfl
  unfold imageGen
  rw [hloop, ← List.ofFn_eq_map, List.sum_ofFn]
  congr 1
  conv_rhs => rw [pi_eq_sum_univ' x]
  rw [map_sum]
  refine Finset.sum_congr rfl fun i _ => ?_
  rw [map_smul]

/-- The matrix of an induced map. -/
theorem imageMatrix_ok [Nontrivial R] {E : Fin G.n → Except Err H.Chain} (Φ : G.Chain →ₗ[R] H.Chain) (hE : ∀ e, E e = .ok (Φ (Pi.single e 1)))
    (hZ : ∀ x ∈ G.Z, Φ x ∈ H.Z) :
    ∃ A, imageMatrix E = .ok A ∧ ∀ (i : Fin H.m) (j : Fin G.m), A.entry i j = H.coord ⟨Φ (G.gen j).1, hZ _ (G.gen j).2⟩ i := by
  have hcol : G.gens.mapM (fun gen => do
      let image ← imageGen E gen
      H.gens.mapM fun codomainGen => H.coefficient image codomainGen) =
      .ok ((List.finRange G.m).map fun j => (List.finRange H.m).map fun i => H.coord ⟨Φ (G.gen j).1, hZ _ (G.gen j).2⟩ i) := by
    apply mapM_gens
    intro j
    rw [imageGen_ok Φ hE]
    refine mapM_gens fun i => ?_
    exact H.coefficient_gen ⟨Φ (G.gen j).1, hZ _ (G.gen j).2⟩ i
  unfold imageMatrix
  rw [hcol]
  refine ⟨_, rfl, fun i j => ?_⟩
  simp [List.getD_eq_getElem?_getD]

/-- The induced map on coordinates. -/
theorem coord_map (Φ : G.Chain →ₗ[R] H.Chain) (hZ : ∀ x ∈ G.Z, Φ x ∈ H.Z) (hB : ∀ x ∈ G.B, x ∈ G.Z → Φ x ∈ H.B) (x : G.Z) (i : Fin H.m) :
    H.coord ⟨Φ x.1, hZ _ x.2⟩ i = ∑ j : Fin G.m, H.coord ⟨Φ (G.gen j).1, hZ _ (G.gen j).2⟩ i * G.coord x j := by
  let Ψ : G.Z →ₗ[R] H.Z := (Φ.comp G.Z.subtype).codRestrict H.Z fun y => hZ _ y.2
  have hx : G.coord x = G.coord (∑ j, G.coord x j • G.gen j) := by
    rw [map_sum]
    funext j
    rw [Finset.sum_apply, Finset.sum_eq_single j]
    · rw [map_smul, G.coord_gen]; simp
    · intro k _ hk
      rw [map_smul, G.coord_gen]; simp [Pi.single_eq_of_ne (Ne.symm hk)]
    · simp
  have hd := (G.coord_eq_iff _ _).1 hx
  have he : H.coord (Ψ x) = H.coord (Ψ (∑ j, G.coord x j • G.gen j)) := by
    refine (H.coord_eq_iff _ _).2 ?_
    have := hB _ hd (Submodule.sub_mem _ x.2 (Subtype.prop _))
    rw [map_sub] at this
    exact this
  show H.coord (Ψ x) i = ∑ j, H.coord (Ψ (G.gen j)) i * G.coord x j
  rw [he, map_sum, map_sum, Finset.sum_apply]
  refine Finset.sum_congr rfl fun j _ => ?_
  rw [map_smul, map_smul, Pi.smul_apply, smul_eq_mul, mul_comm]

end HGroup
end Flat
