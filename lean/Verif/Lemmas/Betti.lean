import Mathlib.LinearAlgebra.Matrix.ToLin
import Mathlib.LinearAlgebra.Dimension.Localization
import Mathlib.LinearAlgebra.FreeModule.PID
import Mathlib.LinearAlgebra.FreeModule.Finite.Quotient
import Mathlib.LinearAlgebra.Dimension.Constructions
import Mathlib.Algebra.BigOperators.Ring.Finset
import Mathlib.Logic.Relation

/-!
# The ranks of boundary matrices

Matrices with one entry `1` and one entry `-1` in each row (or column), where one of the entries may be missing.
-/

namespace Flat
namespace Betti
open Module

variable {R : Type} [CommRing R] {E V F : Type} [Fintype E] [Fintype V] [DecidableEq V] [Fintype F] [DecidableEq F]

/-- A basis vector, or zero. -/
def ind (R : Type) [CommRing R] (o : Option V) : V → R := fun v => if o = some v then 1 else 0

omit [Fintype V] in
theorem ind_none : ind R (none : Option V) = 0 := by
  funext v
  simp [ind]

omit [Fintype V] in
theorem ind_some (v : V) : ind R (some v) = Pi.single v 1 := by
  funext w
  unfold ind
  by_cases h : v = w
  · subst h; simp
  · rw [if_neg (by simpa using h), Pi.single_eq_of_ne (Ne.symm h)]

/-- The rows of the matrix of a boundary of edges that start at `s e` and end at `t e`. -/
def edgeMatrix (R : Type) [CommRing R] (s t : E → Option V) : Matrix E V R := Matrix.of fun e => ind R (t e) - ind R (s e)

/-- Vertices joined by edges. -/
def Linked (s t : E → Option V) : Option V → Option V → Prop := Relation.EqvGen fun a b => ∃ e, s e = a ∧ t e = b

omit [Fintype V] in
theorem linked_mem {s t : E → Option V} {a b : Option V} (h : Linked s t a b) : ind R b - ind R a ∈ LinearMap.range (edgeMatrix R s t).vecMulLinear := by
  rw [_root_.range_vecMulLinear]
  induction h with
  | rel a b h =>
    obtain ⟨e, rfl, rfl⟩ := h
    exact Submodule.subset_span ⟨e, rfl⟩
  | refl a => rw [sub_self]; exact Submodule.zero_mem _
  | symm a b _ ih => rw [← neg_sub]; exact Submodule.neg_mem _ ih
  | trans a b c _ _ ih1 ih2 => rw [show ind R c - ind R a = (ind R c - ind R b) + (ind R b - ind R a) by abel]; exact Submodule.add_mem _ ih2 ih1

/-- The sum of the coefficients. -/
def aug (R V : Type) [CommRing R] [Fintype V] : (V → R) →ₗ[R] R where
  toFun x := ∑ v, x v
  map_add' x y := by simp [Finset.sum_add_distrib]
  map_smul' c x := by simp [Finset.mul_sum]

theorem aug_ind (v : V) : aug R V (ind R (some v)) = 1 := by
  rw [ind_some]
  simp [aug]

theorem decompose (x : V → R) : x = ∑ v, x v • ind R (some v) := by
  funext w
  rw [Finset.sum_apply, Finset.sum_eq_single w]
  · simp [ind]
  · intro v _ h
    simp [ind, h]
  · simp

/-- The boundaries of a connected graph: the chains whose coefficients add up to zero. -/
theorem range_connected [Nonempty V] {s t : E → V} (hc : ∀ a b, Linked (fun e => some (s e)) (fun e => some (t e)) (some a) (some b)) :
    LinearMap.range (edgeMatrix R (fun e => some (s e)) (fun e => some (t e))).vecMulLinear = LinearMap.ker (aug R V) := by
  apply le_antisymm
  · rw [_root_.range_vecMulLinear, Submodule.span_le]
    rintro _ ⟨e, rfl⟩
    show aug R V (ind R (some (t e)) - ind R (some (s e))) = 0
    rw [map_sub, aug_ind, aug_ind, sub_self]
  · intro x hx
    obtain ⟨v0⟩ := ‹Nonempty V›
    have hx : ∑ v, x v = 0 := hx
    have : x = ∑ v, x v • (ind R (some v) - ind R (some v0)) := by
      simp only [smul_sub, Finset.sum_sub_distrib, ← Finset.sum_smul, hx, zero_smul, sub_zero]
      exact decompose x
    rw [this]
    exact Submodule.sum_mem _ fun v _ => Submodule.smul_mem _ _ (linked_mem (hc v0 v))

/-- The boundaries relative to a set that every vertex is joined to: all chains. -/
theorem range_relative {s t : E → Option V} (hc : ∀ a, Linked s t none (some a)) :
    LinearMap.range (edgeMatrix R s t).vecMulLinear = ⊤ := by
  rw [eq_top_iff]
  intro x _
  rw [decompose x]
  refine Submodule.sum_mem _ fun v _ => Submodule.smul_mem _ _ ?_
  have := linked_mem (R := R) (hc v)
  rwa [ind_none, sub_zero] at this

theorem aug_surjective [Nonempty V] : Function.Surjective (aug R V) := by
  intro r
  obtain ⟨v0⟩ := ‹Nonempty V›
  refine ⟨r • ind R (some v0), ?_⟩
  rw [map_smul, aug_ind, smul_eq_mul, mul_one]

/-- The matrix of the boundary of faces: the edge `e` has the face `a e` on one side and the face `b e` on the other. -/
def faceMatrix (R : Type) [CommRing R] (a : E → F) (b : E → Option F) : Matrix F E R :=
  Matrix.of fun f e => ind R (some (a e)) f - ind R (b e) f

/-- The value of a chain on a face, zero where there is none. -/
def val (x : F → R) : Option F → R
  | none => 0
  | some f => x f

omit [Fintype E] in
theorem face_apply (a : E → F) (b : E → Option F) (x : F → R) (e : E) :
    (faceMatrix R a b).vecMulLinear x e = x (a e) - val x (b e) := by
  have h : ∀ o : Option F, ∑ f, x f * ind R o f = val x o := by
    intro o
    cases o with
    | none => simp [ind, val]
    | some f => simp [ind, val]
  rw [Matrix.vecMulLinear_apply]
  show ∑ f, x f * (ind R (some (a e)) f - ind R (b e) f) = _
  simp only [mul_sub, Finset.sum_sub_distrib, h]
  rfl

/-- Faces joined by edges. -/
def Adjacent (a : E → F) (b : E → Option F) : F → F → Prop := Relation.EqvGen fun f f' => ∃ e, a e = f ∧ b e = some f'

omit [Fintype E] [DecidableEq F] [Fintype F] in
/-- A chain whose boundary is divisible by `r` is constant modulo `r`. -/
theorem dvd_of_adjacent {a : E → F} {b : E → Option F} {x : F → R} {r : R} (h : ∀ e, r ∣ x (a e) - val x (b e)) {f f' : F} (hf : Adjacent a b f f') :
    r ∣ x f - x f' := by
  induction hf with
  | rel f f' h' =>
    obtain ⟨e, rfl, he⟩ := h'
    have := h e
    rwa [he] at this
  | refl f => rw [sub_self]; exact dvd_zero r
  | symm f f' _ ih => rw [← neg_sub]; exact (dvd_neg).2 ih
  | trans f f' f'' _ _ ih1 ih2 => rw [show x f - x f'' = (x f - x f') + (x f' - x f'') by ring]; exact dvd_add ih1 ih2

/-- If the boundary of a chain of faces is a multiple of `r` then it is `r` times a boundary. -/
theorem saturated [Nonempty F] {a : E → F} {b : E → Option F} (hc : ∀ f f', Adjacent a b f f') {x : F → R} {r : R}
    (h : ∀ e, r ∣ (faceMatrix R a b).vecMulLinear x e) : ∃ y : F → R, (faceMatrix R a b).vecMulLinear x = r • (faceMatrix R a b).vecMulLinear y := by
  have h1 : ∀ e, r ∣ x (a e) - val x (b e) := fun e => by rw [← face_apply]; exact h e
  by_cases hb : ∃ e, b e = none
  · obtain ⟨e, he⟩ := hb
    have h2 := h1 e
    rw [he] at h2
    have h3 : ∀ f, r ∣ x f := by
      intro f
      have := dvd_of_adjacent h1 (hc f (a e))
      rw [show x f = (x f - x (a e)) + (x (a e) - val x none) by simp [val]]
      exact dvd_add this h2
    choose y hy using h3
    refine ⟨y, ?_⟩
    rw [← map_smul]
    congr 1
    funext f
    exact hy f
  · push Not at hb
    obtain ⟨f0⟩ := ‹Nonempty F›
    have h3 : ∀ f, r ∣ x f - x f0 := fun f => dvd_of_adjacent h1 (hc f f0)
    choose y hy using h3
    refine ⟨y, ?_⟩
    funext e
    rw [Pi.smul_apply, face_apply, face_apply]
    obtain ⟨f, hf⟩ := Option.ne_none_iff_exists'.1 (hb e)
    rw [hf]
    show x (a e) - x f = r * (y (a e) - y f)
    rw [mul_sub, ← hy, ← hy]
    ring

/-- The cycles of a closed connected surface are the multiples of the sum of all faces. -/
theorem ker_closed {a : E → F} {b : E → Option F} (hc : ∀ f f', Adjacent a b f f') (hb : ∀ e, b e ≠ none) (x : F → R) :
    x ∈ LinearMap.ker (faceMatrix R a b).vecMulLinear ↔ ∃ c : R, x = fun _ => c := by
  rw [LinearMap.mem_ker]
  constructor
  · intro h
    rcases isEmpty_or_nonempty F with hF | ⟨⟨f0⟩⟩
    · exact ⟨0, funext fun f => (hF.false f).elim⟩
    refine ⟨x f0, funext fun f => ?_⟩
    have := dvd_of_adjacent (r := 0) (x := x) (fun e => by rw [← face_apply, h]; simp) (hc f f0)
    rw [zero_dvd_iff] at this
    exact sub_eq_zero.1 this
  · rintro ⟨c, rfl⟩
    funext e
    rw [face_apply]
    obtain ⟨f, hf⟩ := Option.ne_none_iff_exists'.1 (hb e)
    rw [hf]
    exact sub_self c

/-- There are no cycles if some edge has only one side. -/
theorem ker_open {a : E → F} {b : E → Option F} (hc : ∀ f f', Adjacent a b f f') {e : E} (hb : b e = none) :
    LinearMap.ker (faceMatrix R a b).vecMulLinear = ⊥ := by
  rw [eq_bot_iff]
  intro x h
  rw [LinearMap.mem_ker] at h
  have h0 : x (a e) = 0 := by
    have := congrFun h e
    rw [face_apply, hb] at this
    simpa [val] using this
  rw [Submodule.mem_bot]
  funext f
  have := dvd_of_adjacent (r := 0) (x := x) (fun e => by rw [← face_apply, h]; simp) (hc f (a e))
  rw [zero_dvd_iff, h0, sub_zero] at this
  exact this

variable [IsDomain R] [IsPrincipalIdealRing R]

theorem finrank_ker_aug [Nonempty V] : finrank R (LinearMap.ker (aug R V)) + 1 = Fintype.card V := by
  have h := (LinearMap.ker (aug R V)).finrank_quotient_add_finrank
  rw [((aug R V).quotKerEquivOfSurjective aug_surjective).finrank_eq, finrank_self, finrank_fintype_fun_eq_card] at h
  omega

omit [DecidableEq F] in
theorem finrank_const [Nonempty F] {N : Submodule R (F → R)} (h : ∀ x, x ∈ N ↔ ∃ c : R, x = fun _ => c) : finrank R N = 1 := by
  obtain ⟨f0⟩ := ‹Nonempty F›
  let φ : R ≃ₗ[R] N :=
    { toFun := fun c => ⟨fun _ => c, (h _).2 ⟨c, rfl⟩⟩
      invFun := fun x => x.1 f0
      map_add' := fun _ _ => rfl
      map_smul' := fun _ _ => rfl
      left_inv := fun _ => rfl
      right_inv := fun x => by
        obtain ⟨c, hc⟩ := (h x.1).1 x.2
        ext f
        show x.1 f0 = x.1 f
        rw [hc] }
  rw [← φ.finrank_eq, finrank_self]

/-- Rank and nullity. -/
theorem finrank_range_add_ker {M N : Type} [AddCommGroup M] [Module R M] [Module.Finite R M] [AddCommGroup N] [Module R N] (f : M →ₗ[R] N) :
    finrank R (LinearMap.range f) + finrank R (LinearMap.ker f) = finrank R M := by
  have h := (LinearMap.ker f).finrank_quotient_add_finrank
  rwa [f.quotKerEquivRange.finrank_eq] at h

/-- The rank of homology. -/
theorem finrank_homology {M N P : Type} [AddCommGroup M] [Module R M] [Module.Finite R M] [AddCommGroup N] [Module R N] [Module.Finite R N] [AddCommGroup P]
    [Module R P] (g : M →ₗ[R] N) (f : N →ₗ[R] P) (h : f ∘ₗ g = 0) :
    finrank R (LinearMap.ker f ⧸ (LinearMap.range g).submoduleOf (LinearMap.ker f)) + finrank R M + finrank R (LinearMap.range f) =
      finrank R N + finrank R (LinearMap.ker g) := by
  have h1 := ((LinearMap.range g).submoduleOf (LinearMap.ker f)).finrank_quotient_add_finrank
  have hle : LinearMap.range g ≤ LinearMap.ker f := by
    rintro _ ⟨x, rfl⟩
    exact LinearMap.congr_fun h x
  have h2 := (Submodule.submoduleOfEquivOfLe hle).finrank_eq
  have h3 := finrank_range_add_ker f
  have h4 := finrank_range_add_ker g
  omega

/-- Homology without torsion. -/
theorem torsionFree_homology [Nonempty F] {a : E → F} {b : E → Option F} (hc : ∀ f f', Adjacent a b f f') (Z : Submodule R (E → R)) :
    Module.IsTorsionFree R (Z ⧸ (LinearMap.range (faceMatrix R a b).vecMulLinear).submoduleOf Z) := by
  rw [Module.isTorsionFree_iff_smul_eq_zero]
  intro r z hz
  by_cases hr : r = 0
  · exact .inl hr
  refine .inr ?_
  obtain ⟨z, rfl⟩ := Submodule.mkQ_surjective _ z
  rw [Submodule.mkQ_apply, ← Submodule.Quotient.mk_smul, Submodule.Quotient.mk_eq_zero] at hz
  obtain ⟨x, hx⟩ := hz
  have hx : (faceMatrix R a b).vecMulLinear x = r • (z : E → R) := hx
  obtain ⟨y, hy⟩ := saturated hc (x := x) (r := r) (fun e => by rw [hx]; exact ⟨_, rfl⟩)
  rw [Submodule.mkQ_apply, Submodule.Quotient.mk_eq_zero]
  refine ⟨y, ?_⟩
  rw [hx] at hy
  exact (smul_right_injective _ hr hy).symm

omit [DecidableEq F] in
/-- If the edges with one face are cycles, then there are at most as many independent faces as cycles on the other edges. -/
theorem rank_bound [DecidableEq F] [Nonempty F] {a : E → F} {b : E → Option F} (hc : ∀ f f', Adjacent a b f f') {f : (E → R) →ₗ[R] (V → R)}
    (h : f ∘ₗ (faceMatrix R a b).vecMulLinear = 0) (hz : ∀ x : E → R, (∀ e, b e ≠ none → x e = 0) → f x = 0) :
    Fintype.card F + finrank R (LinearMap.range f) + Nat.card {e // b e = none} ≤ Fintype.card E + 1 := by
  classical
  set b' : E → Option F := fun e => some ((b e).getD (a e)) with hb'
  have hc' : ∀ f f', Adjacent a b' f f' := by
    intro f f'
    refine Relation.EqvGen.mono (r := fun f f' => ∃ e, a e = f ∧ b e = some f') ?_ f f' (hc f f')
    rintro x y ⟨e, h1, h2⟩
    exact ⟨e, h1, by rw [hb']; simp [h2]⟩
  have hn : ∀ x e, b e = none → (faceMatrix R a b').vecMulLinear x e = 0 := by
    intro x e he
    rw [face_apply, hb']
    simp [he, val]
  have hs : ∀ x e, b e ≠ none → (faceMatrix R a b').vecMulLinear x e = (faceMatrix R a b).vecMulLinear x e := by
    intro x e he
    obtain ⟨f, hf⟩ := Option.ne_none_iff_exists'.1 he
    rw [face_apply, face_apply, hb']
    simp [hf, val]
  have hf : ∀ x, f ((faceMatrix R a b').vecMulLinear x) = 0 := by
    intro x
    have h1 := hz ((faceMatrix R a b').vecMulLinear x - (faceMatrix R a b).vecMulLinear x) (fun e he => by rw [Pi.sub_apply, hs x e he, sub_self])
    rw [map_sub] at h1
    have h2 : f ((faceMatrix R a b).vecMulLinear x) = 0 := LinearMap.congr_fun h x
    rwa [h2, sub_zero] at h1
  let k : (F → R) →ₗ[R] LinearMap.ker f := LinearMap.codRestrict _ (faceMatrix R a b').vecMulLinear hf
  let π : LinearMap.ker f →ₗ[R] ({e // b e = none} → R) := (LinearMap.funLeft R R Subtype.val) ∘ₗ (LinearMap.ker f).subtype
  have hπ : Function.Surjective π := by
    intro y
    refine ⟨⟨fun e => if he : b e = none then y ⟨e, he⟩ else 0, hz _ fun e he => dif_neg he⟩, ?_⟩
    funext e
    exact dif_pos e.2
  have hle : LinearMap.range k ≤ LinearMap.ker π := by
    rintro _ ⟨x, rfl⟩
    rw [LinearMap.mem_ker]
    funext e
    exact hn x e.1 e.2
  have h1 := Submodule.finrank_mono hle
  have h2 := finrank_range_add_ker k
  have h3 : finrank R (LinearMap.ker k) = 1 := by
    rw [show LinearMap.ker k = _ from LinearMap.ker_codRestrict _ _ _]
    exact finrank_const (ker_closed hc' (by simp [hb']))
  have h4 := finrank_range_add_ker π
  have h5 := finrank_range_add_ker f
  rw [LinearMap.range_eq_top.2 hπ, finrank_top, finrank_fintype_fun_eq_card, ← Nat.card_eq_fintype_card] at h4
  rw [finrank_fintype_fun_eq_card] at h2 h5
  omega

end Betti
end Flat
