import Mathlib.LinearAlgebra.Matrix.GeneralLinearGroup.Defs
import Mathlib.LinearAlgebra.Span.Basic
import Mathlib.Tactic.LinearCombination
import Verif.Model.Plane
import Verif.Model.Dict

/-!
# Model of `flatsurf/geometry/finitely_generated_matrix_group.py`

The generators are assumed to be invertible, which the constructor of the group does not check.
-/

namespace Flat
namespace MatGroup

/-! ### Iteration -/
section
variable {G : Type} [Group G] [DecidableEq G]

/-- The state of the generator `__iter__`: the elements that have been yielded, which are the elements of the set `s`, in the order in which they have been yielded, and
the list `wait`. -/
structure IterState (G : Type) where
  seen : List G
  wait : List G

/-- One of the elements `m`, lines 383-386. -/
def visit (st : IterState G) (m : G) : IterState G :=
  if m ∈ st.seen then st else ⟨st.seen ++ [m], st.wait ++ [m]⟩

/-- The loop over the generators, lines 380-386. -/
def visitAll (p : G) (gens : List G) (st : IterState G) : IterState G :=
  gens.foldl (fun st g => [p * g, p * g⁻¹, g * p, g⁻¹ * p].foldl visit st) st

/-- One round of the loop, lines 375-386. -/
def iterStep (gens : List G) (st : IterState G) : IterState G :=
  match st.wait with
  | [] => st
  | p :: wait => visitAll p gens (if p ∈ st.seen then ⟨st.seen, wait⟩ else ⟨st.seen ++ [p], wait⟩)

/-- `__iter__` after `n` rounds of the loop, lines 371-386. -/
def iter (gens : List G) : ℕ → IterState G
  | 0 => ⟨[1], gens⟩
  | n + 1 => iterStep gens (iter gens n)

/-- `is_abelian`, lines 258-284. -/
def isAbelian (gens : List G) : Bool := gens.all (fun a => gens.all (fun b => a * b = b * a))

end

/-! ### Finiteness -/
section
variable {K : Type} [Field K] [LinearOrder K]
open Matrix

/-- The vectors `(a, c, b)` of the kernel in `invariant_quadratic_forms`, lines 54-141: the forms `[[a, b], [b, c]]`. -/
def invariantForms (m : Matrix (Fin 2) (Fin 2) K) : Submodule K (K × K × K) where
  carrier := {v | (m 0 0 - m.det * m 1 1) * v.1 + (1 + m.det) * m 1 0 * v.2.2 = 0 ∧
    m.det * m 0 1 * v.1 + m 1 0 * v.2.1 + (1 - m.det) * m 0 0 * v.2.2 = 0 ∧
    m 0 1 * v.1 + m.det * m 1 0 * v.2.1 + (1 - m.det) * m 1 1 * v.2.2 = 0 ∧
    (m 1 1 - m.det * m 0 0) * v.2.1 + (1 + m.det) * m 0 1 * v.2.2 = 0}
  add_mem' := by
    rintro a b ⟨h1, h2, h3, h4⟩ ⟨g1, g2, g3, g4⟩
    refine ⟨?_, ?_, ?_, ?_⟩
    · simp only [Prod.fst_add, Prod.snd_add]; linear_combination h1 + g1
    · simp only [Prod.fst_add, Prod.snd_add]; linear_combination h2 + g2
    · simp only [Prod.fst_add, Prod.snd_add]; linear_combination h3 + g3
    · simp only [Prod.fst_add, Prod.snd_add]; linear_combination h4 + g4
  zero_mem' := by simp
  smul_mem' := by
    rintro c x ⟨h1, h2, h3, h4⟩
    refine ⟨?_, ?_, ?_, ?_⟩
    · simp only [Prod.smul_fst, Prod.smul_snd, smul_eq_mul]; linear_combination c * h1
    · simp only [Prod.smul_fst, Prod.smul_snd, smul_eq_mul]; linear_combination c * h2
    · simp only [Prod.smul_fst, Prod.smul_snd, smul_eq_mul]; linear_combination c * h3
    · simp only [Prod.smul_fst, Prod.smul_snd, smul_eq_mul]; linear_combination c * h4

/-- `contains_definite_form`, lines 144-184, of a vector space that is given by a basis. -/
def containsDefiniteForm : List (K × K × K) → Bool
  | [] => false
  | [v] => v.2.2 ^ 2 < v.1 * v.2.1
  | [v, w] =>
    if v.2.2 ^ 2 < v.1 * v.2.1 ∨ w.2.2 ^ 2 < w.1 * w.2.1 then true
    else (2 * v.2.2 * w.2.2 - w.1 * v.2.1 - v.1 * w.2.1) ^ 2 - 4 * (v.2.2 ^ 2 - v.1 * v.2.1) * (w.2.2 ^ 2 - w.1 * w.2.1) > 0
  | _ => true

/-- The test of a generator, lines 340-346. -/
def badGenerator (m : Matrix (Fin 2) (Fin 2) K) : Bool :=
  (m.det ≠ 1 ∧ m.det ≠ -1) ∨ |m.trace| > 2 ∨ (|m.trace| = 2 ∧ (m 0 1 ≠ 0 ∨ m 1 0 ≠ 0))

/-- `is_scalar` of a matrix. -/
def isScalar (m : Matrix (Fin 2) (Fin 2) K) : Bool := m 0 1 = 0 ∧ m 1 0 = 0 ∧ m 0 0 = m 1 1

/-- The loop that intersects the spaces of invariant forms, lines 356-362; `basis` is the basis that Sage chooses for a vector space. -/
noncomputable def intersectLoop (basis : Submodule K (K × K × K) → List (K × K × K)) : Submodule K (K × K × K) → List (Matrix (Fin 2) (Fin 2) K) → Bool
  | _, [] => true
  | V, g :: gens => if containsDefiniteForm (basis (V ⊓ invariantForms g)) then intersectLoop basis (V ⊓ invariantForms g) gens else false

/-- `is_finite`, lines 295-362. -/
noncomputable def isFinite (basis : Submodule K (K × K × K) → List (K × K × K)) (gens : List (Matrix (Fin 2) (Fin 2) K)) : Bool :=
  if gens.any badGenerator then false
  else
    let gens := gens.filter (fun g => ¬ isScalar g)
    if gens.length ≤ 1 then true else intersectLoop basis ⊤ gens

/-- The result of `matrix_multiplicative_order`, lines 187-221: a number or infinity.  The call of `solve_right` in line 215 lacks an argument and raises a `TypeError`. -/
def multiplicativeOrder (m : Matrix (Fin 2) (Fin 2) K) : Except Err (Option ℕ) :=
  if m = 1 then .ok (some 1)
  else if m.det ≠ 1 ∧ m.det ≠ -1 then .ok none
  else .error .typeError

end
end MatGroup
end Flat
