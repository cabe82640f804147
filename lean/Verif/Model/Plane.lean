import Mathlib.Algebra.Order.Field.Basic
import Mathlib.Algebra.Module.Prod
import Mathlib.Tactic.Ring
import Mathlib.Tactic.FieldSimp
import Mathlib.Tactic.LinearCombination
import Mathlib.Tactic.Positivity
import Mathlib.Tactic.Linarith

/-!
# The plane

Points and vectors of the plane over a field, as pairs.  Sage vectors `v` with entries `v[0]`, `v[1]`
are modelled by `v.1`, `v.2`; addition, subtraction, negation and scalar multiplication are the
componentwise operations that Mathlib provides on products.
-/

namespace Flat

/-- Two dimensional vectors, i.e., elements of `K**2` in Sage. -/
abbrev Vec (K : Type*) := K × K

section
variable {K : Type*} [Field K]

/-- The squared Euclidean length (specification helper). -/
def normSq (v : Vec K) : K := v.1 * v.1 + v.2 * v.2

/-- The scalar product (specification helper). -/
def dot (v w : Vec K) : K := v.1 * w.1 + v.2 * w.2

end

/-- A 2x2 matrix `[[a, b], [c, d]]` (rows), as used for `edge_matrix` and the action of GL(2) on
polygons. -/
@[ext] structure Mat2 (K : Type*) where
  a : K
  b : K
  c : K
  d : K
deriving DecidableEq

namespace Mat2
variable {K : Type*} [Field K]

/-- Matrix times column vector. -/
def mulVec (m : Mat2 K) (v : Vec K) : Vec K := (m.a * v.1 + m.b * v.2, m.c * v.1 + m.d * v.2)

def det (m : Mat2 K) : K := m.a * m.d - m.b * m.c

def one : Mat2 K := ⟨1, 0, 0, 1⟩

def mul (m n : Mat2 K) : Mat2 K :=
  ⟨m.a * n.a + m.b * n.c, m.a * n.b + m.b * n.d, m.c * n.a + m.d * n.c, m.c * n.b + m.d * n.d⟩

/-- Rotation-scaling matrices: the matrices of orientation preserving linear similarities. -/
def IsRotScale (m : Mat2 K) : Prop := m.d = m.a ∧ m.b = -m.c

end Mat2
end Flat
