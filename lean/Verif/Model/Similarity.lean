import Verif.Model.Plane

/-!
# Model of `flatsurf/geometry/similarity.py`
-/

namespace Flat

/-- `Similarity.__init__`, similarity.py 52-78: the five stored numbers `_a, _b, _s, _t` (elements of
the field) and `_sign` (an integer, meant to be `1` or `-1`). -/
@[ext] structure Similarity (K : Type*) where
  a : K
  b : K
  s : K
  t : K
  sign : Int
deriving DecidableEq

namespace Similarity
variable {K : Type*} [Field K]

/-- What the constructor of the group guarantees (`_element_constructor_`, similarity.py 477-555):
`a^2 + b^2` is non-zero; the sign is 1 or -1 unless the user passed a fifth entry that is neither. -/
def WF (g : Similarity K) : Prop := g.a * g.a + g.b * g.b ≠ 0 ∧ (g.sign = 1 ∨ g.sign = -1)

/-- similarity.py 80-95. -/
def isTranslation [DecidableEq K] (g : Similarity K) : Bool := g.sign = 1 && g.a = 1 && g.b = 0

/-- similarity.py 97-116. -/
def isHalfTranslation [DecidableEq K] (g : Similarity K) : Bool :=
  g.sign = 1 && (g.a = 1 || -g.a = 1) && g.b = 0

/-- similarity.py 118-119. -/
def isOrientable (g : Similarity K) : Bool := g.sign = 1

/-- similarity.py 160-164. -/
def det (g : Similarity K) : K := (g.sign : K) * (g.a * g.a + g.b * g.b)

/-- `SimilarityGroup.one`, similarity.py 573-590. -/
def one : Similarity K := ⟨1, 0, 0, 0, 1⟩

/-- similarity.py 121-136 (`is_one()` is comparison with `one()`). -/
def isRotation [DecidableEq K] (g : Similarity K) : Bool :=
  (g = one : Bool) || (g.det = 1 && !g.isTranslation)

/-- similarity.py 138-158. -/
def isIsometry [DecidableEq K] (g : Similarity K) : Bool := g.det = 1 || -g.det = 1

/-- `_mul_`, similarity.py 166-193. -/
def mul (g h : Similarity K) : Similarity K where
  a := g.a * h.a - g.sign * g.b * h.b
  b := g.b * h.a + g.sign * g.a * h.b
  s := g.a * h.s - g.sign * g.b * h.t + g.s
  t := g.b * h.s + g.sign * g.a * h.t + g.t
  sign := g.sign * h.sign

/-- `__invert__`, similarity.py 195-220. -/
def inv (g : Similarity K) : Similarity K :=
  let a := g.sign * g.a / g.det
  let b := -g.b / g.det
  { a := a, b := b, s := -a * g.s + g.sign * b * g.t, t := -b * g.s - g.sign * a * g.t, sign := g.sign }

/-- `_div_`, similarity.py 222-242. -/
def div (g h : Similarity K) : Similarity K :=
  let det := h.det
  let invA := h.sign * h.a
  let invB := -h.b
  let invS := -h.sign * h.a * h.s - h.sign * h.b * h.t
  let invT := h.b * h.s - h.a * h.t
  { a := (g.a * invA - g.sign * g.b * invB) / det
    b := (g.b * invA + g.sign * g.a * invB) / det
    s := (g.a * invS - g.sign * g.b * invT) / det + g.s
    t := (g.b * invS + g.sign * g.a * invT) / det + g.t
    sign := g.sign * h.sign }

/-- `__call__` on a vector, similarity.py 303-334. -/
def call (g : Similarity K) (w : Vec K) : Vec K :=
  if g.sign = 1 then
    (g.a * w.1 - g.b * w.2 + g.s, g.b * w.1 + g.a * w.2 + g.t)
  else
    (g.a * w.1 + g.b * w.2 + g.s, g.b * w.1 - g.a * w.2 + g.t)

/-- `derivative`, similarity.py 422-436. -/
def derivative (g : Similarity K) : Mat2 K := ⟨g.a, -g.sign * g.b, g.b, g.sign * g.a⟩

/-- `SimilarityGroup._element_constructor_` on four numbers, similarity.py 507-508 and 552-555;
`none` stands for the `ValueError("not invertible")`. -/
def ofList4 [DecidableEq K] (a b s t : K) : Option (Similarity K) :=
  if a * a + b * b = 0 then none else some ⟨a, b, s, t, 1⟩

/-- `SimilarityGroup._element_constructor_` on a 2x2 matrix, similarity.py 518-528 and 552-555;
`a, c, b, d = x.list()` reads the rows `[a, c], [b, d]`. -/
def ofMatrix [DecidableEq K] (m : Mat2 K) : Option (Similarity K) :=
  let a := m.a; let c := m.b; let b := m.c; let d := m.d
  if a = d ∧ b = -c then
    if a * a + b * b = 0 then none else some ⟨a, b, 0, 0, 1⟩
  else if a = -d ∧ b = c then
    if a * a + b * b = 0 then none else some ⟨a, b, 0, 0, -1⟩
  else none

/-- `SimilarityGroup._element_constructor_` on a vector, similarity.py 533-540: a translation. -/
def ofVec (v : Vec K) : Similarity K := ⟨1, 0, v.1, v.2, 1⟩

end Similarity

/-- `similarity_from_vectors`, similarity.py 619-690.  (The check that the parents agree is dropped;
division by zero for `u = 0`, `v ≠ 0` raises in Sage, here guarded by `none`.) -/
def similarityFromVectors {K : Type*} [Field K] [DecidableEq K] (u v : Vec K) : Option (Mat2 K) :=
  if u = v then some Mat2.one
  else
    let sqnorm := u.1 * u.1 + u.2 * u.2
    if sqnorm = 0 then none
    else
      let cos := (u.1 * v.1 + u.2 * v.2) / sqnorm
      let sin := (u.1 * v.2 - u.2 * v.1) / sqnorm
      some ⟨cos, -sin, sin, cos⟩

/-- The computation inside `edge_transformation`, categories/similarity_surfaces.py 1413-1431, given the
end points `a, b` of the edge and `aa, bb` (end, start) of the opposite edge. -/
def edgeTransformationPts {K : Type*} [Field K] [DecidableEq K] (a b aa bb : Vec K) :
    Option (Similarity K) :=
  match Similarity.ofList4 (b.1 - a.1) (b.2 - a.2) a.1 a.2,
        Similarity.ofList4 (bb.1 - aa.1) (bb.2 - aa.2) aa.1 aa.2 with
  | some g, some gg => some (gg.div g)
  | _, _ => none

end Flat
