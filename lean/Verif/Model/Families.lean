import Verif.Model.Polygon
import Mathlib.Logic.Relation

/-!
# Surfaces given by formulas

The infinite (and some finite) surfaces whose `polygon` and `opposite_edge` are given by formulas:
flatsurf/geometry/chamanara.py, similarity_surface_generators.py, origami.py and mega_wollmilchsau.py.
Labels are elements of a type; the checks whether a label is in the domain are not modelled.
-/

namespace Flat

/-- What other code uses of an (immutable) surface: `polygon(label)` and `opposite_edge(label, edge)`. -/
structure Surf (L K : Type) where
  polygon : L → Except Err (Poly K)
  opp : L → ℕ → Except Err (L × ℕ)

namespace Surf

/-- `ChamanaraPolygon(alpha)`, chamanara.py 53-65; a division by zero raises.  (The `ValueError`s in lines 57-59 are created
but not raised.) -/
def chamanaraPolygon {K : Type} [Field K] [LinearOrder K] [IsStrictOrderedRing K] (α : K) : Except Err (Poly K) :=
  if 1 - α = 0 then .error .valueError
  else
    let x := 1 / (1 - α)
    Poly.ofEdges [(1, 0), (-x, x), (0, -1), (x - 1, 1 - x)]

/-- `ChamanaraSurface.opposite_edge`, chamanara.py 220-237. -/
def chamanaraOpp (p : ℤ) (e : ℕ) : ℤ × ℕ :=
  if e = 0 ∨ e = 2 then (1 - p, e)
  else if e = 1 then
    if p < 0 then (p + 1, 3)
    else if p > 1 then (p - 1, 3)
    else (1 - p, 1)
  else
    if p ≤ 0 then (p - 1, 1) else (p + 1, 1)

/-- `ChamanaraSurface(alpha)`, chamanara.py 68-237. -/
def chamanara {K : Type} [Field K] [LinearOrder K] [IsStrictOrderedRing K] (α : K) : Surf ℤ K where
  polygon _ := chamanaraPolygon α
  opp p e := .ok (chamanaraOpp p e)

/-- `polygons.rectangle(w, h)`, polygon.py 586-616; the polygon is created without checks. -/
def rectangle {K : Type} [Field K] [LinearOrder K] (w h : K) : Except Err (Poly K) :=
  if w ≤ 0 then .error .valueError
  else if h ≤ 0 then .error .valueError
  else .ok (Poly.partialSums 0 [(w, 0), (0, h), (-w, 0), (0, -h)]).dropLast

mutual
/-- `EInfinitySurface.get_white(n)` for `n ≥ 2`, similarity_surface_generators.py 204-217; here `n` stands for `n + 2`. -/
def eWhite {K : Type} [Field K] (l : K) : ℕ → K
  | 0 => 1 - 3 * l + l ^ 2
  | n + 1 => l * eBlack l (n + 1) - eWhite l n

/-- `EInfinitySurface.get_black(n)` for `n ≥ 2`, similarity_surface_generators.py 219-230; here `n` stands for `n + 2`. -/
def eBlack {K : Type} [Field K] (l : K) : ℕ → K
  | 0 => l - 1
  | n + 1 => eWhite l n - eBlack l n
end

/-- `EInfinitySurface.get_white(n)`, similarity_surface_generators.py 204-217. -/
def getWhite {K : Type} [Field K] (l : K) (n : ℤ) : K :=
  if n = 0 ∨ n = 1 then l
  else if n = -1 then l - 1
  else if n ≥ 2 then eWhite l (n - 2).toNat
  else eWhite l (-n - 2).toNat

/-- `EInfinitySurface.get_black(n)`, similarity_surface_generators.py 219-230. -/
def getBlack {K : Type} [Field K] (l : K) (n : ℤ) : K :=
  if n = 0 then 1
  else if n = 1 ∨ n = -1 then l - 1
  else if n ≥ 2 then eBlack l (n - 2).toNat
  else eBlack l (1 - n - 2).toNat

/-- `EInfinitySurface.opposite_edge`, similarity_surface_generators.py 258-307. -/
def eInfinityOpp (p : ℤ) (e : ℕ) : ℤ × ℕ :=
  if p = 0 ∧ e = 0 then (0, 2)
  else if p = 0 ∧ e = 1 then (1, 3)
  else if p = 0 ∧ e = 2 then (0, 0)
  else if p = 0 ∧ e = 3 then (1, 1)
  else if p = 1 ∧ e = 0 then (-1, 2)
  else if p = 1 ∧ e = 1 then (0, 3)
  else if p = 1 ∧ e = 2 then (2, 0)
  else if p = 1 ∧ e = 3 then (0, 1)
  else if p = -1 ∧ e = 0 then (2, 2)
  else if p = -1 ∧ e = 1 then (-1, 3)
  else if p = -1 ∧ e = 2 then (1, 0)
  else if p = -1 ∧ e = 3 then (-1, 1)
  else if p = 2 ∧ e = 0 then (1, 2)
  else if p = 2 ∧ e = 1 then (-2, 3)
  else if p = 2 ∧ e = 2 then (-1, 0)
  else if p = 2 ∧ e = 3 then (-2, 1)
  else if p > 2 then
    if e % 2 ≠ 0 then (-p, (e + 2) % 4) else (1 - p, (e + 2) % 4)
  else
    if e % 2 ≠ 0 then (-p, (e + 2) % 4) else (1 - p, (e + 2) % 4)

/-- `EInfinitySurface(lambda_squared)`, similarity_surface_generators.py 100-307. -/
def eInfinity {K : Type} [Field K] [LinearOrder K] [IsStrictOrderedRing K] (l : K) : Surf ℤ K where
  polygon n := rectangle (2 * getBlack l n) (getWhite l n)
  opp p e := .ok (eInfinityOpp p e)

/-- The letters of the words in the labels of the T-fractal. -/
inductive Letter where
  | L | R
deriving DecidableEq

/-- The function `label` in `TFractalSurface.opposite_edge`, similarity_surface_generators.py 520-570. -/
def tFractalLabel (w : List Letter) (i e : ℕ) : Except Err (List Letter × ℕ) :=
  if i = 0 then
    if e = 0 then
      match w.getLast? with
      | none => .ok (w, 2)
      | some .L => .ok (w.dropLast, 1)
      | some .R => .ok (w.dropLast, 3)
    else if e = 1 then .ok (w, 0)
    else if e = 2 then .ok (w, 2)
    else if e = 3 then .ok (w, 0)
    else .error .valueError
  else if i = 1 then
    if e = 0 then .ok (w ++ [.L], 2)
    else if e = 1 then .ok (w, 2)
    else if e = 2 then .ok (w ++ [.L], 0)
    else if e = 3 then .ok (w, 3)
    else .error .valueError
  else if i = 2 then
    if e = 0 then .ok (w, 0)
    else if e = 1 then .ok (w, 3)
    else if e = 2 then
      match w.getLast? with
      | none => .ok (w, 0)
      | some .L => .ok (w.dropLast, 1)
      | some .R => .ok (w.dropLast, 3)
    else if e = 3 then .ok (w, 1)
    else .error .valueError
  else if i = 3 then
    if e = 0 then .ok (w ++ [.R], 2)
    else if e = 1 then .ok (w, 1)
    else if e = 2 then .ok (w ++ [.R], 0)
    else if e = 3 then .ok (w, 2)
    else .error .valueError
  else .error .valueError

/-- `TFractalSurface.opposite_edge`, similarity_surface_generators.py 471-572. -/
def tFractalOpp (p : List Letter × ℕ) (e : ℕ) : Except Err ((List Letter × ℕ) × ℕ) := do
  let l ← tFractalLabel p.1 p.2 e
  if e = 0 then return (l, 2)
  if e = 1 then return (l, 3)
  if e = 2 then return (l, 0)
  if e = 3 then return (l, 1)
  throw .valueError

/-- `TFractalSurface._base_polygon`, similarity_surface_generators.py 599-614. -/
def tFractalBase {K : Type} [Field K] [LinearOrder K] [IsStrictOrderedRing K] (w r h1 h2 : K) (i : ℕ) : Except Err (Poly K) :=
  if i = 0 then Poly.ofEdges [(w, 0), (0, h1), (-w, 0), (0, -h1)]
  else if i = 1 ∨ i = 3 then Poly.ofEdges [(w / r, 0), (0, h2), (-(w / r), 0), (0, -h2)]
  else if i = 2 then Poly.ofEdges [(w, 0), (0, h2), (-w, 0), (0, -h2)]
  else .error .valueError

/-- `TFractalSurface(w, r, h1, h2)`, similarity_surface_generators.py 347-614; multiplication by a scalar is multiplication by
a scalar matrix, categories/euclidean_polygons.py 184-187. -/
def tFractal {K : Type} [Field K] [LinearOrder K] [IsStrictOrderedRing K] (w r h1 h2 : K) : Surf (List Letter × ℕ) K where
  polygon l := do
    let p ← tFractalBase w r h1 h2 l.2
    let c := 1 / r ^ l.1.length
    match p.mul ⟨c, 0, 0, c⟩ with
    | none => throw .valueError
    | some q => return q
  opp := tFractalOpp

/-- `AbstractOrigami.opposite_edge`, origami.py 100-112, from the methods `down`, `right`, `up`, `left`. -/
def abstractOrigamiOpp {L : Type} (down right up left : L → L) (p : L) (e : ℕ) : Except Err (L × ℕ) :=
  if e = 0 then .ok (down p, 2)
  else if e = 1 then .ok (right p, 3)
  else if e = 2 then .ok (up p, 0)
  else if e = 3 then .ok (left p, 1)
  else .error .valueError

/-- `Origami.opposite_edge`, origami.py 152-161; `_perms = [uu, r, u, rr]`. -/
def origamiOpp {L : Type} (r u rr uu : L → L) (p : L) (e : ℕ) : Except Err (L × ℕ) :=
  match [uu, r, u, rr][e]? with
  | none => .error .valueError
  | some f => .ok (f p, (e + 2) % 4)

/-- The unit square `polygons.square()`, polygon.py 572-584. -/
def square {K : Type} [Field K] : Poly K := [(0, 0), (1, 0), (1, 1), (0, 1)]

/-- `Origami(r, u, rr, uu)`, origami.py 115-161. -/
def origami {L K : Type} [Field K] (r u rr uu : L → L) : Surf L K where
  polygon _ := .ok square
  opp := origamiOpp r u rr uu

/-- The surface of an `AbstractOrigami`, origami.py 36-112. -/
def abstractOrigami {L K : Type} [Field K] (down right up left : L → L) : Surf L K where
  polygon _ := .ok square
  opp := abstractOrigamiOpp down right up left

/-- `_InfiniteStaircase._vertical`, similarity_surface_generators.py 2206-2209. -/
def stairVertical (x : ℤ) : ℤ := if x % 2 ≠ 0 then x + 1 else x - 1

/-- `_InfiniteStaircase._horizontal`, similarity_surface_generators.py 2211-2214. -/
def stairHorizontal (x : ℤ) : ℤ := if x % 2 ≠ 0 then x - 1 else x + 1

/-- `_InfiniteStaircase`, similarity_surface_generators.py 2192-2214. -/
def staircase {K : Type} [Field K] : Surf ℤ K := origami stairVertical stairHorizontal stairVertical stairHorizontal

end Surf

/-! ## The Mega-Wollmilchsau -/

/-- Elements of `QuaternionAlgebra(-1, -1)` over the rationals, mega_wollmilchsau.py 30. -/
@[ext] structure Quat where
  a : ℚ
  b : ℚ
  c : ℚ
  d : ℚ
deriving DecidableEq

namespace Quat

/-- Hamilton's product (Sage). -/
def mul (x y : Quat) : Quat :=
  ⟨x.a * y.a - x.b * y.b - x.c * y.c - x.d * y.d, x.a * y.b + x.b * y.a + x.c * y.d - x.d * y.c,
   x.a * y.c - x.b * y.d + x.c * y.a + x.d * y.b, x.a * y.d + x.b * y.c - x.c * y.b + x.d * y.a⟩

/-- Sum (Sage). -/
def add (x y : Quat) : Quat := ⟨x.a + y.a, x.b + y.b, x.c + y.c, x.d + y.d⟩

/-- Negative (Sage). -/
def neg (x : Quat) : Quat := ⟨-x.a, -x.b, -x.c, -x.d⟩

/-- Reduced norm. -/
def norm (x : Quat) : ℚ := x.a * x.a + x.b * x.b + x.c * x.c + x.d * x.d

/-- Inverse `~x` (Sage): the conjugate over the norm; a `ZeroDivisionError` for zero. -/
def inv (x : Quat) : Except Err Quat :=
  if x.norm = 0 then .error .valueError else .ok ⟨x.a / x.norm, -x.b / x.norm, -x.c / x.norm, -x.d / x.norm⟩

end Quat

/-- `MegaWollmilchsauGroupElement`, mega_wollmilchsau.py 34-68. -/
@[ext] structure MegaElt where
  i : ℚ
  r : Quat
  q : Quat
deriving DecidableEq

namespace MegaElt

/-- `wedge`, mega_wollmilchsau.py 43-48. -/
def wedge (x y : Quat) : ℚ := -x.a * y.d + x.b * y.c - x.c * y.b + x.d * y.a

/-- The constructor, mega_wollmilchsau.py 50-66: `i` has to be an integer. -/
def make (i : ℚ) (r q : Quat) : Except Err MegaElt := if i.den ≠ 1 then .error .valueError else .ok ⟨i, r, q⟩

/-- `_mul_`, mega_wollmilchsau.py 78-86. -/
def mul (x m : MegaElt) : Except Err MegaElt :=
  make (x.i + m.i + wedge x.r (x.q.mul m.r)) (x.r.add (x.q.mul m.r)) (x.q.mul m.q)

/-- `__invert__`, mega_wollmilchsau.py 88-92. -/
def invert (x : MegaElt) : Except Err MegaElt := do
  let q1 ← x.q.inv
  let r1 := (q1.mul x.r).neg
  let i1 := -(x.i + wedge r1 (q1.mul x.r))
  make i1 r1 q1

/-- `_div_`, mega_wollmilchsau.py 94-95. -/
def div (x m : MegaElt) : Except Err MegaElt := do
  x.mul (← m.invert)

/-- `one()`, mega_wollmilchsau.py 126-127. -/
def one : MegaElt := ⟨0, ⟨0, 0, 0, 0⟩, ⟨1, 0, 0, 0⟩⟩

/-- `a()`, mega_wollmilchsau.py 120-121. -/
def genA : MegaElt := ⟨0, ⟨1, 0, 0, 0⟩, ⟨0, 1, 0, 0⟩⟩

/-- `b()`, mega_wollmilchsau.py 123-124. -/
def genB : MegaElt := ⟨0, ⟨1, 0, 0, 0⟩, ⟨0, 0, 1, 0⟩⟩

/-- `MegaWollmilchsau.opposite_edge`: `up`, `down`, `right`, `left` in mega_wollmilchsau.py 163-173 with
`AbstractOrigami.opposite_edge`, origami.py 100-112. -/
def opposite (p : MegaElt) (e : ℕ) : Except Err (MegaElt × ℕ) := do
  if e = 0 then return (← (← genB.invert).mul p, 2)
  if e = 1 then return (← genA.mul p, 3)
  if e = 2 then return (← genB.mul p, 0)
  if e = 3 then return (← (← genA.invert).mul p, 1)
  throw .valueError

end MegaElt
end Flat
