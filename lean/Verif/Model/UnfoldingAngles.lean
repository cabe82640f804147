import Verif.Model.Dict
import Mathlib.Data.Rat.Floor
import Mathlib.Algebra.Order.Field.Rat
import Mathlib.Algebra.BigOperators.Group.List.Basic

/-!
# Angles and strata of unfolded billiards

`_normalize_angles`, `angles`, `billiard_unfolding_angles`, `billiard_unfolding_stratum` and `billiard_unfolding_stratum_dimension` of
`categories/euclidean_polygons_with_angles.py`.  All angles are rational multiples of `2π`.
-/

namespace Flat

/-- `EuclideanPolygonsWithAngles._normalize_angles`, categories/euclidean_polygons_with_angles.py 158-176. -/
def normalizeAngles (angles : List ℚ) : Except Err (List ℚ) :=
  let n := angles.length
  if n < 3 then .error .valueError else
  if angles.any (fun a => decide (a ≤ 0)) then .error .valueError else
  let angles' := angles.map fun a => a / angles.sum
  let angles'' := angles'.map fun a => a * ((n : ℚ) - 2) / 2
  if angles''.any (fun a => decide (a ≤ 0) || decide (1 ≤ a)) then .error .notImplemented else
  .ok angles''

/-- `ZZ(x)`: a `TypeError` when `x` is not an integer. -/
def toZZ (x : ℚ) : Except Err ℤ := if x.den = 1 then .ok x.num else .error .typeError

/-- `angles(integral=True)`, categories/euclidean_polygons_with_angles.py 408-416. -/
def integralAngles (angles : List ℚ) : Except Err (List ℤ) :=
  let c : ℚ := (((angles.map Rat.den).foldr Nat.lcm 1 : ℕ) : ℚ) / (((angles.map Rat.num).foldr (fun a b => (Int.gcd a b : ℤ)) 0 : ℤ) : ℚ)
  angles.mapM fun a => toZZ (c * a)

/-- `if k in d: d[k] += m`, `else: d[k] = m`. -/
def Dict.add (d : Dict ℚ ℕ) (k : ℚ) (m : ℕ) : Dict ℚ ℕ := d.set k ((d.get k).getD 0 + m)

/-- The argument `cover_type`. -/
inductive CoverType where
  | rational
  | halfTranslation
  | translation
  /-- Any other string. -/
  | other
deriving DecidableEq

/-- The angles of the pillowcase of the polygon, categories/euclidean_polygons_with_angles.py 661-666. -/
def rationalAngles (angles : List ℚ) : Dict ℚ ℕ := angles.foldl (fun d a => d.add (2 * a) 1) []

/-- The loop that computes `cov_angles`, categories/euclidean_polygons_with_angles.py 676-688. -/
def coverAngles (N : ℕ) : Dict ℚ ℕ → Dict ℚ ℕ → Except Err (Dict ℚ ℕ)
  | [], cov => .ok cov
  | (x, mult) :: rest, cov =>
    let d := if x.den % 2 = 1 then x.den * 2 else x.den
    let y : ℚ := if x.den % 2 = 1 then x.num else (x.num : ℚ) / 2
    if N % d ≠ 0 then .error .assertionError else
    coverAngles N rest (cov.add y (mult * N / d))

/-- `billiard_unfolding_angles`, categories/euclidean_polygons_with_angles.py 661-703. -/
def billiardUnfoldingAngles (angles : List ℚ) (cover : CoverType) : Except Err (Dict ℚ ℕ) :=
  let rat := rationalAngles angles
  if cover = .rational then .ok rat else
  let N := (rat.keys.map Rat.den).foldr Nat.lcm 1
  let N := if N % 2 = 1 then N * 2 else N
  match coverAngles N rat [] with
  | .error e => .error e
  | .ok cov =>
    if cover = .translation ∧ cov.keys.any (fun y => decide (y.den = 2)) = true then
      .ok (cov.foldl (fun dd (ym : ℚ × ℕ) => dd.add ym.1.num (2 / ym.1.den * ym.2)) [])
    else if cover = .halfTranslation ∨ cover = .translation then .ok cov
    else .error .valueError

/-- `sum(([ZZ(c * (a - 1))] * mult for a, mult in angles.items() if marked_points or a != 1), [])`. -/
def stratumDegrees (c : ℚ) (marked : Bool) : Dict ℚ ℕ → Except Err (List ℤ)
  | [] => .ok []
  | (a, mult) :: rest => do
    if marked || decide (a ≠ 1) then
      let k ← toZZ (c * (a - 1))
      let ks ← stratumDegrees c marked rest
      pure (List.replicate mult k ++ ks)
    else stratumDegrees c marked rest

/-- The arguments given to `Stratum` in `billiard_unfolding_stratum`: the degrees, and 1 for Abelian or 2 for quadratic differentials,
categories/euclidean_polygons_with_angles.py 787-819. -/
def billiardUnfoldingStratum (angles : List ℚ) (cover : CoverType) (marked : Bool) : Except Err (List ℤ × ℕ) := do
  let d ← billiardUnfoldingAngles angles cover
  if d.keys.all (fun a => decide (a.den = 1)) then
    if !marked && decide (d.length = 1) && d.has 1 then pure ([0], 1)
    else
      let ks ← stratumDegrees 1 marked d
      pure (ks, 1)
  else
    let ks ← stratumDegrees 2 marked d
    pure (ks, 2)

/-- `billiard_unfolding_stratum_dimension`, categories/euclidean_polygons_with_angles.py 892-913. -/
def billiardUnfoldingStratumDimension (angles : List ℚ) (cover : CoverType) (marked : Bool) : Except Err ℤ := do
  if cover = .rational then .error .notImplemented
  if cover ≠ .translation ∧ cover ≠ .halfTranslation then .error .valueError
  let d ← billiardUnfoldingAngles angles cover
  let d := if marked then d else
    let d' := if d.has 1 then d.erase 1 else d
    if d'.isEmpty then [(1, 1)] else d'
  let abelian := d.keys.all (fun a => decide (a.den = 1))
  let s := (d.map Prod.snd).sum
  let chi : ℚ := (d.map fun e => (e.2 : ℚ) * (e.1 - 1)).sum
  if chi.den ≠ 1 then .error .assertionError
  let chi := chi.num
  if chi % 2 ≠ 0 then .error .assertionError
  let g := chi / 2 + 1
  pure (if abelian then 2 * g + s - 1 else 2 * g + s - 2)

end Flat
