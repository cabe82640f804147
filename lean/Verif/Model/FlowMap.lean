import Mathlib.Algebra.Order.Ring.Defs
import Mathlib.Algebra.BigOperators.Group.List.Defs
import Verif.Model.Dict

/-!
# Model of `FlowPolygonMap` of `flatsurf/geometry/interval_exchange_transformation.py`

The lengths are elements of an ordered ring; arithmetic is exact.
-/

namespace Flat
variable {L K : Type} [DecidableEq L] [CommRing K] [LinearOrder K]

/-- The loop in lines 80-86 (and, with the partitions exchanged, in 98-104); the result is `(lenb, it, lt, x1)`.
The recursion is bounded by `fuel`; that this bound is never hit is part of the proofs. -/
def flowAdvance (top : List K) : ℕ → K → ℕ → K → K → Except Err (K × ℕ × K × K)
  | 0, _, _, _, _ => .error .outOfFuel
  | fuel + 1, lenb, it, lt, x1 =>
    if lenb ≠ 0 ∧ lenb ≥ x1 then
      match top[it + 1]? with
      | some t => flowAdvance top fuel (lenb - x1) (it + 1) t t
      | none => flowAdvance top fuel (lenb - x1) (it + 1) 0 x1
    else .ok (lenb, it, lt, x1)

/-- The loop in lines 76-88 (94-106): the images of the left endpoints of the intervals. -/
def flowImages (top : List K) : List K → ℕ → K → K → Except Err (List (ℕ × K))
  | [], _, _, _ => .ok []
  | lenb :: bot, it, lt, x1 => do
    let (lenb', it', lt', x1') ← flowAdvance top (top.length + 1) lenb it lt x1
    let rest ← flowImages top bot it' lt' (if lenb' ≠ 0 then x1' - lenb' else x1')
    pure ((it, lt - x1) :: rest)

/-- The attributes of a `FlowPolygonMap`.  (The dictionaries from labels to indices are replaced by searching the lists of labels.) -/
structure FlowMap (L K : Type) where
  botLabels : List L
  botLengths : List K
  topLabels : List L
  topLengths : List K
  forwardImages : List (ℕ × K)
  backwardImages : List (ℕ × K)
deriving DecidableEq

/-- `FlowPolygonMap(ring, bot_labels, bot_lengths, top_labels, top_lengths)`, lines 47-106. -/
def FlowMap.mk' (botLabels : List L) (botLengths : List K) (topLabels : List L) (topLengths : List K) : Except Err (FlowMap L K) :=
  if ¬ ∀ x ∈ botLengths, x > 0 then .error .valueError
  else if ¬ ∀ x ∈ topLengths, x > 0 then .error .valueError
  else if botLabels.length ≠ botLengths.length then .error .valueError
  else if topLabels.length ≠ topLengths.length then .error .valueError
  else if topLengths.sum ≠ botLengths.sum then .error .valueError
  else if ¬ botLabels.Nodup then .error .valueError
  else if ¬ topLabels.Nodup then .error .valueError
  else
    match topLengths, botLengths with
    | t :: _, b :: _ => do
      let fwd ← flowImages topLengths botLengths 0 t t
      let bwd ← flowImages botLengths topLengths 0 b b
      pure ⟨botLabels, botLengths, topLabels, topLengths, fwd, bwd⟩
    | _, _ => .error .indexError

/-- The loop in lines 148-151 (202-205), from index `j` on. -/
def flowWalk : List K → ℕ → K → Except Err (ℕ × K)
  | [], _, _ => .error .indexError
  | l :: ls, j, x => if x > l then flowWalk ls (j + 1) (x - l) else .ok (j, x)

/-- Lines 140-151 (194-205): map `x` in the interval with index `i` of the partition `bot` to the partition `top`. -/
def flowMove (bot top : List K) (images : List (ℕ × K)) (i : ℕ) (x : K) : Except Err (ℕ × K) :=
  match bot[i]?, images[i]? with
  | some len, some (j, y) =>
    if x < 0 ∨ x > len then .error .valueError
    else
      match top[j]? with
      | none => .error .indexError
      | some t =>
        if x + y < t then .ok (j, x + y)
        else flowWalk (top.drop (j + 1)) (j + 1) (x - (t - y))
  | _, _ => .error .indexError

/-- Move with labels; an unknown label is a `KeyError`. -/
def flowLabelled (bot top : List K) (botLabels topLabels : List L) (images : List (ℕ × K)) (i : L) (x : K) : Except Err (L × K) :=
  if i ∈ botLabels then do
    let (j, y) ← flowMove bot top images (botLabels.idxOf i) x
    match topLabels[j]? with
    | some l => pure (l, y)
    | none => throw .indexError
  else .error .keyError

/-- `forward_image(i, x)`, lines 140-151. -/
def FlowMap.forwardImage (T : FlowMap L K) (i : L) (x : K) : Except Err (L × K) :=
  flowLabelled T.botLengths T.topLengths T.botLabels T.topLabels T.forwardImages i x

/-- `backward_image(i, x)`, lines 194-205. -/
def FlowMap.backwardImage (T : FlowMap L K) (i : L) (x : K) : Except Err (L × K) :=
  flowLabelled T.topLengths T.botLengths T.topLabels T.botLabels T.backwardImages i x

end Flat
