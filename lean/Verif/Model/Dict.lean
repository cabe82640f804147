import Mathlib.Data.List.Basic
import Mathlib.Data.List.Nodup

/-!
# Python dictionaries and lists

Association lists with insertion order as a model of `dict`, Python's indexing of lists with negative
indices, and the exceptions that the modelled code can raise.
-/

namespace Flat

/-- The exceptions raised by the modelled code. -/
inductive Err where
  /-- `Exception("cannot modify an immutable surface")` -/
  | immutable
  | valueError
  | keyError
  | indexError
  | typeError
  | assertionError
  | notImplemented
  | attributeError
  /-- Not a Python exception: the recursion bound of the model was too small (proved not to happen). -/
  | outOfFuel
deriving DecidableEq, Repr

/-- A Python `dict`, as a list of key-value pairs in insertion order. -/
abbrev Dict (L V : Type*) := List (L × V)

namespace Dict
variable {L V W : Type*} [DecidableEq L]

/-- `d.get(k)` / `d[k]` (`none` for a missing key). -/
def get (d : Dict L V) (k : L) : Option V :=
  match d with
  | [] => none
  | (k', v) :: d => if k' = k then some v else get d k

/-- `d[k] = v`. -/
def set (d : Dict L V) (k : L) (v : V) : Dict L V :=
  match d with
  | [] => [(k, v)]
  | (k', v') :: d => if k' = k then (k', v) :: d else (k', v') :: set d k v

/-- `del d[k]` / `d.pop(k)` for a present key. -/
def erase (d : Dict L V) (k : L) : Dict L V :=
  match d with
  | [] => []
  | (k', v') :: d => if k' = k then d else (k', v') :: erase d k

/-- `d.keys()`. -/
def keys (d : Dict L V) : List L := d.map Prod.fst

/-- `k in d`. -/
def has (d : Dict L V) (k : L) : Bool := (d.get k).isSome

end Dict

/-- The position accessed by `l[i]` for a Python list `l` of length `n`; `none` is an `IndexError`. -/
def pyIndex (n : ℕ) (i : Int) : Option ℕ :=
  if 0 ≤ i then (if i < n then some i.toNat else none)
  else (if 0 ≤ i + n then some (i + n).toNat else none)

/-- `l[i]` for a Python list. -/
def pyGet {α : Type*} (l : List α) (i : Int) : Except Err α :=
  match pyIndex l.length i with
  | none => .error .indexError
  | some j => match l[j]? with
    | none => .error .indexError
    | some x => .ok x

/-- `l[i] = x` for a Python list. -/
def pySet {α : Type*} (l : List α) (i : Int) (x : α) : Except Err (List α) :=
  match pyIndex l.length i with
  | none => .error .indexError
  | some j => .ok (l.set j x)

end Flat
