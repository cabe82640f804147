import Verif.Model.Angles
import Verif.Model.Families
import Mathlib.GroupTheory.Perm.Cycle.Basic

/-!
# Model of origamis

`flatsurf/geometry/origami.py`.  `Model.Families` has the gluings of an origami as formulas; here is the surface with the checks whether a
label is in the domain, and the checks in the constructor.
-/

namespace Flat
namespace RSurf
variable {L : Type}

/-- `AbstractOrigami.polygon` and `Origami.opposite_edge`, origami.py 94-99 and 154-161.  Edges are not negative. -/
def origamiSurf (K : Type) [Field K] (dom : L → Prop) [DecidablePred dom] (r u rr uu : L → L) : RSurf L K where
  polygon l := if dom l then .ok Surf.square else .error .valueError
  opp l e := if dom l then (Surf.origamiOpp r u rr uu l e).map some else .error .valueError

/-- The checks of `rr` in `Origami.__init__`, origami.py 135-139, and those of `uu`, 143-147: the list are the elements
`domain.some_elements()`. -/
def origamiCheck [DecidableEq L] (r rr : L → L) : List L → Except Err Unit
  | [] => .ok ()
  | a :: as =>
    if r (rr a) ≠ a then .error .valueError
    else if rr (r a) ≠ a then .error .valueError
    else origamiCheck r rr as

/-- `Origami(r, u, rr, uu, domain)`, origami.py 116-152.  If `rr` or `uu` is `None`, then it is the inverse of the permutation
`r` or `u`; otherwise `r` and `u` can be any callables. -/
def newOrigami (K : Type) [Field K] [DecidableEq L] (dom : L → Prop) [DecidablePred dom] (some : List L) (r u rr uu : L → L) : Except Err (RSurf L K) := do
  origamiCheck r rr some
  origamiCheck u uu some
  return origamiSurf K dom r u rr uu

/-- `Origami(r, u)` for permutations `r` and `u`, origami.py 132-133 and 140-141. -/
def permOrigami (K : Type) [Field K] (dom : L → Prop) [DecidablePred dom] (r u : Equiv.Perm L) : RSurf L K :=
  origamiSurf K dom r u r.symm u.symm

end RSurf
end Flat
