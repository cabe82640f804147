import Verif.Props.FundamentalGroup

/-!
# Homotopies of walks that are not closed
-/

namespace Flat
namespace FPath
open RSurf
variable {L K : Type} [DecidableEq L] [Field K] [LinearOrder K] [IsStrictOrderedRing K]

/-- Two walks from `a` to `b` are homotopic. -/
def WH (S : RSurf L K) (valid : L → Prop) (a b : L) : List (Letter L) → List (Letter L) → Prop :=
  Relation.EqvGen (fun u v => Walk S valid a u b ∧ Walk S valid a v b ∧ Words.Step (ι := Letter.inv) u v)

/-- The reversed walk. -/
def winv (w : List (Letter L)) : List (Letter L) := w.reverse.map Letter.inv

theorem winv_cons (x : Letter L) (w : List (Letter L)) : winv (x :: w) = winv w ++ [Letter.inv x] := by simp [winv]

theorem winv_append (u v : List (Letter L)) : winv (u ++ v) = winv v ++ winv u := by simp [winv]

theorem winv_winv (w : List (Letter L)) : winv (winv w) = w := by
  simp only [winv, List.map_reverse, List.reverse_reverse, List.map_map]
  conv_rhs => rw [← List.map_id w]
  rfl

section
variable {S : RSurf L K} {valid : L → Prop}

theorem WH.refl {a b : L} (u : List (Letter L)) : WH S valid a b u u := Relation.EqvGen.refl _

theorem WH.symm {a b : L} {u v : List (Letter L)} (h : WH S valid a b u v) : WH S valid a b v u := Relation.EqvGen.symm _ _ h

theorem WH.trans {a b : L} {u v w : List (Letter L)} (h : WH S valid a b u v) (h' : WH S valid a b v w) : WH S valid a b u w := Relation.EqvGen.trans _ _ _ h h'

theorem WH.ends {a b : L} {u v : List (Letter L)} (h : WH S valid a b u v) : Walk S valid a u b ↔ Walk S valid a v b := by
  induction h with
  | rel _ _ h => exact ⟨fun _ => h.2.1, fun _ => h.1⟩
  | refl => exact Iff.rfl
  | symm _ _ _ ih => exact ih.symm
  | trans _ _ _ _ _ ih1 ih2 => exact ih1.trans ih2

theorem step_append_left {u v : List (Letter L)} (x : List (Letter L)) (h : Words.Step (ι := Letter.inv) u v) : Words.Step (ι := Letter.inv) (x ++ u) (x ++ v) := by
  induction x with
  | nil => exact h
  | cons y x ih => exact Words.Step.cons ih

theorem step_append_right {u v : List (Letter L)} (x : List (Letter L)) (h : Words.Step (ι := Letter.inv) u v) : Words.Step (ι := Letter.inv) (u ++ x) (v ++ x) := by
  obtain ⟨u, v, y⟩ := h
  have := Words.Step.mk (ι := Letter.inv) u (v ++ x) y
  simpa using this

theorem WH.append_left {a b c : L} {x u v : List (Letter L)} (hx : Walk S valid a x b) (h : WH S valid b c u v) : WH S valid a c (x ++ u) (x ++ v) := by
  induction h with
  | rel u v h => exact Relation.EqvGen.rel _ _ ⟨walk_append.2 ⟨b, hx, h.1⟩, walk_append.2 ⟨b, hx, h.2.1⟩, step_append_left x h.2.2⟩
  | refl => exact Relation.EqvGen.refl _
  | symm _ _ _ ih => exact Relation.EqvGen.symm _ _ ih
  | trans _ _ _ _ _ ih1 ih2 => exact Relation.EqvGen.trans _ _ _ ih1 ih2

theorem WH.append_right {a b c : L} {x u v : List (Letter L)} (hx : Walk S valid b x c) (h : WH S valid a b u v) : WH S valid a c (u ++ x) (v ++ x) := by
  induction h with
  | rel u v h => exact Relation.EqvGen.rel _ _ ⟨walk_append.2 ⟨b, h.1, hx⟩, walk_append.2 ⟨b, h.2.1, hx⟩, step_append_right x h.2.2⟩
  | refl => exact Relation.EqvGen.refl _
  | symm _ _ _ ih => exact Relation.EqvGen.symm _ _ ih
  | trans _ _ _ _ _ ih1 ih2 => exact Relation.EqvGen.trans _ _ _ ih1 ih2

/-- A walk followed by its reverse. -/
theorem WH.cancel (hS : S.Bordered valid) {a b : L} {x : List (Letter L)} (hx : Walk S valid a x b) : WH S valid a a (x ++ winv x) [] := by
  induction x generalizing a with
  | nil => exact Relation.EqvGen.refl _
  | cons y x ih =>
    obtain ⟨h1, h2, h3, h4⟩ := hx
    subst h1
    have h5 : Walk S valid y.1 [y] y.2.2.2 := ⟨rfl, h2, h3, rfl⟩
    have h6 : Walk S valid y.2.2.2 [Letter.inv y] y.1 := Walk.inv hS h5
    have h7 := (ih h4).append_right h6 |>.append_left h5
    rw [winv_cons]
    refine WH.trans (v := [y] ++ ([] ++ [Letter.inv y])) ?_ ?_
    · simpa using h7
    · have h8 := Words.Step.mk (ι := Letter.inv) ([] : List (Letter L)) [] (Letter.inv y)
      rw [Letter.inv_inv] at h8
      exact Relation.EqvGen.rel _ _ ⟨walk_append.2 ⟨_, h5, h6⟩, rfl, h8⟩

theorem WH.cancel' (hS : S.Bordered valid) {a b : L} {x : List (Letter L)} (hx : Walk S valid a x b) : WH S valid b b (winv x ++ x) [] := by
  have := WH.cancel hS (hx.inv hS)
  rwa [show (List.map Letter.inv x.reverse) = winv x from rfl, winv_winv] at this

theorem WH.homotopic {b : L} {u v : List (Letter L)} (h : WH S valid b b u v) : Homotopic S valid b (toPath b u) (toPath b v) := by
  induction h with
  | rel u v h => exact Relation.EqvGen.rel _ _ ⟨isPath_iff.2 ⟨u, rfl, h.1⟩, isPath_iff.2 ⟨v, rfl, h.2.1⟩, (backtrack_of_step h.1 h.2.2).2⟩
  | refl => exact Relation.EqvGen.refl _
  | symm _ _ _ ih => exact Relation.EqvGen.symm _ _ ih
  | trans _ _ _ _ _ ih1 ih2 => exact Relation.EqvGen.trans _ _ _ ih1 ih2

end
end FPath
end Flat
