import Mathlib.Data.List.Forall2

/-!
# `mapM` in `Except`
-/

namespace Flat

/-- `mapM` in `Except` succeeds when it does so for each element. -/
theorem mapM_ok_iff {α β ε : Type} (f : α → Except ε β) (xs : List α) (ys : List β) :
    xs.mapM f = .ok ys ↔ List.Forall₂ (fun x y => f x = .ok y) xs ys := by
  induction xs generalizing ys with
  | nil =>
    simp only [List.mapM_nil, pure, Except.pure, List.forall₂_nil_left_iff]
    constructor
    · intro h; injection h with h; exact h.symm
    · rintro rfl; rfl
  | cons x xs ih =>
    simp only [List.mapM_cons, bind, Except.bind]
    cases hx : f x with
    | error e =>
      simp only [reduceCtorEq, false_iff]
      intro h
      cases h with
      | cons h1 h2 => rw [hx] at h1; cases h1
    | ok y =>
      dsimp only
      cases hxs : xs.mapM f with
      | error e =>
        simp only [reduceCtorEq, false_iff]
        intro h
        cases h with
        | cons h1 h2 => rw [(ih _).2 h2] at hxs; cases hxs
      | ok zs =>
        simp only [pure, Except.pure]
        constructor
        · intro h; injection h with h; subst h
          exact List.Forall₂.cons hx ((ih _).1 hxs)
        · intro h
          cases h with
          | cons h1 h2 =>
            rw [hx] at h1; injection h1 with h1
            rw [(ih _).2 h2] at hxs; injection hxs with hxs
            rw [h1, hxs]

theorem mapM_ok_mem {α β ε : Type} {f : α → Except ε β} {xs : List α} {ys : List β}
    (h : xs.mapM f = .ok ys) {y : β} (hy : y ∈ ys) : ∃ x ∈ xs, f x = .ok y := by
  rw [mapM_ok_iff] at h
  induction h with
  | nil => cases hy
  | cons h1 _ ih =>
    rcases List.mem_cons.1 hy with rfl | hy
    · exact ⟨_, by simp, h1⟩
    · obtain ⟨x, hx, hfx⟩ := ih hy
      exact ⟨x, by simp [hx], hfx⟩

end Flat
