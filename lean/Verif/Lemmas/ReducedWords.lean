import Mathlib.Data.List.Chain
import Mathlib.Logic.Relation
import Mathlib.Tactic.Basic

/-!
# Words with an involution on the letters and cancellation of a letter followed by its inverse
-/

namespace Flat
namespace Words
variable {A : Type} [DecidableEq A] (ι : A → A)

/-- No letter is followed by its inverse. -/
def Red (w : List A) : Prop := w.IsChain (fun a b => a ≠ ι b)

/-- Product of a word, given in reversed order, with another one. -/
def mulR : List A → List A → List A
  | a :: as, b :: bs => if a = ι b then mulR as bs else (a :: as).reverse ++ b :: bs
  | as, bs => as.reverse ++ bs

/-- Multiplication by a letter. -/
def act (x : A) : List A → List A
  | [] => [x]
  | b :: bs => if x = ι b then bs else x :: b :: bs

def actL (u w : List A) : List A := u.foldr (act ι) w

variable {ι}

theorem Red.tail {a : A} {w : List A} (h : Red ι (a :: w)) : Red ι w := List.IsChain.tail h

theorem red_append {u v : List A} (h : Red ι (u ++ v)) : Red ι u ∧ Red ι v := ⟨List.IsChain.left_of_append h, List.IsChain.right_of_append h⟩

theorem act_red (x : A) {w : List A} (h : Red ι w) : Red ι (act ι x w) := by
  cases w with
  | nil => exact List.IsChain.singleton _
  | cons b bs =>
    simp only [act]
    split_ifs with hx
    · exact h.tail
    · exact List.isChain_cons_cons.2 ⟨hx, h⟩

theorem actL_red (u : List A) {w : List A} (h : Red ι w) : Red ι (actL ι u w) := by
  induction u with
  | nil => exact h
  | cons a u ih => exact act_red a ih

theorem act_act (hι : ∀ x, ι (ι x) = x) (x : A) {w : List A} (h : Red ι w) : act ι x (act ι (ι x) w) = w := by
  cases w with
  | nil => simp [act, hι]
  | cons b bs =>
    by_cases hx : ι x = ι b
    · have hxb : x = b := by rw [← hι x, hx, hι]
      subst hxb
      simp only [act, if_true]
      cases bs with
      | nil => rfl
      | cons c cs =>
        have := (List.isChain_cons_cons.1 h).1
        simp only [act, if_neg this]
    · simp only [act, if_neg hx, hι, if_true]

theorem act_eq_cons {x : A} {w : List A} (h : Red ι (x :: w)) : act ι x w = x :: w := by
  cases w with
  | nil => rfl
  | cons b bs => simp only [act, if_neg (List.isChain_cons_cons.1 h).1]

theorem actL_append_red {u w : List A} (h : Red ι (u ++ w)) : actL ι u w = u ++ w := by
  induction u with
  | nil => rfl
  | cons a u ih =>
    show act ι a (actL ι u w) = _
    rw [ih (Red.tail h)]
    exact act_eq_cons h

theorem actL_append (u v w : List A) : actL ι (u ++ v) w = actL ι u (actL ι v w) := by
  simp [actL, List.foldr_append]

theorem mulR_eq_actL (ru v : List A) (hu : Red ι ru.reverse) (hv : Red ι v) : mulR ι ru v = actL ι ru.reverse v := by
  induction ru generalizing v with
  | nil => simp [mulR, actL]
  | cons a as ih =>
    cases v with
    | nil =>
      rw [actL_append_red (by simpa using hu)]
      simp [mulR]
    | cons b bs =>
      rw [List.reverse_cons] at hu
      rw [List.reverse_cons, actL_append]
      unfold mulR
      by_cases hab : a = ι b
      · rw [if_pos hab, ih bs (red_append hu).1 hv.tail]
        simp [actL, act, hab]
      · rw [if_neg hab]
        have h1 : actL ι [a] (b :: bs) = a :: b :: bs := by simp [actL, act, hab]
        rw [h1, actL_append_red]
        · simp
        · have : Red ι (as.reverse ++ [a] ++ b :: bs) := by
            unfold Red
            rw [List.isChain_append]
            refine ⟨hu, hv, ?_⟩
            intro x hx y hy
            simp at hx hy
            subst hx hy
            exact hab
          simpa using this

theorem actL_mulR (hι : ∀ x, ι (ι x) = x) (ru v : List A) {w : List A} (hw : Red ι w) : actL ι (mulR ι ru v) w = actL ι ru.reverse (actL ι v w) := by
  induction ru generalizing v with
  | nil => simp [mulR, actL]
  | cons a as ih =>
    cases v with
    | nil => simp [mulR, actL]
    | cons b bs =>
      unfold mulR
      by_cases hab : a = ι b
      · rw [if_pos hab, ih bs, List.reverse_cons, actL_append]
        congr 1
        show _ = act ι a (act ι b (actL ι bs w))
        have : b = ι a := by rw [hab, hι]
        rw [this, act_act hι a (actL_red _ hw)]
      · rw [if_neg hab, actL_append]

theorem mulR_red (ru v : List A) (hu : Red ι ru.reverse) (hv : Red ι v) : Red ι (mulR ι ru v) := by
  rw [mulR_eq_actL ru v hu hv]
  exact actL_red _ hv

/-- The product is associative. -/
theorem mulR_assoc (hι : ∀ x, ι (ι x) = x) {u v w : List A} (hu : Red ι u) (hv : Red ι v) (hw : Red ι w) :
    mulR ι (mulR ι u.reverse v).reverse w = mulR ι u.reverse (mulR ι v.reverse w) := by
  have hu' : Red ι u.reverse.reverse := by rwa [List.reverse_reverse]
  have hv' : Red ι v.reverse.reverse := by rwa [List.reverse_reverse]
  have h1 : Red ι (mulR ι u.reverse v) := mulR_red _ _ hu' hv
  have h1' : Red ι (mulR ι u.reverse v).reverse.reverse := by rwa [List.reverse_reverse]
  rw [mulR_eq_actL _ _ h1' hw, mulR_eq_actL _ _ hu' (mulR_red _ _ hv' hw), mulR_eq_actL _ _ hv' hw, List.reverse_reverse, actL_mulR hι _ _ hw]
  simp

theorem mulR_inv (hι : ∀ x, ι (ι x) = x) (ru : List A) : mulR ι ru (ru.map ι) = [] := by
  induction ru with
  | nil => rfl
  | cons a as ih => simp [mulR, hι, ih]

theorem mulR_inv' (ru : List A) : mulR ι (ru.map ι) ru = [] := by
  induction ru with
  | nil => rfl
  | cons a as ih => simp [mulR, ih]

theorem red_inv (hι : ∀ x, ι (ι x) = x) {u : List A} (hu : Red ι u) : Red ι (u.reverse.map ι) := by
  unfold Red at *
  rw [List.isChain_map, List.isChain_reverse]
  refine hu.imp ?_
  intro a b hab h
  apply hab
  rw [h, hι]

/-- One word arises from another by removing a letter followed by its inverse. -/
inductive Step : List A → List A → Prop
  | mk (u v : List A) (b : A) : Step (u ++ ι b :: b :: v) (u ++ v)

theorem Step.cons {a : A} {u v : List A} (h : Step (ι := ι) u v) : Step (ι := ι) (a :: u) (a :: v) := by
  obtain ⟨u, v, b⟩ := h
  exact Step.mk (a :: u) v b

theorem actL_step (hι : ∀ x, ι (ι x) = x) {u v : List A} (h : Step (ι := ι) u v) {w : List A} (hw : Red ι w) : actL ι u w = actL ι v w := by
  obtain ⟨u, v, b⟩ := h
  rw [actL_append, actL_append]
  congr 1
  show act ι (ι b) (act ι b (actL ι v w)) = _
  have := act_act hι (ι b) (actL_red v hw)
  rwa [hι] at this

/-- Reduced words are determined by their class. -/
theorem red_unique (hι : ∀ x, ι (ι x) = x) {u v : List A} (h : Relation.EqvGen (Step (ι := ι)) u v) (hu : Red ι u) (hv : Red ι v) : u = v := by
  have key : actL ι u [] = actL ι v [] := by
    clear hu hv
    induction h with
    | rel x y h => exact actL_step hι h List.IsChain.nil
    | refl => rfl
    | symm x y _ ih => exact ih.symm
    | trans x y z _ _ ih1 ih2 => exact ih1.trans ih2
  rwa [actL_append_red (by simpa using hu), actL_append_red (by simpa using hv), List.append_nil, List.append_nil] at key

/-- The product is in the class of the concatenation. -/
theorem mulR_step (ru v : List A) : Relation.ReflTransGen (Step (ι := ι)) (ru.reverse ++ v) (mulR ι ru v) := by
  induction ru generalizing v with
  | nil => exact Relation.ReflTransGen.refl
  | cons a as ih =>
    cases v with
    | nil => exact Relation.ReflTransGen.refl
    | cons b bs =>
      unfold mulR
      by_cases hab : a = ι b
      · rw [if_pos hab]
        refine Relation.ReflTransGen.head ?_ (ih bs)
        rw [List.reverse_cons, List.append_assoc, hab]
        exact Step.mk _ _ _
      · rw [if_neg hab]

end Words
end Flat
