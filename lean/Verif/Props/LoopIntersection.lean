import Verif.Props.FundamentalGroup
import Mathlib.Tactic.Linarith
import Mathlib.Tactic.Ring
import Mathlib.Algebra.BigOperators.Group.List.Basic
import Mathlib.Algebra.Order.BigOperators.Group.List

/-!
# C59: intersection numbers of closed paths
-/

namespace Flat
namespace FPath
open RSurf
variable {L K : Type} [DecidableEq L] [Field K] [LinearOrder K] [IsStrictOrderedRing K]

/-! ### The sum over pairs of steps -/

def ge (a b : L × ℕ) : ℤ := if a.1 = b.1 ∧ a.2 ≤ b.2 then 1 else 0
def gt (a b : L × ℕ) : ℤ := if a.1 = b.1 ∧ a.2 < b.2 then 1 else 0
def eqv (a b : L × ℕ) : ℤ := if a = b then 1 else 0
def same (a b : L × ℕ) : ℤ := if a.1 = b.1 then 1 else 0

theorem ge_eq (a b : L × ℕ) : ge a b = gt a b + eqv a b := by
  unfold ge gt eqv
  by_cases h : a.1 = b.1
  · rcases lt_trichotomy a.2 b.2 with h2 | h2 | h2
    · rw [if_pos ⟨h, h2.le⟩, if_pos ⟨h, h2⟩, if_neg (fun hab => by rw [hab] at h2; exact lt_irrefl _ h2)]; rfl
    · rw [if_pos ⟨h, h2.le⟩, if_neg (fun hab => hab.2.ne h2), if_pos (Prod.ext h h2)]; rfl
    · rw [if_neg (fun hab => by omega), if_neg (fun hab => by omega), if_neg (fun hab => by rw [hab] at h2; exact lt_irrefl _ h2)]; rfl
  · rw [if_neg (fun hab => h hab.1), if_neg (fun hab => h hab.1), if_neg (fun hab => h (by rw [hab]))]; rfl

theorem ge_add_gt (a b : L × ℕ) : ge a b + gt b a = same a b := by
  unfold ge gt same
  by_cases h : a.1 = b.1
  · by_cases h2 : a.2 ≤ b.2
    · rw [if_pos ⟨h, h2⟩, if_neg (fun hab => by omega), if_pos h]; rfl
    · rw [if_neg (fun hab => h2 hab.2), if_pos ⟨h.symm, by omega⟩, if_pos h]; rfl
  · rw [if_neg (fun hab => h hab.1), if_neg (fun hab => h hab.1.symm), if_neg h]; rfl

theorem eqv_comm (a b : L × ℕ) : eqv a b = eqv b a := by
  unfold eqv
  by_cases h : a = b
  · rw [if_pos h, if_pos h.symm]
  · rw [if_neg h, if_neg (fun h' => h h'.symm)]

def out (x : Letter L) : L × ℕ := (x.1, x.2.1)
def inn (x : Letter L) : L × ℕ := (x.2.2.2, x.2.2.1)

def form (x y : Letter L) : ℤ := ge (inn x) (inn y) - gt (out x) (inn y) - ge (inn x) (out y) + gt (out x) (out y)

def pairing (u v : List (Letter L)) : ℤ := (u.map (fun x => (v.map (fun y => form x y)).sum)).sum

theorem pairing_append_left (u u' v : List (Letter L)) : pairing (u ++ u') v = pairing u v + pairing u' v := by
  simp [pairing]

theorem pairing_append_right (u v v' : List (Letter L)) : pairing u (v ++ v') = pairing u v + pairing u v' := by
  simp [pairing, List.sum_map_add]

section
variable {S : RSurf L K} {valid : L → Prop}

/-- A step of the surface. -/
def IsLetter (S : RSurf L K) (valid : L → Prop) (x : Letter L) : Prop := S.IsDart valid (x.1, x.2.1) ∧ S.opp x.1 x.2.1 = .ok (some (x.2.2.2, x.2.2.1))

theorem out_eq_iff (hS : S.Bordered valid) {x y : Letter L} (hx : IsLetter S valid x) (hy : IsLetter S valid y) : inn x = inn y ↔ out x = out y := by
  obtain ⟨h1, h2⟩ := hS.opp_symm (d := (x.1, x.2.1)) hx.1 hx.2
  obtain ⟨h3, h4⟩ := hS.opp_symm (d := (y.1, y.2.1)) hy.1 hy.2
  have e1 := hx.2
  have e2 := hy.2
  dsimp only at h2 h4
  unfold inn out
  constructor
  · intro h
    rw [Prod.mk.injEq] at h
    rw [h.1, h.2, h4] at h2
    simpa [eq_comm] using h2
  · intro h
    rw [Prod.mk.injEq] at h
    rw [h.1, h.2, e2] at e1
    simpa [eq_comm] using e1

theorem IsLetter.inv (hS : S.Bordered valid) {x : Letter L} (hx : IsLetter S valid x) : IsLetter S valid (Letter.inv x) :=
  hS.opp_symm (d := (x.1, x.2.1)) hx.1 hx.2

theorem eqv_inn (hS : S.Bordered valid) {x y : Letter L} (hx : IsLetter S valid x) (hy : IsLetter S valid y) : eqv (inn x) (inn y) = eqv (out x) (out y) := by
  unfold eqv
  by_cases h : out x = out y
  · rw [if_pos h, if_pos ((out_eq_iff hS hx hy).2 h)]
  · rw [if_neg h, if_neg (fun h' => h ((out_eq_iff hS hx hy).1 h'))]

theorem form_inv_right (x y : Letter L) : form x (Letter.inv y) = - form x y := by
  unfold form
  rw [show inn (Letter.inv y) = out y from rfl, show out (Letter.inv y) = inn y from rfl]
  ring

theorem form_inv_left (hS : S.Bordered valid) {x y : Letter L} (hx : IsLetter S valid x) (hy : IsLetter S valid y) : form (Letter.inv x) y = - form x y := by
  unfold form
  rw [show inn (Letter.inv x) = out x from rfl, show out (Letter.inv x) = inn x from rfl]
  have h1 := eqv_inn hS hx hy
  have h2 := eqv_inn hS (hx.inv hS) hy
  rw [show inn (Letter.inv x) = out x from rfl, show out (Letter.inv x) = inn x from rfl] at h2
  rw [ge_eq, ge_eq, ge_eq, ge_eq]
  linarith

theorem form_symm (hS : S.Bordered valid) {x y : Letter L} (hx : IsLetter S valid x) (hy : IsLetter S valid y) : form x y + form y x =
    same (inn x) (inn y) - same (out x) (inn y) - same (inn x) (out y) + same (out x) (out y) := by
  unfold form
  have h1 := eqv_inn hS hx hy
  have a1 := ge_add_gt (inn x) (inn y)
  have a2 := ge_add_gt (inn y) (out x)
  have a3 := ge_add_gt (inn x) (out y)
  have a4 := ge_add_gt (out x) (out y)
  have s : same (inn y) (out x) = same (out x) (inn y) := by unfold same; simp only [eq_comm]
  rw [ge_eq] at a4
  have b1 := ge_eq (inn y) (inn x)
  rw [eqv_comm] at b1
  linarith

theorem Walk.isLetter {a b : L} {w : List (Letter L)} (h : Walk S valid a w b) : ∀ x ∈ w, IsLetter S valid x := fun _ hx => h.letter hx

theorem sum_zero {ι : Type} {l : List ι} {f : ι → ℤ} (h : ∀ x ∈ l, f x = 0) : (l.map f).sum = 0 := by
  rw [List.map_congr_left h]
  simp

theorem innerCross_mem {ps : List L} {rs es : List ℕ} {t : L × ℕ × ℕ} (h : t ∈ innerCross ps rs es) : t.1 ∈ ps := by
  induction ps generalizing rs es with
  | nil => simp [innerCross] at h
  | cons p ps ih =>
    cases rs with
    | nil => simp [innerCross] at h
    | cons r rs =>
      cases es with
      | nil => simp [innerCross] at h
      | cons e es =>
        simp only [innerCross, List.mem_cons] at h
        rcases h with rfl | h
        · simp
        · exact List.mem_cons_of_mem _ (ih h)

theorem sum_neg {ι : Type} (l : List ι) (f : ι → ℤ) : (l.map (fun x => - f x)).sum = - (l.map f).sum := by
  induction l with
  | nil => simp
  | cons a l ih => rw [List.map_cons, List.sum_cons, ih, List.map_cons, List.sum_cons]; ring

/-- Along a closed path the sum over the polygons that are entered is the sum over the polygons that are left. -/
theorem Walk.balance {a b : L} {w : List (Letter L)} (h : Walk S valid a w b) (f : L → ℤ) : (w.map (fun x => f (inn x).1)).sum + f a = (w.map (fun x => f (out x).1)).sum + f b := by
  induction w generalizing a with
  | nil => simp [Walk] at h; simp [h]
  | cons x w ih =>
    have := ih h.2.2.2
    rw [List.map_cons, List.map_cons, List.sum_cons, List.sum_cons]
    have h1 : f (out x).1 = f a := by unfold out; rw [h.1]
    have h2 : (inn x).1 = x.2.2.2 := rfl
    rw [h1, h2]
    linarith

theorem pairing_swap {α β : Type} (u : List α) (v : List β) (g : α → β → ℤ) : (v.map (fun y => (u.map (fun x => g x y)).sum)).sum =
    (u.map (fun x => (v.map (fun y => g x y)).sum)).sum := by
  induction u with
  | nil => simp
  | cons x u ih => simp [List.sum_map_add, ih]

theorem pairing_antisymm (hS : S.Bordered valid) {a b : L} {u v : List (Letter L)} (hu : Walk S valid a u a) (hv : Walk S valid b v b) :
    pairing u v + pairing v u = 0 := by
  have h1 : pairing u v + pairing v u = (u.map (fun x => (v.map (fun y => form x y + form y x)).sum)).sum := by
    unfold pairing
    rw [pairing_swap u v (fun x y => form y x), ← List.sum_map_add]
    simp [List.sum_map_add]
  rw [h1]
  have h2 : ∀ x ∈ u, (v.map (fun y => form x y + form y x)).sum = 0 := by
    intro x hx
    have h3 : (v.map (fun y => form x y + form y x)).sum = (v.map (fun y => (fun p => (if (inn x).1 = p then (1 : ℤ) else 0) - (if (out x).1 = p then 1 else 0)) (inn y).1)).sum -
        (v.map (fun y => (fun p => (if (inn x).1 = p then (1 : ℤ) else 0) - (if (out x).1 = p then 1 else 0)) (out y).1)).sum := by
      rw [List.map_congr_left (fun y hy => form_symm hS (hu.isLetter x hx) (hv.isLetter y hy))]
      clear hv h1
      induction v with
      | nil => simp
      | cons y v ih =>
        simp only [List.map_cons, List.sum_cons]
        rw [ih]
        unfold same
        ring
    have h4 := hv.balance (fun p => (if (inn x).1 = p then (1 : ℤ) else 0) - (if (out x).1 = p then 1 else 0))
    rw [h3]
    linarith
  rw [List.map_congr_left h2]
  simp

theorem pairing_step_left (hS : S.Bordered valid) {a b c d : L} {u u' v : List (Letter L)} (hu : Walk S valid a u b) (hv : Walk S valid c v d)
    (h : Words.Step (ι := Letter.inv) u u') : pairing u v = pairing u' v := by
  obtain ⟨u, u', x⟩ := h
  rw [pairing_append_left, pairing_append_left]
  have hx : IsLetter S valid x := hu.isLetter x (by simp)
  have : pairing (Letter.inv x :: x :: u') v = pairing u' v := by
    simp only [pairing, List.map_cons, List.sum_cons]
    rw [List.map_congr_left (fun y hy => form_inv_left hS hx (hv.isLetter y hy)), ← add_assoc, ← List.sum_map_add]
    simp
  rw [this]

theorem pairing_step_right {u v v' : List (Letter L)} (h : Words.Step (ι := Letter.inv) v v') : pairing u v = pairing u v' := by
  obtain ⟨v, v', x⟩ := h
  rw [pairing_append_right, pairing_append_right]
  congr 1
  simp only [pairing, List.map_cons, List.sum_cons]
  congr 2
  funext y
  rw [form_inv_right]
  ring

/-! ### `intersection` -/

theorem cross_eq (a b c d : ℕ) : cross a b c d = (if a ≤ c then 1 else 0) - (if b < c then 1 else 0) - (if a ≤ d then 1 else 0) + (if b < d then 1 else 0) := by
  unfold cross
  split_ifs <;> first | rfl | omega

theorem innerCross_sum {a b : L} {w : List (Letter L)} (h : Walk S valid a w b) (x : Letter L) (hx : x.2.2.2 = a) (f : L × ℕ → ℤ) (g : L × ℕ → ℤ) :
    ((innerCross ((x :: w).map (fun x => x.2.2.2)) ((x :: w).map (fun x => x.2.2.1)) (w.map (fun x => x.2.1))).map (fun t => f (t.1, t.2.1) + g (t.1, t.2.2))).sum +
      f (inn ((x :: w).getLast (by simp))) = ((x :: w).map (fun x => f (inn x))).sum + (w.map (fun x => g (out x))).sum := by
  induction w generalizing a x with
  | nil => simp [innerCross]
  | cons y w ih =>
    have := ih h.2.2.2 y rfl
    rw [List.getLast_cons (by simp)]
    simp only [List.map_cons, innerCross, List.sum_cons] at this ⊢
    have h1 : g (x.2.2.2, y.2.1) = g (out y) := by rw [hx, ← h.1]; rfl
    have h2 : f (x.2.2.2, x.2.2.1) = f (inn x) := rfl
    rw [h1, h2]
    linarith

theorem crossings_spec (hS : S.Bordered valid) {b : L} {x : Letter L} {w : List (Letter L)} (h : Walk S valid b (x :: w) b) : ∃ xs, (toPath b (x :: w)).crossings = .ok xs ∧ (∀ t ∈ xs, valid t.1) ∧
    ∀ f g : L × ℕ → ℤ, (xs.map (fun t => f (t.1, t.2.1) + g (t.1, t.2.2))).sum = ((x :: w).map (fun x => f (inn x) + g (out x))).sum := by
  have hlast : ((x :: w).map (fun x => x.2.2.1)).getLast? = some ((x :: w).getLast (by simp)).2.2.1 := by
    rw [List.getLast?_map, List.getLast?_eq_getLast_of_ne_nil (by simp)]
    rfl
  refine ⟨(b, ((x :: w).getLast (by simp)).2.2.1, x.2.1) :: innerCross ((x :: w).map (fun x => x.2.2.2)) ((x :: w).map (fun x => x.2.2.1)) (w.map (fun x => x.2.1)), ?_, ?_, ?_⟩
  · unfold crossings toPath
    dsimp only
    rw [hlast]
    rfl
  · intro t ht
    rcases List.mem_cons.1 ht with rfl | ht
    · have := h.2.1.1
      rwa [h.1] at this
    · obtain ⟨z, hz, hz'⟩ := List.mem_map.1 (innerCross_mem ht)
      rw [← hz']
      obtain ⟨h1, h2⟩ := h.isLetter z hz
      exact (hS.opp_symm (d := (z.1, z.2.1)) h1 h2).1.1
  · intro f g
    have h1 := innerCross_sum h.2.2.2 x rfl f g
    have h2 : ((x :: w).getLast (by simp)).2.2.2 = b := by
      have := (toPath_ends h).2
      unfold toPath at this
      dsimp only at this
      rw [List.getLast?_cons_of_ne_nil (by simp), List.getLast?_map, List.getLast?_eq_getLast_of_ne_nil (by simp)] at this
      simpa using this
    rw [List.map_cons, List.sum_cons, List.sum_map_add]
    have h3 : f (b, ((x :: w).getLast (by simp)).2.2.1) = f (inn ((x :: w).getLast (by simp))) := by
      unfold inn
      rw [h2]
    have h4 : g (b, x.2.1) = g (out x) := by
      unfold out
      rw [h.1]
    dsimp only
    rw [h3, h4]
    rw [List.sum_map_add (l := x :: w), List.map_cons (f := fun x => g (out x)), List.sum_cons]
    rw [List.sum_map_add] at h1
    linarith

theorem filter_sum (ys : List (L × ℕ × ℕ)) (p : L) (f : L × ℕ × ℕ → ℤ) : ((ys.filter (fun y => y.1 = p)).map f).sum = (ys.map (fun y => if y.1 = p then f y else 0)).sum := by
  induction ys with
  | nil => rfl
  | cons y ys ih =>
    by_cases h : y.1 = p
    · rw [List.filter_cons_of_pos (by simpa using h)]
      simp [h, ih]
    · rw [List.filter_cons_of_neg (by simpa using h)]
      simp [h, ih]

theorem label_sum {labels : List L} (hn : labels.Nodup) {p : L} (hp : p ∈ labels) (f : L → ℤ) : (labels.map (fun l => if p = l then f l else 0)).sum = f p := by
  induction labels with
  | nil => cases hp
  | cons l labels ih =>
    rw [List.nodup_cons] at hn
    rw [List.map_cons, List.sum_cons]
    by_cases h : p = l
    · subst h
      rw [if_pos rfl, sum_zero, add_zero]
      intro x hx
      rw [if_neg]
      rintro rfl
      exact hn.1 hx
    · rw [if_neg h, ih hn.2 ((List.mem_cons.1 hp).resolve_left h), zero_add]

theorem intersection_eq (hS : S.Bordered valid) {labels : List L} (hl : ∀ l, valid l → l ∈ labels) (hn : labels.Nodup) {b : L} {x y : Letter L} {u v : List (Letter L)}
    (hu : Walk S valid b (x :: u) b) (hv : Walk S valid b (y :: v) b) :
    intersection labels (toPath b (x :: u)) (toPath b (y :: v)) = .ok (pairing (x :: u) (y :: v)) := by
  obtain ⟨xs, h1, h2, h3⟩ := crossings_spec hS hu
  obtain ⟨ys, h4, -, h5⟩ := crossings_spec hS hv
  unfold intersection
  simp only [bind, Except.bind, h1, h4, pure, Except.pure]
  congr 1
  generalize x :: u = u at *
  generalize y :: v = v at *
  -- the sum over the labels
  have e1 : ∀ p, crossSum xs ys p = (xs.map (fun x => if x.1 = p then (fun p => (ys.map (fun y => if y.1 = p then cross x.2.1 x.2.2 y.2.1 y.2.2 else 0)).sum) p else 0)).sum := by
    intro p
    unfold crossSum
    rw [filter_sum]
    simp only [filter_sum]
  rw [List.map_congr_left (fun p _ => e1 p)]
  rw [pairing_swap xs labels (fun x p => if x.1 = p then (fun p => (ys.map (fun y => if y.1 = p then cross x.2.1 x.2.2 y.2.1 y.2.2 else 0)).sum) p else 0)]
  rw [List.map_congr_left (fun x hx => label_sum hn (hl x.1 (h2 x hx)) _)]
  -- the sum over the crossings of the second path
  have e2 : ∀ x : L × ℕ × ℕ, (ys.map (fun y => if y.1 = x.1 then cross x.2.1 x.2.2 y.2.1 y.2.2 else 0)).sum =
      (v.map (fun y => (ge (x.1, x.2.1) (inn y) - gt (x.1, x.2.2) (inn y)) + (gt (x.1, x.2.2) (out y) - ge (x.1, x.2.1) (out y)))).sum := by
    intro x
    rw [← h5 (fun b => ge (x.1, x.2.1) b - gt (x.1, x.2.2) b) (fun b => gt (x.1, x.2.2) b - ge (x.1, x.2.1) b)]
    congr 1
    apply List.map_congr_left
    intro y _
    unfold ge gt
    by_cases h : y.1 = x.1
    · simp only [h, true_and, cross_eq, if_true]
      ring
    · simp only [if_neg h, fun q : Prop => (⟨fun hh => absurd hh.1.symm h, False.elim⟩ : (x.1 = y.1 ∧ q) ↔ False), if_false]
      ring
  simp only [e2]
  -- the sum over the crossings of the first path
  unfold pairing
  rw [← pairing_swap xs v, ← pairing_swap u v]
  congr 1
  apply List.map_congr_left
  intro y _
  have e3 := h3 (fun b => ge b (inn y) - ge b (out y)) (fun b => gt b (out y) - gt b (inn y))
  rw [show (u.map (fun x => form x y)) = u.map (fun x => (ge (inn x) (inn y) - ge (inn x) (out y)) + (gt (out x) (out y) - gt (out x) (inn y))) by
    apply List.map_congr_left; intro x _; unfold form; ring]
  rw [← e3]
  congr 1
  apply List.map_congr_left
  intro x _
  ring

/-! ### The theorems -/

/-- The trivial path. -/
def Nontrivial (P : FPath L) : Prop := P.edges ≠ []

theorem exists_cons {b : L} {P : FPath L} (hP : IsPath S valid b b P) (hn : Nontrivial P) : ∃ x u, P = toPath b (x :: u) ∧ Walk S valid b (x :: u) b := by
  obtain ⟨u, rfl, hu⟩ := isPath_iff.1 hP
  cases u with
  | nil => exact absurd rfl hn
  | cons x u => exact ⟨x, u, rfl, hu⟩

/-- **C59**. The intersection number is antisymmetric. -/
theorem C59_antisymmetric (hS : S.Closed valid) {labels : List L} (hl : ∀ l, valid l → l ∈ labels) (hn : labels.Nodup) {b : L} {P Q : FPath L} (hP : IsPath S valid b b P)
    (hP1 : Nontrivial P) (hQ : IsPath S valid b b Q) (hQ1 : Nontrivial Q) :
    ∃ n, intersection labels P Q = .ok n ∧ intersection labels Q P = .ok (-n) := by
  obtain ⟨x, u, rfl, hu⟩ := exists_cons hP hP1
  obtain ⟨y, v, rfl, hv⟩ := exists_cons hQ hQ1
  refine ⟨_, intersection_eq hS.bordered hl hn hu hv, ?_⟩
  rw [intersection_eq hS.bordered hl hn hv hu]
  have := pairing_antisymm hS.bordered hu hv
  congr 1
  linarith

/-- **C59**. The intersection number only depends on the homotopy class. -/
theorem C59_homotopy (hS : S.Closed valid) {labels : List L} (hl : ∀ l, valid l → l ∈ labels) (hn : labels.Nodup) {b : L} {P P' Q : FPath L} (hP : IsPath S valid b b P)
    (hP1 : Nontrivial P) (hP' : IsPath S valid b b P') (hP1' : Nontrivial P') (hQ : IsPath S valid b b Q) (hQ1 : Nontrivial Q) (h : Homotopic S valid b P P') :
    intersection labels P Q = intersection labels P' Q ∧ intersection labels Q P = intersection labels Q P' := by
  obtain ⟨x, u, rfl, hu⟩ := exists_cons hP hP1
  obtain ⟨x', u', rfl, hu'⟩ := exists_cons hP' hP1'
  obtain ⟨y, v, rfl, hv⟩ := exists_cons hQ hQ1
  rw [intersection_eq hS.bordered hl hn hu hv, intersection_eq hS.bordered hl hn hu' hv, intersection_eq hS.bordered hl hn hv hu, intersection_eq hS.bordered hl hn hv hu']
  have key : pairing (x :: u) (y :: v) = pairing (x' :: u') (y :: v) := by
    have hw := homotopic_words h _ rfl hu _ rfl hu'
    have : ∀ w w', Relation.EqvGen (fun w w' => Walk S valid b w b ∧ Words.Step (ι := Letter.inv) w w') w w' → pairing w (y :: v) = pairing w' (y :: v) := by
      intro w w' h
      induction h with
      | rel w w' h => exact pairing_step_left hS.bordered h.1 hv h.2
      | refl => rfl
      | symm _ _ _ ih => exact ih.symm
      | trans _ _ _ _ _ ih1 ih2 => exact ih1.trans ih2
    exact this _ _ hw
  have a1 := pairing_antisymm hS.bordered hu hv
  have a2 := pairing_antisymm hS.bordered hu' hv
  refine ⟨by rw [key], ?_⟩
  congr 1
  linarith

/-- **C59**. The intersection number is additive with respect to concatenation. -/
theorem C59_concatenation (hS : S.Closed valid) {labels : List L} (hl : ∀ l, valid l → l ∈ labels) (hn : labels.Nodup) {b : L} {P P' Q : FPath L} (hP : IsPath S valid b b P)
    (hP1 : Nontrivial P) (hP' : IsPath S valid b b P') (hP1' : Nontrivial P') (hQ : IsPath S valid b b Q) (hQ1 : Nontrivial Q) :
    ∃ m n, intersection labels P Q = .ok m ∧ intersection labels P' Q = .ok n ∧ intersection labels (concat P P') Q = .ok (m + n) ∧
      intersection labels Q (concat P P') = .ok (-(m + n)) := by
  obtain ⟨x, u, rfl, hu⟩ := exists_cons hP hP1
  obtain ⟨x', u', rfl, hu'⟩ := exists_cons hP' hP1'
  obtain ⟨y, v, rfl, hv⟩ := exists_cons hQ hQ1
  have h1 : Walk S valid b (x :: (u ++ x' :: u')) b := walk_append (u := x :: u).2 ⟨b, hu, hu'⟩
  refine ⟨_, _, intersection_eq hS.bordered hl hn hu hv, intersection_eq hS.bordered hl hn hu' hv, ?_, ?_⟩
  · rw [concat_toPath, List.cons_append, intersection_eq hS.bordered hl hn h1 hv, ← List.cons_append, pairing_append_left]
  · rw [concat_toPath, List.cons_append, intersection_eq hS.bordered hl hn hv h1]
    have := pairing_antisymm hS.bordered h1 hv
    rw [← List.cons_append, pairing_append_left] at this
    congr 1
    rw [← List.cons_append]
    linarith

/-- **C59**. The inverse of a path has the negative intersection numbers. -/
theorem C59_inverse (hS : S.Closed valid) {labels : List L} (hl : ∀ l, valid l → l ∈ labels) (hn : labels.Nodup) {b : L} {P Q : FPath L} (hP : IsPath S valid b b P)
    (hP1 : Nontrivial P) (hQ : IsPath S valid b b Q) (hQ1 : Nontrivial Q) :
    ∃ I n, invert b P = .ok I ∧ intersection labels P Q = .ok n ∧ intersection labels I Q = .ok (-n) := by
  obtain ⟨x, u, rfl, hu⟩ := exists_cons hP hP1
  obtain ⟨y, v, rfl, hv⟩ := exists_cons hQ hQ1
  have h1 := hu.inv hS.bordered
  have h2 : pairing (((x :: u).reverse).map Letter.inv) (y :: v) = - pairing (x :: u) (y :: v) := by
    have : ∀ w, (∀ z ∈ w, IsLetter S valid z) → pairing (w.reverse.map Letter.inv) (y :: v) = - pairing w (y :: v) := by
      intro w hw
      induction w with
      | nil => simp [pairing]
      | cons z w ih =>
        rw [List.reverse_cons, List.map_append, pairing_append_left, ih (fun z' hz' => hw z' (List.mem_cons_of_mem _ hz'))]
        have h3 : pairing (List.map Letter.inv [z]) (y :: v) = - ((y :: v).map (fun y => form z y)).sum := by
          simp only [pairing, List.map_cons (f := Letter.inv), List.map_nil, List.map_cons (a := Letter.inv z), List.sum_cons (a := ((y :: v).map (fun y => form (Letter.inv z) y)).sum),
            List.sum_nil, add_zero]
          rw [List.map_congr_left (fun y' hy' => form_inv_left hS.bordered (hw z (by simp)) (hv.isLetter y' hy')), sum_neg]
        rw [h3]
        simp only [pairing, List.map_cons, List.sum_cons]
        ring
    exact this _ hu.isLetter
  obtain ⟨I, hI, -⟩ := C41_inverse hS hP
  have h4 : ((x :: u).reverse).map Letter.inv ≠ [] := by simp
  have h5 : I = toPath b (((x :: u).reverse).map Letter.inv) := by
    unfold invert at hI
    rw [toPath_reverse hu, make_toPath h1] at hI
    injection hI with hI
    exact hI.symm
  refine ⟨I, _, hI, intersection_eq hS.bordered hl hn hu hv, ?_⟩
  rw [h5]
  revert h1 h2 h4
  generalize ((x :: u).reverse).map Letter.inv = w
  intro h1 h2 h4
  cases w with
  | nil => exact absurd rfl h4
  | cons z w => rw [intersection_eq hS.bordered hl hn h1 hv, h2]

end

/-- **C59** fails for the neutral element: its intersection number with any path is an `IndexError`. -/
theorem C59_trivial_violation (labels : List L) (b : L) (Q : FPath L) : one b = .ok ⟨[b], [], []⟩ ∧ intersection labels ⟨[b], [], []⟩ Q = .error .indexError := by
  constructor
  · simp [one, make]
  · rfl

example : ∃ n, intersection [()] ⟨[(), (), ()], [0, 1], [2, 3]⟩ ⟨[(), ()], [1], [3]⟩ = .ok n ∧ intersection [()] ⟨[(), ()], [1], [3]⟩ ⟨[(), (), ()], [0, 1], [2, 3]⟩ = .ok (-n) := by
  refine C59_antisymmetric squareTorus_closed (fun l _ => by simp) (by simp) (b := ()) ?_ (by simp [Nontrivial]) ?_ (by simp [Nontrivial])
  · rw [isPath_iff]
    exact ⟨[((), 0, 2, ()), ((), 1, 3, ())], rfl, rfl, ⟨trivial, _, rfl, by decide⟩, rfl, rfl, ⟨trivial, _, rfl, by decide⟩, rfl, rfl⟩
  · rw [isPath_iff]
    exact ⟨[((), 1, 3, ())], rfl, rfl, ⟨trivial, _, rfl, by decide⟩, rfl, rfl⟩

/-- The intersection number of the two standard generators of the fundamental group of the torus. -/
example : intersection [()] ⟨[(), ()], [0], [2]⟩ ⟨[(), ()], [1], [3]⟩ = .ok 1 := by decide

end FPath
end Flat
