import Verif.Model.Polygon
import Mathlib.Data.List.Rotate
import Mathlib.Tactic.Abel

/-!
# Sums over the edges of a polygon
-/

namespace Flat

section
variable {α M : Type} [AddCommGroup M]

/-- The sum of `F` over consecutive entries. -/
def pathSum (F : α → α → M) : List α → M
  | [] => 0
  | [_] => 0
  | a :: b :: l => F a b + pathSum F (b :: l)

/-- The sum of `F` over cyclically consecutive entries. -/
def cycSum (F : α → α → M) (p : List α) : M := pathSum F (p ++ p.take 1)

theorem pathSum_append (F : α → α → M) (l : List α) (x : α) (m : List α) :
    pathSum F (l ++ x :: m) = pathSum F (l ++ [x]) + pathSum F (x :: m) := by
  induction l with
  | nil => simp [pathSum]
  | cons a l ih =>
    cases l with
    | nil => simp [pathSum]
    | cons b l =>
      simp only [List.cons_append, pathSum] at ih ⊢
      rw [ih, add_assoc]

theorem pathSum_congr {F G : α → α → M} (h : ∀ a b, F a b = G a b) (l : List α) :
    pathSum F l = pathSum G l := by
  have : F = G := funext fun a => funext (h a)
  rw [this]

theorem cycSum_congr {F G : α → α → M} (h : ∀ a b, F a b = G a b) (l : List α) :
    cycSum F l = cycSum G l := pathSum_congr h _

theorem pathSum_map {β : Type} (F : β → β → M) (f : α → β) (l : List α) :
    pathSum F (l.map f) = pathSum (fun a b => F (f a) (f b)) l := by
  induction l with
  | nil => rfl
  | cons a l ih =>
    cases l with
    | nil => rfl
    | cons b l =>
      simp only [List.map_cons, pathSum] at ih ⊢
      rw [ih]

theorem cycSum_map {β : Type} (F : β → β → M) (f : α → β) (l : List α) :
    cycSum F (l.map f) = cycSum (fun a b => F (f a) (f b)) l := by
  unfold cycSum
  rw [← pathSum_map F f, List.map_append, List.map_take]

theorem pathSum_reverse (F : α → α → M) (l : List α) :
    pathSum F l.reverse = pathSum (fun a b => F b a) l := by
  induction l with
  | nil => rfl
  | cons a l ih =>
    cases l with
    | nil => rfl
    | cons b l =>
      simp only [List.reverse_cons, pathSum, List.append_assoc, List.singleton_append] at ih ⊢
      rw [pathSum_append, ih]
      simp [pathSum, add_comm]

theorem cycSum_rotate_one (F : α → α → M) (x : α) (l : List α) : cycSum F (l ++ [x]) = cycSum F (x :: l) := by
  cases l with
  | nil => rfl
  | cons y l =>
    unfold cycSum
    have e1 : (y :: l ++ [x]) ++ List.take 1 (y :: l ++ [x]) = (y :: l) ++ x :: [y] := by simp
    have e2 : (x :: y :: l) ++ List.take 1 (x :: y :: l) = x :: y :: (l ++ [x]) := by simp
    rw [e1, e2, pathSum_append]
    simp [pathSum, add_comm]

theorem cycSum_append_comm (F : α → α → M) (l m : List α) : cycSum F (l ++ m) = cycSum F (m ++ l) := by
  induction l generalizing m with
  | nil => simp
  | cons x l ih =>
    have h1 : m ++ x :: l = (m ++ [x]) ++ l := by simp
    rw [h1, ← ih, ← List.append_assoc, cycSum_rotate_one]
    simp

theorem cycSum_rotate (F : α → α → M) (l : List α) (k : ℕ) : cycSum F (l.rotate k) = cycSum F l := by
  rw [List.rotate_eq_drop_append_take_mod, cycSum_append_comm, List.take_append_drop]

theorem cycSum_reverse (F : α → α → M) (l : List α) :
    cycSum F l.reverse = cycSum (fun a b => F b a) l := by
  cases l with
  | nil => rfl
  | cons x l =>
    rw [List.reverse_cons, cycSum_rotate_one]
    unfold cycSum
    rw [← pathSum_reverse]
    simp

theorem pathSum_telescope (G : α → M) (a : α) (l : List α) (b : α) :
    pathSum (fun v w => G w - G v) (a :: l ++ [b]) = G b - G a := by
  induction l generalizing a with
  | nil => simp [pathSum]
  | cons c l ih =>
    simp only [List.cons_append, pathSum] at ih ⊢
    rw [ih c]
    abel

theorem cycSum_telescope (G : α → M) (l : List α) : cycSum (fun v w => G w - G v) l = 0 := by
  cases l with
  | nil => rfl
  | cons a l =>
    unfold cycSum
    have := pathSum_telescope G a l a
    simpa using this

theorem pathSum_add (F G : α → α → M) (l : List α) :
    pathSum (fun a b => F a b + G a b) l = pathSum F l + pathSum G l := by
  induction l with
  | nil => simp [pathSum]
  | cons a l ih =>
    cases l with
    | nil => simp [pathSum]
    | cons b l => simp only [pathSum] at ih ⊢; rw [ih]; abel

theorem cycSum_add (F G : α → α → M) (l : List α) :
    cycSum (fun a b => F a b + G a b) l = cycSum F l + cycSum G l := pathSum_add F G _

theorem pathSum_neg (F : α → α → M) (l : List α) :
    pathSum (fun a b => -F a b) l = -pathSum F l := by
  induction l with
  | nil => simp [pathSum]
  | cons a l ih =>
    cases l with
    | nil => simp [pathSum]
    | cons b l => simp only [pathSum] at ih ⊢; rw [ih]; abel

theorem cycSum_neg (F : α → α → M) (l : List α) :
    cycSum (fun a b => -F a b) l = -cycSum F l := pathSum_neg F _

/-- Functions that differ by a telescoping term have the same cyclic sum. -/
theorem cycSum_eq_of_telescope {F G : α → α → M} (H : α → M) (h : ∀ a b, F a b = G a b + (H b - H a))
    (l : List α) : cycSum F l = cycSum G l := by
  rw [cycSum_congr h, cycSum_add, cycSum_telescope, add_zero]

/-- Cutting a cycle in two at two vertices. -/
theorem cycSum_cut (F : α → α → M) (x y : α) (l m : List α) (hF : F x y + F y x = 0) :
    cycSum F (x :: l ++ y :: m) = cycSum F (y :: x :: l) + cycSum F (x :: y :: m) := by
  have e1 : (x :: l ++ y :: m) ++ List.take 1 (x :: l ++ y :: m) = (x :: l) ++ y :: (m ++ [x]) := by simp
  have e2 : (y :: x :: l) ++ List.take 1 (y :: x :: l) = y :: (x :: (l ++ [y])) := by simp
  have e3 : (x :: y :: m) ++ List.take 1 (x :: y :: m) = x :: (y :: (m ++ [x])) := by simp
  unfold cycSum
  rw [e1, e2, e3, pathSum_append]
  simp only [pathSum, List.cons_append]
  have : F y x = -F x y := by rw [eq_neg_iff_add_eq_zero, add_comm, hF]
  rw [this]
  abel

end

section
variable {α K : Type} [Field K]

theorem pathSum_mul (c : K) (F : α → α → K) (l : List α) :
    pathSum (fun a b => c * F a b) l = c * pathSum F l := by
  induction l with
  | nil => simp [pathSum]
  | cons a l ih =>
    cases l with
    | nil => simp [pathSum]
    | cons b l => simp only [pathSum] at ih ⊢; rw [ih]; ring

theorem cycSum_mul (c : K) (F : α → α → K) (l : List α) :
    cycSum (fun a b => c * F a b) l = c * cycSum F l := pathSum_mul c F _

end

namespace Poly
section
variable {K : Type} [Field K] [LinearOrder K] [IsStrictOrderedRing K]

theorem vertex_mod (p : Poly K) (i : ℕ) : p.vertex (i % p.length) = p.vertex i := by
  unfold vertex
  rw [Nat.mod_mod]

theorem vertex_of_lt (p : Poly K) {i : ℕ} (h : i < p.length) : p.vertex i = p[i] := by
  unfold vertex
  rw [Nat.mod_eq_of_lt h, List.getElem?_eq_getElem h]
  rfl

theorem vertex_congr (p : Poly K) {i j : ℕ} (h : i % p.length = j % p.length) : p.vertex i = p.vertex j := by
  rw [← vertex_mod p i, h, vertex_mod]

theorem vertex_add_length (p : Poly K) (i : ℕ) : p.vertex (i + p.length) = p.vertex i :=
  vertex_congr p (by simp)

theorem edge_congr (p : Poly K) {i j : ℕ} (h : i % p.length = j % p.length) : p.edge i = p.edge j := by
  unfold edge
  rw [vertex_congr p h, vertex_congr p (i := i + 1) (j := j + 1) (by rw [Nat.add_mod, h, ← Nat.add_mod])]

theorem edge_mod (p : Poly K) (i : ℕ) : p.edge (i % p.length) = p.edge i := edge_congr p (Nat.mod_mod _ _)

theorem edge_add_length (p : Poly K) (i : ℕ) : p.edge (i + p.length) = p.edge i := edge_congr p (by simp)

theorem vertex_getElem_append (p : Poly K) (i : ℕ) (h : i ≤ p.length) (hp : p ≠ []) :
    (p ++ p.take 1)[i]? = some (p.vertex i) := by
  have hpos : 0 < p.length := List.length_pos_iff.2 hp
  rcases Nat.lt_or_eq_of_le h with h | h
  · rw [List.getElem?_append_left h, vertex_of_lt p h, List.getElem?_eq_getElem h]
  · subst h
    rw [List.getElem?_append_right le_rfl, Nat.sub_self, List.getElem?_take]
    have : p.vertex p.length = p.vertex 0 := vertex_congr p (by simp)
    rw [this, vertex_of_lt p hpos, if_pos Nat.one_pos, List.getElem?_eq_getElem hpos]

omit [LinearOrder K] [IsStrictOrderedRing K] in
theorem sum_range_eq_pathSum {M : Type} [AddCommGroup M] (F : Vec K → Vec K → M) (q : List (Vec K)) :
    ((List.range (q.length - 1)).map (fun i => F ((q[i]?).getD 0) ((q[i + 1]?).getD 0))).sum = pathSum F q := by
  induction q with
  | nil => rfl
  | cons a q ih =>
    cases q with
    | nil => rfl
    | cons b q =>
      simp only [List.length_cons, Nat.add_sub_cancel, pathSum] at ih ⊢
      rw [List.range_succ_eq_map, List.map_cons, List.sum_cons, List.map_map, ← ih]
      rfl

/-- A sum over the edges of a polygon. -/
theorem sum_edges_eq {M : Type} [AddCommGroup M] (F : Vec K → Vec K → M) (p : Poly K) :
    ((List.range p.length).map (fun i => F (p.vertex i) (p.vertex (i + 1)))).sum = cycSum F p := by
  by_cases hp : p = []
  · subst hp; rfl
  unfold cycSum
  rw [← sum_range_eq_pathSum]
  have hlen : (p ++ p.take 1).length - 1 = p.length := by
    have : 0 < p.length := List.length_pos_iff.2 hp
    simp only [List.length_append, List.length_take]
    omega
  rw [hlen]
  congr 1
  refine List.map_congr_left fun i hi => ?_
  rw [List.mem_range] at hi
  rw [vertex_getElem_append p i hi.le hp, vertex_getElem_append p (i + 1) hi hp]
  rfl

/-- `area` is half the sum of the cross products of consecutive vertices. -/
theorem area_eq (p : Poly K) : p.area = cycSum ccw p / 2 := by
  unfold area
  congr 1
  rw [← cycSum_eq_of_telescope (F := fun v w : Vec K => (v.1 + w.1) * (w.2 - v.2)) (G := ccw)
    (fun v => v.1 * v.2) (fun a b => by unfold ccw; ring)]
  rw [← sum_edges_eq]
  rfl

theorem two_area (p : Poly K) : 2 * p.area = cycSum ccw p := by
  rw [area_eq]; field_simp

/-- The polygon `x :: l` traversed backwards. -/
theorem reverse_range (x : Vec K) (l : List (Vec K)) :
    (List.range l.length).map (fun i => vertex (x :: l : Poly K) (l.length - i)) = l.reverse := by
  apply List.ext_getElem
  · simp
  · intro i h1 h2
    simp only [List.length_map, List.length_range] at h1
    rw [List.getElem_map, List.getElem_range, List.getElem_reverse,
      vertex_of_lt _ (by simp only [List.length_cons]; omega)]
    have : l.length - i = (l.length - 1 - i) + 1 := by omega
    simp only [this, List.getElem_cons_succ]

theorem mul_eq (g : Mat2 K) (p : Poly K) (hp : p ≠ []) (q : Poly K) (h : mul g p = some q) :
    g.det ≠ 0 ∧ ((0 < g.det ∧ q = p.map g.mulVec) ∨
      (g.det < 0 ∧ ∃ x l, p = x :: l ∧ q = (x :: l.reverse).map g.mulVec)) := by
  unfold mul at h
  split_ifs at h with h1 h2
  · refine ⟨h1, Or.inr ⟨h2, ?_⟩⟩
    cases p with
    | nil => exact absurd rfl hp
    | cons x l =>
      refine ⟨x, l, rfl, ?_⟩
      injection h with h
      rw [← h, List.map_cons, ← reverse_range x l, List.map_map]
      congr 1
  · refine ⟨h1, Or.inl ⟨lt_of_le_of_ne (not_lt.1 h2) (Ne.symm h1), ?_⟩⟩
    injection h with h
    exact h.symm

theorem ccw_mulVec (g : Mat2 K) (v w : Vec K) : ccw (g.mulVec v) (g.mulVec w) = g.det * ccw v w := by
  unfold ccw Mat2.mulVec Mat2.det; ring

end
end Poly
end Flat
