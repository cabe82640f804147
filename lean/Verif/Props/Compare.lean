import Mathlib.Tactic.Order
import Verif.Lemmas.Rebuild
import Verif.Props.Gluing
import Verif.Props.PolygonIso

/-!
# C50: comparison of polygons and of surfaces
-/

namespace Flat
namespace Poly
variable {K : Type} [Field K] [LinearOrder K] [IsStrictOrderedRing K]

/-- One step of a lexicographic comparison. -/
theorem sgn3 (a b : K) (x : Int) :
    (if a - b > 0 then 1 else if a - b < 0 then -1 else x : Int) = if b < a then 1 else if a < b then -1 else x := by
  simp only [gt_iff_lt, sub_pos, sub_neg]

theorem loop_cons (p q : Poly K) (v : ℕ) (vs : List ℕ) :
    cmp.loop p q (v :: vs) =
      if (q.vertex v).1 < (p.vertex v).1 then 1 else if (p.vertex v).1 < (q.vertex v).1 then -1
      else if (q.vertex v).2 < (p.vertex v).2 then 1 else if (p.vertex v).2 < (q.vertex v).2 then -1
      else cmp.loop p q vs := by
  rw [cmp.loop]
  simp only [sgn3]

theorem loop_zero (p q : Poly K) (vs : List ℕ) :
    cmp.loop p q vs = 0 ↔ ∀ v ∈ vs, p.vertex v = q.vertex v := by
  induction vs with
  | nil => simp [cmp.loop]
  | cons v vs ih =>
    rw [loop_cons, List.forall_mem_cons, ← ih, Prod.ext_iff]
    split_ifs with h1 h2 h3 h4
    · simp [h1.ne']
    · simp [h2.ne]
    · simp [h3.ne']
    · simp [h4.ne]
    · simp [le_antisymm (not_lt.1 h1) (not_lt.1 h2), le_antisymm (not_lt.1 h3) (not_lt.1 h4)]

theorem loop_antisymm (p q : Poly K) (vs : List ℕ) : cmp.loop p q vs = -cmp.loop q p vs := by
  induction vs with
  | nil => simp [cmp.loop]
  | cons v vs ih =>
    rw [loop_cons, loop_cons, ih]
    split_ifs with h1 h2 h3 h4 h5 h6 h7 h8 <;> first | rfl | (exfalso; order) | simp

theorem loop_values (p q : Poly K) (vs : List ℕ) :
    cmp.loop p q vs = -1 ∨ cmp.loop p q vs = 0 ∨ cmp.loop p q vs = 1 := by
  induction vs with
  | nil => simp [cmp.loop]
  | cons v vs ih =>
    rw [loop_cons]
    split_ifs <;> simp [ih]

theorem lex_trans {α : Type} [LinearOrder α] {a b c : α} {x y z : Int} (h : x ≤ 0 → y ≤ 0 → z ≤ 0)
    (h1 : (if b < a then 1 else if a < b then -1 else x : Int) ≤ 0)
    (h2 : (if c < b then 1 else if b < c then -1 else y : Int) ≤ 0) :
    (if c < a then 1 else if a < c then -1 else z : Int) ≤ 0 := by
  split_ifs at h1 h2 ⊢ <;> first | omega | (exfalso; order) | exact h h1 h2

theorem loop_trans (p q r : Poly K) (vs : List ℕ) (h1 : cmp.loop p q vs ≤ 0) (h2 : cmp.loop q r vs ≤ 0) :
    cmp.loop p r vs ≤ 0 := by
  induction vs with
  | nil => simp [cmp.loop]
  | cons v vs ih =>
    rw [loop_cons] at h1 h2 ⊢
    exact lex_trans (fun h1 h2 => lex_trans ih h1 h2) h1 h2

theorem cmp_unfold (p q : Poly K) : cmp p q =
    if q.length < p.length then 1 else if p.length < q.length then -1
    else if q.area < p.area then 1 else if p.area < q.area then -1
    else cmp.loop p q ((List.range p.length).drop 1) := by
  rw [cmp]
  simp only [sgn3, gt_iff_lt]

/-- **C50**, polygons: the result is -1, 0 or 1. -/
theorem C50_polygon_cmp_values (p q : Poly K) : cmp p q = -1 ∨ cmp p q = 0 ∨ cmp p q = 1 := by
  rw [cmp_unfold]
  have := loop_values p q ((List.range p.length).drop 1)
  revert this
  generalize cmp.loop p q ((List.range p.length).drop 1) = x
  intro this
  split_ifs <;> simp [this]

/-- **C50**, polygons: comparing in the other order gives the opposite answer. -/
theorem C50_polygon_cmp_antisymm (p q : Poly K) : cmp p q = -cmp q p := by
  rw [cmp_unfold, cmp_unfold]
  split_ifs with h1 h2 h3 h4 h5 h6 h7 h8 <;> first | rfl | (exfalso; omega) | (exfalso; order) | simp | skip
  have : p.length = q.length := by omega
  rw [this, loop_antisymm]

/-- **C50**, polygons: the comparison is transitive. -/
theorem C50_polygon_cmp_trans (p q r : Poly K) (h1 : cmp p q ≤ 0) (h2 : cmp q r ≤ 0) : cmp p r ≤ 0 := by
  rw [cmp_unfold] at h1 h2 ⊢
  by_cases hpq : p.length = q.length
  · rw [← hpq] at h2
    exact lex_trans (fun h1 h2 => lex_trans (loop_trans p q r _) h1 h2) h1 (by rw [← hpq]; exact h2)
  · have a : p.length < q.length := by
      by_contra hh
      rw [if_pos (by omega)] at h1
      omega
    have b : ¬ r.length < q.length := fun hh => by rw [if_pos hh] at h2; omega
    rw [if_neg (by omega), if_pos (by omega)]
    norm_num

/-- What is compared: the number of vertices, the area and all vertices but the first. -/
theorem C50_polygon_cmp_zero_iff (p q : Poly K) :
    cmp p q = 0 ↔ p.length = q.length ∧ p.area = q.area ∧ ∀ i, 1 ≤ i → i < p.length → p.vertex i = q.vertex i := by
  have hl := loop_zero p q ((List.range p.length).drop 1)
  have hm : ∀ v, v ∈ (List.range p.length).drop 1 ↔ 1 ≤ v ∧ v < p.length := by
    intro v
    simp only [List.range_eq_range', List.drop_range', List.mem_range'_1]
    omega
  rw [cmp_unfold]
  split_ifs with h1 h2 h3 h4
  · simp; omega
  · simp; omega
  · simp [h3.ne']
  · simp [h4.ne]
  · rw [hl]
    simp only [hm]
    constructor
    · exact fun h => ⟨by omega, by order, fun i hi hi' => h i ⟨hi, hi'⟩⟩
    · exact fun h v hv => h.2.2 v hv.1 hv.2

/-- **C50**, polygons: for polygons with the same first vertex, the comparison says equal exactly for equal
polygons. Full statement: `cmp p q = 0 ↔ p = q` for all polygons; see the violation below. -/
theorem C50_polygon_cmp_eq_partial (p q : Poly K) (h0 : p.vertex 0 = q.vertex 0) : cmp p q = 0 ↔ p = q := by
  constructor
  · intro h
    obtain ⟨h1, -, h2⟩ := (C50_polygon_cmp_zero_iff p q).1 h
    apply List.ext_getElem h1
    intro i hi hi'
    have e : ∀ (p : Poly K) (hi : i < p.length), p.vertex i = p[i] := by
      intro p hi
      simp [vertex, Nat.mod_eq_of_lt hi, List.getD_eq_getElem?_getD, hi]
    rw [← e p hi, ← e q hi']
    rcases Nat.eq_zero_or_pos i with rfl | hp
    · exact h0
    · exact h2 i hp hi
  · rintro rfl
    rw [C50_polygon_cmp_zero_iff]
    simp

/-- **C50** fails for polygons: the first vertex is not compared. -/
theorem C50_polygon_cmp_violation :
    ∃ p q : Poly ℚ, p ≠ q ∧ cmp p q = 0 ∧ ofVertices p = .ok p ∧ ofVertices q = .ok q :=
  ⟨[(0, 0), (1, 0), (0, 1)], [(1, -1), (1, 0), (0, 1)], by decide +kernel, by decide +kernel, by decide +kernel,
    by decide +kernel⟩

example : cmp [((0 : ℚ), (0 : ℚ)), (1, 0), (0, 1)] [(0, 0), (1, 0), (1, 1)] = -1 := by decide +kernel

end Poly

namespace MSurf
variable {L K : Type} [LinearOrder L] [LabelNum L] [Field K] [LinearOrder K] [IsStrictOrderedRing K]

theorem sgnCmp_zero {α : Type} [LinearOrder α] (a b : α) : sgnCmp a b = 0 ↔ a = b := by
  unfold sgnCmp
  split_ifs with h1 h2
  · simp [h1.ne']
  · simp [h2.ne]
  · simp; order

theorem indexOf_inj {ls : List L} {a b : L} {n : ℕ} (ha : indexOf ls a = .ok n) (hb : indexOf ls b = .ok n) :
    a = b := by
  unfold indexOf at ha hb
  cases h1 : ls.findIdx? (fun x => decide (x = a)) with
  | none => rw [h1] at ha; cases ha
  | some i =>
    cases h2 : ls.findIdx? (fun x => decide (x = b)) with
    | none => rw [h2] at hb; cases hb
    | some j =>
      rw [h1] at ha
      rw [h2] at hb
      injection ha with ha
      injection hb with hb
      subst ha hb
      rw [List.findIdx?_eq_some_iff_getElem] at h1 h2
      obtain ⟨hi, h1, -⟩ := h1
      obtain ⟨_, h2, -⟩ := h2
      rw [← of_decide_eq_true h1, ← of_decide_eq_true h2]

theorem cmpEdges_zero {s t : MSurf L (Poly K)} {ls : List L} {l : L} (es : List ℕ)
    (h : cmpEdges s t ls ls l l es = .ok 0) :
    ∀ e ∈ es, s.oppositeEdge l (e : Int) = t.oppositeEdge l (e : Int) := by
  induction es with
  | nil => simp
  | cons e es ih =>
    unfold cmpEdges at h
    cases h1 : s.oppositeEdge! l e with
    | error x => rw [h1] at h; cases h
    | ok c =>
      cases h2 : t.oppositeEdge! l e with
      | error x => rw [h1, h2] at h; cases h
      | ok c' =>
        cases h3 : indexOf ls c.1 with
        | error x => simp only [h1, h2, bind, Except.bind, h3] at h; cases h
        | ok n =>
          cases h4 : indexOf ls c'.1 with
          | error x => simp only [h1, h2, bind, Except.bind, h3, h4] at h; cases h
          | ok n' =>
            simp only [h1, h2, bind, Except.bind, h3, h4] at h
            split_ifs at h with h5 h6
            · injection h with h; exact absurd h h5
            · injection h with h; exact absurd h h6
            · push Not at h5 h6
              rw [sgnCmp_zero] at h5 h6
              subst h5
              have : c = c' := Prod.ext (indexOf_inj h3 h4) h6
              subst this
              have aux : ∀ {v : MSurf L (Poly K)}, v.oppositeEdge! l e = .ok c → v.oppositeEdge l e = .ok (some c) := by
                intro v hv
                unfold oppositeEdge! at hv
                split at hv
                · cases hv
                · cases hv
                · rename_i c' hc
                  injection hv with hv
                  rw [hc, hv]
              intro e' he'
              rcases List.mem_cons.1 he' with rfl | he'
              · rw [aux h1, aux h2]
              · exact ih h e' he'

theorem cmpLabels_zero {s t : MSurf L (Poly K)} {ls : List L} (xs : List L)
    (h : cmpLabels s t ls ls (xs.map (fun l => (l, l))) = .ok 0) :
    ∀ l ∈ xs, ∃ p, s.polygon l = .ok p ∧
      ∀ e < p.length, s.oppositeEdge l (e : Int) = t.oppositeEdge l (e : Int) := by
  induction xs with
  | nil => simp
  | cons l xs ih =>
    rw [List.map_cons] at h
    unfold cmpLabels at h
    cases h1 : s.polygon l with
    | error x => rw [h1] at h; cases h
    | ok p =>
      simp only [h1, bind, Except.bind] at h
      rw [if_neg] at h
      · cases h2 : cmpEdges s t ls ls l l (List.range (nv p)) with
        | error x => rw [h2] at h; cases h
        | ok x =>
          rw [h2] at h
          dsimp only at h
          split_ifs at h with h3
          · injection h with h; exact absurd h h3
          · push Not at h3
            subst h3
            intro l' hl'
            rcases List.mem_cons.1 hl' with rfl | hl'
            · exact ⟨p, h1, fun e he => cmpEdges_zero _ h2 e (List.mem_range.2 he)⟩
            · exact ih h l' hl'
      · rw [not_not, Poly.C50_polygon_cmp_eq_partial p p rfl]

/-- **C50**, surfaces: surfaces with the same labels (in the same order) that compare as equal have the same
gluings. Full statement: they also have the same polygons; see the violation below. -/
theorem C50_surface_cmp_zero_partial {s t : MSurf L (Poly K)} (ls : List L) (hs : s.labels = .ok ls)
    (ht : t.labels = .ok ls) (h : cmp s t = .ok 0) :
    ∀ l ∈ ls, ∃ p, s.polygon l = .ok p ∧
      ∀ e < p.length, s.oppositeEdge l (e : Int) = t.oppositeEdge l (e : Int) := by
  unfold cmp at h
  split_ifs at h with h1 h2
  · injection h with h; omega
  · injection h with h; omega
  rw [hs, ht] at h
  have h : cmpLabels s t ls ls (ls.zip ls) = .ok 0 := h
  have hz : ∀ xs : List L, xs.zip xs = xs.map (fun l => (l, l)) := by
    intro xs; induction xs with
    | nil => rfl
    | cons a b ih => simp [ih]
  rw [hz] at h
  exact cmpLabels_zero ls h

/-- The torus built from two other triangles. -/
def exTorus2 : MSurf ℕ (Poly ℚ) :=
  stateOf ((do
    let a ← addPolygon [(0, 0), (2, 0), (0, 3)] none
    let b ← addPolygon [(0, 0), (2, 0), (0, 3)] none
    glue (a, 0) (b, 0)
    glue (a, 1) (b, 1)
    glue (a, 2) (b, 2) : Act ℕ (Poly ℚ) Unit) empty)

/-- The hypotheses of the theorem on surfaces are satisfiable, and **C50** fails for surfaces: the polygons of
the second surface are not looked at. -/
theorem C50_surface_cmp_violation :
    exTorus.cmp exTorus2 = .ok 0 ∧ exTorus.labels = .ok [0, 1] ∧ exTorus2.labels = .ok [0, 1] ∧
      exTorus.polygon 0 ≠ exTorus2.polygon 0 := by decide +kernel

/-- The torus with other labels. -/
def exTorus3 : MSurf ℕ (Poly ℚ) :=
  stateOf ((do
    let a ← addPolygon tri (some 4)
    let b ← addPolygon tri (some 5)
    glue (a, 0) (b, 0)
    glue (a, 1) (b, 1)
    glue (a, 2) (b, 2) : Act ℕ (Poly ℚ) Unit) empty)

/-- **C50** fails for surfaces with different labels: a `KeyError`. -/
theorem C50_surface_cmp_keyError_violation :
    exTorus.cmp exTorus3 = .error .keyError ∧ exTorus.labels = .ok [0, 1] ∧ exTorus3.labels = .ok [4, 5] := by
  decide +kernel

end MSurf
end Flat
