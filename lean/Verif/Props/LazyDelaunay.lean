import Verif.Lemmas.CellTree
import Mathlib.Algebra.BigOperators.Ring.List

/-!
# C56 Delaunay cells

`LazyDelaunaySurface` joins the triangles of a Delaunay triangulation to Delaunay cells.
-/

namespace Flat

theorem Poly.edge_ofEdges {K : Type} [Field K] [LinearOrder K] [IsStrictOrderedRing K] {es : List (Vec K)} {q : Poly K} (h : Poly.ofEdges es = .ok q)
    {e : ℕ} (he : e < es.length) : q.edge e = es[e] := by
  obtain ⟨h1, h2, h3, h4, -⟩ := Poly.ofEdges_ok h
  have hv : ∀ i ≤ es.length, q.vertex i = (es.take i).sum := by
    intro i hi
    rcases Nat.lt_or_eq_of_le hi with hi | rfl
    · unfold Poly.vertex
      rw [h2, Nat.mod_eq_of_lt hi, h1, List.getElem?_eq_getElem (by rw [List.length_dropLast, Poly.partialSums_length]; omega), List.getElem_dropLast,
        Poly.partialSums_getElem, zero_add]
      rfl
    · rw [List.take_length, h4]
      unfold Poly.vertex
      rw [h2, Nat.mod_self, h1, List.getElem?_eq_getElem (by rw [List.length_dropLast, Poly.partialSums_length]; omega), List.getElem_dropLast,
        Poly.partialSums_getElem]
      simp
  unfold Poly.edge
  rw [hv e (by omega), hv (e + 1) (by omega), List.take_succ_eq_append_getElem he, List.sum_append]
  simp

namespace RSurf
variable {L K : Type} [DecidableEq L] [Field K] [LinearOrder K] [IsStrictOrderedRing K]

/-- Triangles that are connected by edges that `_delaunay_edge_needs_join`. -/
def SameCell (S : RSurf L K) (valid : L → Prop) : L → L → Prop :=
  Relation.ReflTransGen (fun t t' => valid t ∧ ∃ e e', e < 3 ∧ S.needsJoin t e = .ok true ∧ S.opp t e = .ok (some (t', e')))

/-- A triangulated surface without boundary; `labs` are its labels in the order of the iteration.  If an edge is glued to
itself then the opposite angle is not a right angle. -/
structure CellInput (S : RSurf L K) (valid : L → Prop) (labs : List L) : Prop where
  closed : S.Closed valid
  three : ∀ l p, valid l → S.polygon l = .ok p → p.length = 3
  labels : ∀ l, l ∈ labs ↔ valid l
  noself : ∀ l, valid l → ∀ e < 3, S.opp l e = .ok (some (l, e)) → S.needsJoin l e = .ok false

/-- The first label of a cell. -/
def IsCellLabel (S : RSurf L K) (valid : L → Prop) (labs : List L) (l : L) : Prop :=
  ∃ pre post, labs = pre ++ l :: post ∧ ∀ t ∈ pre, ¬ S.SameCell valid l t

variable {S : RSurf L K} {valid : L → Prop} {labs : List L}

theorem sameCell_iff (h : CellInput S valid labs) (l l' : L) : S.SameCell valid l l' ↔ CellGeom.Comp S.oppAt (IsEdge3 valid) S.Join l l' := by
  unfold SameCell CellGeom.Comp
  have e : (fun t t' => valid t ∧ ∃ e e', e < 3 ∧ S.needsJoin t e = .ok true ∧ S.opp t e = .ok (some (t', e'))) =
      CellGeom.Adj S.oppAt (IsEdge3 valid) S.Join := by
    funext t t'
    apply propext
    constructor
    · rintro ⟨h1, e, e', h2, h3, h4⟩
      obtain ⟨ho, -, -⟩ := oppAt_spec h.closed h.three (h := (t, e)) ⟨h1, h2⟩
      obtain ⟨b, hb, hb2⟩ := needsJoin_spec h.closed h.three (h := (t, e)) ⟨h1, h2⟩
      rw [h3] at hb
      injection hb with hb
      rw [h4] at ho
      injection ho with ho
      injection ho with ho
      exact ⟨e, ⟨h1, h2⟩, hb2.1 hb.symm, by rw [← ho]⟩
    · rintro ⟨e, ⟨h1, h2⟩, h3, h4⟩
      obtain ⟨ho, -, -⟩ := oppAt_spec h.closed h.three (h := (t, e)) ⟨h1, h2⟩
      obtain ⟨b, hb, hb2⟩ := needsJoin_spec h.closed h.three (h := (t, e)) ⟨h1, h2⟩
      refine ⟨h1, e, (S.oppAt (t, e)).2, h2, ?_, ?_⟩
      · rw [hb2.2 h3] at hb
        exact hb
      · rw [ho, ← h4]
  rw [e]

theorem join_iff (h : CellInput S valid labs) {x : L × ℕ} (hx : IsEdge3 valid x) : S.Join x ↔ S.needsJoin x.1 x.2 = .ok true := by
  obtain ⟨b, hb, hb2⟩ := needsJoin_spec h.closed h.three hx
  rw [hb, ← hb2]
  constructor
  · rintro rfl; rfl
  · intro e; injection e

theorem not_join_iff (h : CellInput S valid labs) {x : L × ℕ} (hx : IsEdge3 valid x) : ¬ S.Join x ↔ S.needsJoin x.1 x.2 = .ok false := by
  obtain ⟨b, hb, hb2⟩ := needsJoin_spec h.closed h.three hx
  rw [hb, ← hb2]
  cases b <;> simp

theorem sameCell_symm (h : CellInput S valid labs) {l l' : L} (hl : S.SameCell valid l l') : S.SameCell valid l' l := by
  rw [sameCell_iff h] at hl ⊢
  exact hl.symm (cellGeom h.closed h.three h.noself)

theorem sameCell_trans {l l' l'' : L} (h1 : S.SameCell valid l l') (h2 : S.SameCell valid l' l'') : S.SameCell valid l l'' := Relation.ReflTransGen.trans h1 h2

theorem sameCell_valid (h : CellInput S valid labs) {l l' : L} (hl : valid l) (hc : S.SameCell valid l l') : valid l' := by
  induction hc with
  | refl => exact hl
  | tail _ h2 ih =>
    obtain ⟨h3, e, e', h4, -, h5⟩ := h2
    obtain ⟨ho, ho2, -⟩ := oppAt_spec h.closed h.three (h := (_, e)) ⟨h3, h4⟩
    rw [h5] at ho
    injection ho with ho
    injection ho with ho
    rw [← ho] at ho2
    exact ho2.1

/-- What is known about the word of edges of a cell. -/
def Good (S : RSurf L K) (valid : L → Prop) (n : L) (w : List (L × ℕ)) : Prop :=
  S.GluedBy valid (fun u v => u = -v) →
    S.Inscribed w ∧ ∃ T, CellGeom.Entered S.oppAt (IsEdge3 valid) S.Join n w T ∧ S.wordArea 0 w = (T.map (fun t => 2 * (S.triAt t).area)).sum

/-- Everything about a cell. -/
theorem cell_full (h : CellInput S valid labs) {fuel : ℕ} (hf : 3 * labs.length ≤ fuel) {l : L} (hl : valid l) :
    ∃ n c es, S.SameCell valid l n ∧ S.IsCellLabel valid labs n ∧ (∀ t, t ∈ c ↔ S.SameCell valid l t) ∧
      (∀ t e, (t, e) ∈ es ↔ S.SameCell valid l t ∧ e < 3 ∧ S.needsJoin t e = .ok false) ∧ es.Nodup ∧ S.Good valid n es ∧
      ∀ l', S.SameCell valid l l' → ∀ d, S.cell labs fuel (d + 2) l' = .ok (c, es) ∧ cellLabel labs c = .ok n := by
  have hG := cellGeom h.closed h.three h.noself
  have hA := cellAgrees h.closed h.three
  have len : ∀ l, valid l → (S.triAt l).length = 3 := fun l hl => h.three l _ hl (triAt_spec h.closed hl).1
  obtain ⟨n, c, es, h1, h2, h3, h4, h5, h6, h7⟩ := CellGeom.cell_spec hG hA labs (fun t => ⟨fun ht => ⟨(h.labels t).1 ht, by simp⟩, fun ht => (h.labels t).2 ht.1⟩)
    (fun n w => valid n → S.Good valid n w)
    (by
      intro n pre x post hx hj _ hg hn hT
      obtain ⟨g1, T, g2, g3⟩ := hg hn hT
      refine ⟨inscribed_step h.closed h.three hT hx hj g1, (S.oppAt x).1 :: T, g2.step hG hA ⟨hn, by simp⟩ hx hj, ?_⟩
      rw [wordArea_step h.closed h.three hT hx, g3, List.map_cons, List.sum_cons])
    (by
      intro n hn _ hT
      refine ⟨inscribed_start (len n hn.1) (triAt_spec h.closed hn.1).2.area_pos, [n], CellGeom.Entered.start_word hG hA hn, ?_⟩
      rw [wordArea_start (len n hn.1)]
      simp)
    hf (l := l) ⟨hl, by simp⟩
  have nv : valid n := (h.labels n).1 h1
  refine ⟨n, c, es, (sameCell_iff h l n).2 h2, ?_, fun t => by rw [h3, sameCell_iff h], ?_, h5, h6 nv, fun l' hl' d => h7 l' ((sameCell_iff h l l').1 hl') d⟩
  · have hn := (h7 l Relation.ReflTransGen.refl 0).2
    unfold cellLabel at hn
    cases hfd : labs.find? (fun l => decide (l ∈ c)) with
    | none => rw [hfd] at hn; cases hn
    | some n' =>
      rw [hfd] at hn
      injection hn with hn
      subst hn
      obtain ⟨-, as, bs, e, hall⟩ := List.find?_eq_some_iff_append.1 hfd
      refine ⟨as, bs, e, fun t ht hs => ?_⟩
      have := hall t ht
      simp only [Bool.not_eq_true', decide_eq_false_iff_not] at this
      exact this ((h3 t).2 (h2.trans ((sameCell_iff h _ _).1 hs)))
  · intro t e
    rw [h4 (t, e), sameCell_iff h]
    constructor
    · rintro ⟨a1, a2, a3⟩
      exact ⟨a3, a1.2, (not_join_iff h a1).1 a2⟩
    · rintro ⟨a1, a2, a3⟩
      have hv := sameCell_valid h hl ((sameCell_iff h _ _).2 a1)
      exact ⟨⟨hv, a2⟩, (not_join_iff h (x := (t, e)) ⟨hv, a2⟩).2 a3, a1⟩

omit [IsStrictOrderedRing K] in
theorem isCellLabel_mem {l : L} (hl : S.IsCellLabel valid labs l) : l ∈ labs := by
  obtain ⟨pre, post, rfl, -⟩ := hl
  simp

/-- Every cell has exactly one label. -/
theorem C56_cell_label (h : CellInput S valid labs) {l : L} (hl : valid l) : ∃! n, S.SameCell valid l n ∧ S.IsCellLabel valid labs n := by
  obtain ⟨n, c, es, h1, h2, -⟩ := cell_full h (le_refl _) hl
  refine ⟨n, ⟨h1, h2⟩, ?_⟩
  rintro n' ⟨h1', h2'⟩
  obtain ⟨pre, post, e, hp⟩ := h2
  obtain ⟨pre', post', e', hp'⟩ := h2'
  have c1 : S.SameCell valid n n' := sameCell_trans (sameCell_symm h h1) h1'
  rw [e] at e'
  rcases List.append_eq_append_iff.1 e' with ⟨as, ha, hb⟩ | ⟨as, ha, hb⟩
  · cases as with
    | nil =>
      simp only [List.nil_append, List.cons.injEq] at hb
      exact hb.1.symm
    | cons a as =>
      simp only [List.cons_append, List.cons.injEq] at hb
      obtain ⟨rfl, -⟩ := hb
      exact absurd (sameCell_symm h c1) (hp' n (by rw [ha]; simp))
  · cases as with
    | nil =>
      simp only [List.nil_append, List.cons.injEq] at hb
      exact hb.1
    | cons a as =>
      simp only [List.cons_append, List.cons.injEq] at hb
      obtain ⟨rfl, -⟩ := hb
      exact absurd c1 (hp n' (by rw [ha]; simp))

/-- **C56** The walk through a Delaunay cell terminates without an error.  It finds the triangles of the cell, and it finds
every edge of the cell that is not crossed exactly once.  The result does not depend on the triangle where the walk starts. -/
theorem C56_cell (h : CellInput S valid labs) {fuel : ℕ} (hf : 3 * labs.length ≤ fuel) {l : L} (hl : valid l) :
    ∃ c es, (∀ t, t ∈ c ↔ S.SameCell valid l t) ∧ (∀ t e, (t, e) ∈ es ↔ S.SameCell valid l t ∧ e < 3 ∧ S.needsJoin t e = .ok false) ∧ es.Nodup ∧
      ∀ l', S.SameCell valid l l' → ∀ d, S.cell labs fuel (d + 2) l' = .ok (c, es) := by
  obtain ⟨n, c, es, -, -, h3, h4, h5, -, h7⟩ := cell_full h hf hl
  exact ⟨c, es, h3, h4, h5, fun l' hl' d => (h7 l' hl' d).1⟩

/-- The boundary of a cell. -/
def cellEdges (S : RSurf L K) (labs : List L) (fuel d : ℕ) (l : L) : List (L × ℕ) :=
  match S.cell labs fuel d l with
  | .ok c => c.2
  | .error _ => []

theorem cellEdges_spec (h : CellInput S valid labs) {fuel : ℕ} (hf : 3 * labs.length ≤ fuel) {l : L} (hl : valid l) (d : ℕ) :
    ∃ n c, S.SameCell valid l n ∧ S.IsCellLabel valid labs n ∧ (∀ t, t ∈ c ↔ S.SameCell valid l t) ∧
      (∀ t e, (t, e) ∈ S.cellEdges labs fuel (d + 2) l ↔ S.SameCell valid l t ∧ e < 3 ∧ S.needsJoin t e = .ok false) ∧
      (S.cellEdges labs fuel (d + 2) l).Nodup ∧ S.Good valid n (S.cellEdges labs fuel (d + 2) l) ∧
      ∀ l', S.SameCell valid l l' → S.cell labs fuel (d + 2) l' = .ok (c, S.cellEdges labs fuel (d + 2) l) ∧ cellLabel labs c = .ok n ∧
        S.cellEdges labs fuel (d + 2) l' = S.cellEdges labs fuel (d + 2) l := by
  obtain ⟨n, c, es, h1, h2, h3, h4, h5, h6, h7⟩ := cell_full h hf hl
  have e : ∀ l', S.SameCell valid l l' → S.cellEdges labs fuel (d + 2) l' = es := by
    intro l' hl'
    unfold cellEdges
    rw [(h7 l' hl' d).1]
  rw [e l Relation.ReflTransGen.refl]
  exact ⟨n, c, h1, h2, h3, h4, h5, h6, fun l' hl' => ⟨(h7 l' hl' d).1, (h7 l' hl' d).2, e l' hl'⟩⟩

theorem label_self (h : CellInput S valid labs) {l n : L} (hl : S.IsCellLabel valid labs l) (h1 : S.SameCell valid l n)
    (h2 : S.IsCellLabel valid labs n) : n = l := by
  have hv : valid l := (h.labels l).1 (isCellLabel_mem hl)
  exact (C56_cell_label h hv).unique ⟨h1, h2⟩ ⟨Relation.ReflTransGen.refl, hl⟩

/-- **C56** A label that is not the label of a cell is rejected. -/
theorem C56_cells_reject (h : CellInput S valid labs) {fuel : ℕ} (hf : 3 * labs.length ≤ fuel) (d : ℕ) {l : L} (hl : ¬ S.IsCellLabel valid labs l) :
    (S.delaunayCells labs fuel (d + 2)).polygon l = .error .valueError ∧ ∀ e, (S.delaunayCells labs fuel (d + 2)).opp l e = .error .valueError := by
  by_cases hm : l ∈ labs
  · obtain ⟨n, c, h1, h2, -, -, -, -, h7⟩ := cellEdges_spec h hf ((h.labels l).1 hm) d
    obtain ⟨g1, g2, -⟩ := h7 l Relation.ReflTransGen.refl
    have hne : l ≠ n := by
      rintro rfl
      exact hl h2
    constructor
    · simp only [delaunayCells, hm, not_true_eq_false, if_false, g1, g2, bind, Except.bind, hne, ne_eq, not_false_eq_true, if_true]
      rfl
    · intro e
      simp only [delaunayCells, hm, not_true_eq_false, if_false, g1, g2, bind, Except.bind, hne, ne_eq, not_false_eq_true, if_true]
      rfl
  · constructor
    · simp only [delaunayCells, hm, not_false_eq_true, if_true]
      rfl
    · intro e
      simp only [delaunayCells, hm, not_false_eq_true, if_true]
      rfl

/-- **C56** The gluings of the cells are those of the triangles, and they form an involution: edge `e` of the cell `l` is an edge of
a triangle, the triangle across that edge belongs to the cell `l'`, and `e'` is the index of that edge in the cell `l'`. -/
theorem C56_cells_gluing (h : CellInput S valid labs) {fuel : ℕ} (hf : 3 * labs.length ≤ fuel) (d : ℕ) {l : L} (hl : S.IsCellLabel valid labs l)
    {e : ℕ} (he : e < (S.cellEdges labs fuel (d + 2) l).length) :
    ∃ l' e', S.IsCellLabel valid labs l' ∧ ∃ he' : e' < (S.cellEdges labs fuel (d + 2) l').length,
      S.opp (S.cellEdges labs fuel (d + 2) l)[e].1 (S.cellEdges labs fuel (d + 2) l)[e].2 = .ok (some (S.cellEdges labs fuel (d + 2) l')[e']) ∧
      (S.delaunayCells labs fuel (d + 2)).opp l e = .ok (some (l', e')) ∧ (S.delaunayCells labs fuel (d + 2)).opp l' e' = .ok (some (l, e)) := by
  have hm := isCellLabel_mem hl
  have hv : valid l := (h.labels l).1 hm
  obtain ⟨n, c, h1, h2, h3, h4, h5, -, h7⟩ := cellEdges_spec h hf hv d
  obtain rfl := label_self h hl h1 h2
  obtain ⟨g1, g2, -⟩ := h7 n Relation.ReflTransGen.refl
  set es := S.cellEdges labs fuel (d + 2) n with hes
  set x := es[e] with hx
  obtain ⟨x1, x2, x3⟩ := (h4 x.1 x.2).1 (List.getElem_mem he)
  have xv := sameCell_valid h hv x1
  obtain ⟨y1, y2, y3⟩ := oppAt_spec h.closed h.three (h := x) ⟨xv, x2⟩
  set y := S.oppAt x with hy
  have yj : S.needsJoin y.1 y.2 = .ok false := by
    rw [← not_join_iff h y2]
    have : ¬ S.Join x := (not_join_iff h (x := x) ⟨xv, x2⟩).2 x3
    intro hj
    apply this
    have := (cellGeom h.closed h.three h.noself).joinOp y y2 hj
    rwa [y3] at this
  obtain ⟨n', c', h1', h2', h3', h4', h5', -, h7'⟩ := cellEdges_spec h hf y2.1 d
  obtain ⟨g1', g2', -⟩ := h7' y.1 Relation.ReflTransGen.refl
  obtain ⟨f1', f2', f3'⟩ := h7' n' h1'
  have ymem : y ∈ S.cellEdges labs fuel (d + 2) y.1 := (h4' y.1 y.2).2 ⟨Relation.ReflTransGen.refl, y2.2, yj⟩
  have yidx := List.idxOf_lt_length_iff.2 ymem
  have yget := List.getElem_idxOf yidx
  obtain ⟨gx, -, -⟩ := h7 x.1 x1
  have y1' : S.opp y.1 y.2 = .ok (some x) := by
    obtain ⟨z1, -, -⟩ := oppAt_spec h.closed h.three y2
    rw [z1, y3]
  have gete : pyGet es (e : Int) = .ok x := by
    rw [pyGet_natCast, List.getElem?_eq_getElem he]
  have gety : pyGet (S.cellEdges labs fuel (d + 2) y.1) ((S.cellEdges labs fuel (d + 2) y.1).idxOf y : Int) = .ok y := by
    rw [pyGet_natCast, List.getElem?_eq_getElem yidx, yget]
  refine ⟨n', (S.cellEdges labs fuel (d + 2) y.1).idxOf y, h2', by rw [f3']; exact yidx, ?_, ?_, ?_⟩
  · rw [y1]
    congr 2
    simp only [f3']
    exact yget.symm
  · simp only [delaunayCells, hm, not_true_eq_false, if_false, g1, g2, bind, Except.bind, ne_eq, gete, opp!_ok y1, g1', g2', ymem, if_true]
    rfl
  · have hm' := isCellLabel_mem h2'
    have xmem : x ∈ es := List.getElem_mem he
    have xi : es.idxOf x = e := List.Nodup.idxOf_getElem h5 e he
    simp only [delaunayCells, hm', not_true_eq_false, if_false, f1', f2', bind, Except.bind, ne_eq, gety, opp!_ok y1', gx, g2, xmem, if_true, xi]
    rfl

/-- **C56** On a translation surface every Delaunay cell is a convex polygon inscribed in a circle; its edges are the edges of the
triangles, and its area is the sum of the areas of the triangles. -/
theorem C56_cells_polygon_partial (h : CellInput S valid labs) (hT : S.GluedBy valid (fun u v => u = -v)) {fuel : ℕ} (hf : 3 * labs.length ≤ fuel) (d : ℕ)
    {l : L} (hl : S.IsCellLabel valid labs l) :
    ∃ q, (S.delaunayCells labs fuel (d + 2)).polygon l = .ok q ∧ q.Valid ∧ q.length = (S.cellEdges labs fuel (d + 2) l).length ∧
      (∀ i j : ℕ, i % q.length ≠ j % q.length → (i + 1) % q.length ≠ j % q.length → 0 < ccw (q.edge i) (q.vertex j - q.vertex i)) ∧
      (∃ m : Vec K, ∃ r : K, ∀ i, dot (q.vertex i - m) (q.vertex i - m) = r) ∧
      (∀ e (he : e < (S.cellEdges labs fuel (d + 2) l).length), ∃ p, S.polygon (S.cellEdges labs fuel (d + 2) l)[e].1 = .ok p ∧
        q.edge e = p.edge (S.cellEdges labs fuel (d + 2) l)[e].2) ∧
      ∃ T : List L, T.Nodup ∧ (∀ t, t ∈ T ↔ S.SameCell valid l t) ∧ ∃ A : L → K, (∀ t ∈ T, ∃ p, S.polygon t = .ok p ∧ A t = p.area) ∧
        q.area = (T.map A).sum := by
  have hG := cellGeom h.closed h.three h.noself
  have hA := cellAgrees h.closed h.three
  have hm := isCellLabel_mem hl
  have hv : valid l := (h.labels l).1 hm
  obtain ⟨n, c, h1, h2, h3, h4, h5, h6, h7⟩ := cellEdges_spec h hf hv d
  obtain rfl := label_self h hl h1 h2
  obtain ⟨g1, g2, -⟩ := h7 n Relation.ReflTransGen.refl
  set es := S.cellEdges labs fuel (d + 2) n with hes
  obtain ⟨hin, T, hE, hAr⟩ := h6 hT
  obtain ⟨q, q1, q2, q3, q4, q5⟩ := hin.polygon
  have xv : ∀ x ∈ es, IsEdge3 valid x := by
    intro x hx
    obtain ⟨x1, x2, x3⟩ := (h4 x.1 x.2).1 hx
    exact ⟨sameCell_valid h hv x1, x2⟩
  have hmap : es.mapM (fun x => do
      let p ← S.polygon x.1
      return p.edge x.2) = (.ok (es.map S.vecOf) : Except Err _) := by
    rw [mapM_ok_iff, List.forall₂_map_right_iff, List.forall₂_same]
    intro x hx
    simp only [(triAt_spec h.closed (xv x hx).1).1, bind, Except.bind, pure, Except.pure]
    rfl
  have hpoly : (S.delaunayCells labs fuel (d + 2)).polygon n = .ok q := by
    simp only [delaunayCells, hm, not_true_eq_false, if_false, g1, g2, bind, Except.bind, ne_eq]
    simp only [bind, Except.bind] at hmap
    rw [hmap]
    exact q1
  have hvert : ∀ i, ∃ x ∈ S.dev 0 es, q.vertex i = x := by
    intro i
    have hpos : 0 < q.length := by have := q2.len3; omega
    refine ⟨q.vertex i, ?_, rfl⟩
    rw [← q3]
    unfold Poly.vertex
    rw [List.getElem?_eq_getElem (Nat.mod_lt _ hpos)]
    exact List.getElem_mem _
  refine ⟨q, hpoly, q2, q4, q5, ?_, ?_, T, hE.nodup, ?_, fun t => (S.triAt t).area, ?_, ?_⟩
  · obtain ⟨m, k, hc, -⟩ := hin.circle
    refine ⟨(m.1 / 2, m.2 / 2), k + (m.1 * m.1 + m.2 * m.2) / 4, fun i => ?_⟩
    obtain ⟨x, hx, e⟩ := hvert i
    have hx2 := hc x hx
    rw [e]
    unfold OnCircle at hx2
    simp only [dot, Prod.fst_sub, Prod.snd_sub] at hx2 ⊢
    linear_combination hx2
  · intro e he
    refine ⟨S.triAt es[e].1, (triAt_spec h.closed (xv _ (List.getElem_mem he)).1).1, ?_⟩
    rw [Poly.edge_ofEdges q1 (by rw [List.length_map]; exact he), List.getElem_map]
    rfl
  · intro t
    rw [hE.mem_iff hG hA ⟨hv, by simp⟩ (fun k hk => (not_join_iff h (xv k hk)).2 ((h4 k.1 k.2).1 hk).2.2) t, sameCell_iff h]
  · intro t ht
    have tv : valid t := sameCell_valid h hv ((sameCell_iff h _ _).2
      ((hE.mem_iff hG hA ⟨hv, by simp⟩ (fun k hk => (not_join_iff h (xv k hk)).2 ((h4 k.1 k.2).1 hk).2.2) t).1 ht))
    exact ⟨_, (triAt_spec h.closed tv).1, rfl⟩
  · have e1 := Poly.closed_area hin.closed
    rw [← dev_eq, ← wordArea_eq, hAr, ← q3] at e1
    have e2 : (T.map (fun t => 2 * (S.triAt t).area)).sum = 2 * (T.map (fun t => (S.triAt t).area)).sum := by
      exact List.sum_map_mul_left ..
    rw [e1, e2]
    field_simp

/-- **C56** The Delaunay cells of a translation surface form a translation surface without boundary. -/
theorem C56_cells_closed_partial (h : CellInput S valid labs) (hT : S.GluedBy valid (fun u v => u = -v)) {fuel : ℕ} (hf : 3 * labs.length ≤ fuel) (d : ℕ) :
    (S.delaunayCells labs fuel (d + 2)).Closed (S.IsCellLabel valid labs) ∧
      (S.delaunayCells labs fuel (d + 2)).GluedBy (S.IsCellLabel valid labs) (fun u v => u = -v) := by
  have len : ∀ {l q}, S.IsCellLabel valid labs l → (S.delaunayCells labs fuel (d + 2)).polygon l = .ok q →
      q.length = (S.cellEdges labs fuel (d + 2) l).length ∧
      ∀ e (he : e < (S.cellEdges labs fuel (d + 2) l).length), ∃ p, S.polygon (S.cellEdges labs fuel (d + 2) l)[e].1 = .ok p ∧
        q.edge e = p.edge (S.cellEdges labs fuel (d + 2) l)[e].2 := by
    intro l q hl hq
    obtain ⟨q', h1, -, h3, -, -, h4, -⟩ := C56_cells_polygon_partial h hT hf d hl
    rw [hq] at h1
    injection h1 with h1
    rw [h1]
    exact ⟨h3, h4⟩
  constructor
  · constructor
    · intro l hl
      obtain ⟨q, h1, h2, -⟩ := C56_cells_polygon_partial h hT hf d hl
      exact ⟨q, h1, h2⟩
    · intro l q e hl hq he
      rw [(len hl hq).1] at he
      obtain ⟨l', e', h1, h2, -, h4, h5⟩ := C56_cells_gluing h hf d hl he
      obtain ⟨q', g1, -⟩ := C56_cells_polygon_partial h hT hf d h1
      exact ⟨l', e', q', h4, h1, g1, by rw [(len h1 g1).1]; exact h2, h5⟩
  · intro l e l' e' q q' hl hq he ho hq'
    have he2 := he
    rw [(len hl hq).1] at he2
    obtain ⟨l2, e2, h1, h2, h3, h4, -⟩ := C56_cells_gluing h hf d hl he2
    rw [ho] at h4
    injection h4 with h4
    injection h4 with h4
    injection h4 with h4 h4'
    subst h4 h4'
    obtain ⟨p, p1, p2⟩ := (len hl hq).2 e he2
    obtain ⟨p', p1', p2'⟩ := (len h1 hq').2 e' h2
    rw [p2, p2']
    obtain ⟨n, c, -, -, -, a4, -⟩ := cellEdges_spec h hf ((h.labels l).1 (isCellLabel_mem hl)) d
    obtain ⟨b1, b2, -⟩ := (a4 _ _).1 (List.getElem_mem he2)
    have bv := sameCell_valid h ((h.labels l).1 (isCellLabel_mem hl)) b1
    exact hT _ _ _ _ p p' bv p1 (by rw [h.three _ _ bv p1]; exact b2) h3 p1'

/-! ### Examples -/

/-- A torus made from two triangles. -/
def exTwo : RSurf ℕ ℚ where
  polygon l := if l = 0 then .ok [(0, 0), (1, 0), (1, 1)] else if l = 1 then .ok [(0, 0), (1, 1), (0, 1)] else .error .keyError
  opp l e := if l < 2 ∧ e < 3 then .ok (some (1 - l, if l = 0 then (e + 1) % 3 else (e + 2) % 3)) else .error .keyError

theorem exTwo_input : CellInput exTwo (fun l => l < 2) [0, 1] := by
  have two : ∀ {l : ℕ}, l < 2 → l = 0 ∨ l = 1 := fun h => by omega
  have h3 : ∀ l p, l < 2 → exTwo.polygon l = .ok p → p.length = 3 := by
    intro l p hl hp
    rcases two hl with rfl | rfl <;> cases hp <;> rfl
  refine ⟨⟨?_, ?_⟩, h3, ?_, ?_⟩
  · intro l hl
    rcases two hl with rfl | rfl
    · exact ⟨_, rfl, Poly.valid_triangle (by decide +kernel)⟩
    · exact ⟨_, rfl, Poly.valid_triangle (by decide +kernel)⟩
  · intro l p e hl hp he
    rw [h3 l p hl hp] at he
    rcases two hl with rfl | rfl
    · refine ⟨1, (e + 1) % 3, [(0, 0), (1, 1), (0, 1)], ?_, by omega, rfl, Nat.mod_lt _ (by norm_num), ?_⟩
      · interval_cases e <;> decide +kernel
      · interval_cases e <;> decide +kernel
    · refine ⟨0, (e + 2) % 3, [(0, 0), (1, 0), (1, 1)], ?_, by omega, rfl, Nat.mod_lt _ (by norm_num), ?_⟩
      · interval_cases e <;> decide +kernel
      · interval_cases e <;> decide +kernel
  · intro l
    simp
    omega
  · intro l hl e he ho
    exfalso
    rcases two hl with rfl | rfl <;> interval_cases e <;> revert ho <;> decide +kernel

theorem exTwo_translation : exTwo.GluedBy (fun l => l < 2) (fun u v => u = -v) := by
  intro l e l' e' p p' hl hp he ho hp'
  have hl : l = 0 ∨ l = 1 := by
    have : l < 2 := hl
    omega
  rcases hl with rfl | rfl
  · cases hp
    have he : e < 3 := he
    interval_cases e <;> cases ho <;> cases hp' <;> decide +kernel
  · cases hp
    have he : e < 3 := he
    interval_cases e <;> cases ho <;> cases hp' <;> decide +kernel

theorem exTwo_label : exTwo.IsCellLabel (fun l => l < 2) [0, 1] 0 := ⟨[], [1], rfl, by simp⟩

/-- The two triangles form a square. -/
example : (exTwo.delaunayCells [0, 1] 6 2).polygon 0 = .ok [(0, 0), (1, 0), (1, 1), (0, 1)] ∧
    (exTwo.delaunayCells [0, 1] 6 2).opp 0 0 = .ok (some (0, 2)) ∧ (exTwo.delaunayCells [0, 1] 6 2).polygon 1 = .error .valueError := by
  decide +kernel

example : ∃ q, (exTwo.delaunayCells [0, 1] 6 2).polygon 0 = .ok q ∧ q.Valid := by
  obtain ⟨q, h1, h2, -⟩ := C56_cells_polygon_partial exTwo_input exTwo_translation (fuel := 6) (by decide) 0 exTwo_label
  exact ⟨q, h1, h2⟩

/-! ### Violations -/

/-- The labels of the two triangles that are glued by rotations. -/
theorem exTorus_input : CellInput (ofMSurf MSurf.exTorus) (fun l => ∃ p, MSurf.exTorus.polygon l = .ok p) [0, 1] := by
  refine ⟨exTorus_closed, ?_, ?_, ?_⟩
  · intro l p _ hp
    obtain ⟨-, rfl⟩ := exTorus_polygon hp
    rfl
  · intro l
    constructor
    · intro hl
      simp only [List.mem_cons, List.not_mem_nil, or_false] at hl
      rcases hl with rfl | rfl
      · exact ⟨MSurf.tri, by decide +kernel⟩
      · exact ⟨MSurf.tri, by decide +kernel⟩
    · rintro ⟨p, hp⟩
      obtain ⟨hl, -⟩ := exTorus_polygon hp
      rcases hl with rfl | rfl <;> simp
  · rintro l ⟨p, hp⟩ e he ho
    obtain ⟨hl, -⟩ := exTorus_polygon hp
    exfalso
    rcases hl with rfl | rfl <;> interval_cases e <;> revert ho <;> decide +kernel

/-- **C56, violated** for surfaces whose gluings are not translations: the edges of the triangles of a cell are strung together without
rotating them, so that they do not bound a polygon.  Here two triangles are glued to a sphere by rotations by `π`. -/
theorem C56_cells_violation : ∃ (S : RSurf ℕ ℚ) (valid : ℕ → Prop) (labs : List ℕ), CellInput S valid labs ∧
    S.GluedBy valid (fun u v => u = v) ∧ S.IsCellLabel valid labs 0 ∧ (S.delaunayCells labs 6 2).polygon 0 = .error .valueError := by
  refine ⟨ofMSurf MSurf.exTorus, _, [0, 1], exTorus_input, ?_, ⟨[], [1], rfl, by simp⟩, by decide +kernel⟩
  rintro l e l' e' p p' - hp he ho hp'
  obtain ⟨hl, rfl⟩ := exTorus_polygon hp
  obtain ⟨hl', rfl⟩ := exTorus_polygon hp'
  have he : e < 3 := he
  have : e' = e := by
    have tab : ∀ l < 2, ∀ e < 3, (ofMSurf MSurf.exTorus).opp l e = .ok (some (1 - l, e)) := by decide +kernel
    rw [tab l (by omega) e he] at ho
    injection ho with ho
    injection ho with ho
    injection ho with _ ho
    exact ho.symm
  rw [this]

/-- A right triangle all of whose edges are glued to themselves. -/
def exFolded : RSurf ℕ ℚ where
  polygon l := if l = 0 then .ok [(0, 0), (1, 0), (0, 1)] else .error .keyError
  opp l e := if l = 0 ∧ e < 3 then .ok (some (0, e)) else .error .keyError

/-- **C56, violated** if an edge is glued to itself and the opposite angle is a right angle: the walk raises `NotImplementedError`. -/
theorem C56_cells_folded_violation : exFolded.Closed (fun l => l = 0) ∧ (exFolded.delaunayCells [0] 3 2).polygon 0 = .error .notImplemented := by
  refine ⟨⟨?_, ?_⟩, by decide +kernel⟩
  · rintro l rfl
    exact ⟨_, rfl, Poly.valid_triangle (by decide +kernel)⟩
  · rintro l p e rfl hp he
    cases hp
    have he : e < 3 := he
    refine ⟨0, e, [(0, 0), (1, 0), (0, 1)], ?_, rfl, rfl, he, ?_⟩ <;> interval_cases e <;> decide +kernel

end RSurf
end Flat
