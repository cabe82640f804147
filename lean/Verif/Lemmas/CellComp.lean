import Verif.Lemmas.CellLoop
import Mathlib.Logic.Relation

/-!
# The triangles that the walk visits
-/

namespace Flat
variable {L K : Type} [DecidableEq L] [Field K] [LinearOrder K] [IsStrictOrderedRing K]
namespace CellGeom
variable {op : L × ℕ → L × ℕ} {V J : L × ℕ → Prop} {μ : L × ℕ → K}

/-- Two triangles with a common edge that is crossed. -/
def Adj (op : L × ℕ → L × ℕ) (V J : L × ℕ → Prop) (t t' : L) : Prop := ∃ e, V (t, e) ∧ J (t, e) ∧ (op (t, e)).1 = t'

theorem Adj.symm (hG : CellGeom op V J μ) {t t' : L} (h : Adj op V J t t') : Adj op V J t' t := by
  obtain ⟨e, h1, h2, rfl⟩ := h
  exact ⟨(op (t, e)).2, hG.opV _ h1, hG.joinOp _ h1 h2, by rw [Prod.mk.eta, hG.opop _ h1]⟩

/-- The triangles of a cell. -/
def Comp (op : L × ℕ → L × ℕ) (V J : L × ℕ → Prop) (t t' : L) : Prop := Relation.ReflTransGen (Adj op V J) t t'

theorem Comp.symm (hG : CellGeom op V J μ) {t t' : L} (h : Comp op V J t t') : Comp op V J t' t := by
  induction h with
  | refl => exact Relation.ReflTransGen.refl
  | tail _ h2 ih => exact Relation.ReflTransGen.head (h2.symm hG) ih

/-- The edges that can be reached from a triangle. -/
def R (op : L × ℕ → L × ℕ) (V J : L × ℕ → Prop) (l : L) (x : L × ℕ) : Prop := ∃ i, i < 3 ∧ D op V J (l, i) x

theorem D.tail {a y x : L × ℕ} (h : D op V J a y) (hn : Next op V J y x) : D op V J a x := by
  obtain ⟨n, h⟩ := h
  exact ⟨n + 1, h.succ hn⟩

theorem R.other {S : RSurf L K} (hG : CellGeom op V J μ) (hA : Agrees S op V J) {l : L} {x k : L × ℕ} (hx : R op V J l x) (hk : V k) (e : k.1 = x.1) :
    R op V J l k ∨ (J k ∧ R op V J l (op k)) := by
  obtain ⟨i, hi, n, hp⟩ := hx
  cases hp with
  | zero =>
    refine Or.inl ⟨k.2, hA.lt3 k hk, ?_⟩
    have e' : (l, k.2) = k := Prod.ext e.symm rfl
    rw [e']
    exact D.refl _
  | @succ n _ y _ h1 h2 =>
    by_cases hky : k = op y
    · subst hky
      refine Or.inr ⟨hG.joinOp y h2.1 h2.2.1, ?_⟩
      rw [hG.opop y h2.1]
      exact ⟨i, hi, n, h1⟩
    · exact Or.inl ⟨i, hi, D.tail ⟨n, h1⟩ ⟨h2.1, h2.2.1, hk, e.trans h2.2.2.2.1, hky⟩⟩

theorem comp_iff {S : RSurf L K} (hG : CellGeom op V J μ) (hA : Agrees S op V J) {l : L} (hl : V (l, 0)) (t : L) :
    Comp op V J l t ↔ ∃ x, R op V J l x ∧ x.1 = t := by
  constructor
  · intro h
    induction h with
    | refl => exact ⟨(l, 0), ⟨0, by omega, D.refl _⟩, rfl⟩
    | tail _ h2 ih =>
      obtain ⟨x, hx, rfl⟩ := ih
      obtain ⟨e, h3, h4, rfl⟩ := h2
      rcases R.other hG hA hx h3 rfl with hr | ⟨-, hr⟩
      · obtain ⟨i, hi, hd⟩ := hr
        have hc := hA.cross hG h3 h4
        exact ⟨_, ⟨i, hi, D.tail hd hc.next1⟩, rfl⟩
      · exact ⟨_, hr, rfl⟩
  · rintro ⟨x, ⟨i, hi, n, hp⟩, rfl⟩
    have hli : V (l, i) := hA.tri (l, 0) i hl hi
    generalize ha : (l, i) = a at hp hli
    induction hp with
    | zero => rw [← ha]; exact Relation.ReflTransGen.refl
    | @succ n a y x h1 h2 ih =>
      refine Relation.ReflTransGen.tail (ih ha hli) ⟨y.2, ?_, ?_, ?_⟩
      · exact h2.1
      · exact h2.2.1
      · exact h2.2.2.2.1.symm

theorem edge_iff {S : RSurf L K} (hG : CellGeom op V J μ) (hA : Agrees S op V J) {l : L} (hl : V (l, 0)) (x : L × ℕ) (hJ : ¬ J x) :
    R op V J l x ↔ V x ∧ Comp op V J l x.1 := by
  constructor
  · intro h
    refine ⟨?_, (comp_iff hG hA hl x.1).2 ⟨x, h, rfl⟩⟩
    obtain ⟨i, hi, hd⟩ := h
    exact hd.valid (hA.tri (l, 0) i hl hi)
  · rintro ⟨h1, h2⟩
    obtain ⟨y, hy, e⟩ := (comp_iff hG hA hl x.1).1 h2
    rcases R.other hG hA hy h1 e.symm with h | ⟨h, -⟩
    · exact h
    · exact absurd h hJ

/-- What the loop returns for the triangle `l`. -/
theorem cellLoop_start {S : RSurf L K} (hG : CellGeom op V J μ) (hA : Agrees S op V J) (labs : List L) (hU : ∀ h, V h → h.1 ∈ labs)
    (I : List (L × ℕ) → Prop)
    (hI : ∀ pre h post, V h → J h → (∀ x ∈ pre ++ h :: post, V x) → I (pre ++ h :: post) →
      I (pre ++ ((op h).1, ((op h).2 + 1) % 3) :: ((op h).1, ((op h).2 + 2) % 3) :: post))
    {l : L} (hl : V (l, 0)) (hI0 : I [(l, 0), (l, 1), (l, 2)]) {fuel : ℕ} (hf : 3 * labs.length ≤ fuel) :
    ∃ c es, S.cellLoop fuel [(l, 0), (l, 1), (l, 2)] [] [] = .ok (c, es) ∧ (∀ t, t ∈ c ↔ Comp op V J l t) ∧
      (∀ x, x ∈ es ↔ V x ∧ ¬ J x ∧ Comp op V J l x.1) ∧ es.Nodup ∧ I es := by
  classical
  have v : ∀ i < 3, V (l, i) := fun i hi => hA.tri (l, 0) i hl hi
  set U : Finset (L × ℕ) := labs.toFinset ×ˢ Finset.range 3 with hUdef
  have hU' : ∀ h, V h → h ∈ U := by
    intro h hh
    rw [hUdef, Finset.mem_product, List.mem_toFinset, Finset.mem_range]
    exact ⟨hU h hh, hA.lt3 h hh⟩
  have dis : ∀ i j, i < 3 → j < 3 → i ≠ j → ∀ x, D op V J (l, i) x → D op V J (l, j) x → False := by
    intro i j hi hj hij x h1 h2
    exact D.disjoint hG (v i hi) (v j hj) rfl (fun e => hij (congrArg Prod.snd e)) h1 h2
  have hsum : (([(l, 0), (l, 1), (l, 2)] : List (L × ℕ)).map (reach op V J U)).sum ≤ fuel := by
    have hcard : U.card ≤ 3 * labs.length := by
      rw [hUdef, Finset.card_product, Finset.card_range, Nat.mul_comm]
      exact Nat.mul_le_mul_left _ (List.toFinset_card_le _)
    have d01 : Disjoint (U.filter (D op V J (l, 0))) (U.filter (D op V J (l, 1))) := by
      rw [Finset.disjoint_left]
      intro x h1 h2
      exact dis 0 1 (by omega) (by omega) (by omega) x (Finset.mem_filter.1 h1).2 (Finset.mem_filter.1 h2).2
    have d2 : Disjoint (U.filter (D op V J (l, 0)) ∪ U.filter (D op V J (l, 1))) (U.filter (D op V J (l, 2))) := by
      rw [Finset.disjoint_left]
      intro x h1 h2
      rcases Finset.mem_union.1 h1 with h1 | h1
      · exact dis 0 2 (by omega) (by omega) (by omega) x (Finset.mem_filter.1 h1).2 (Finset.mem_filter.1 h2).2
      · exact dis 1 2 (by omega) (by omega) (by omega) x (Finset.mem_filter.1 h1).2 (Finset.mem_filter.1 h2).2
    have hle := Finset.card_le_card (show U.filter (D op V J (l, 0)) ∪ U.filter (D op V J (l, 1)) ∪ U.filter (D op V J (l, 2)) ⊆ U from
      Finset.union_subset (Finset.union_subset (Finset.filter_subset _ _) (Finset.filter_subset _ _)) (Finset.filter_subset _ _))
    rw [Finset.card_union_of_disjoint d2, Finset.card_union_of_disjoint d01] at hle
    simp only [List.map_cons, List.map_nil, List.sum_cons, List.sum_nil]
    have e : ∀ h, reach op V J U h = (U.filter (D op V J h)).card := by
      intro h
      unfold reach
      congr 1
    rw [e, e, e]
    omega
  obtain ⟨c, es, e1, e2, e3, e4, e5, e6⟩ := cellLoop_ok hG hA U hU' I hI fuel [(l, 0), (l, 1), (l, 2)] [] []
    (by
      intro x hx
      simp only [List.nil_append, List.mem_cons, List.not_mem_nil, or_false] at hx
      rcases hx with rfl | rfl | rfl
      · exact v 0 (by omega)
      · exact v 1 (by omega)
      · exact v 2 (by omega))
    (by simp)
    (by
      unfold Sep
      simp only [List.nil_append, List.pairwise_cons, List.mem_cons, List.not_mem_nil, or_false, forall_eq_or_imp, forall_eq, List.Pairwise.nil, and_true,
        false_imp_iff, implies_true]
      exact ⟨⟨dis 0 1 (by omega) (by omega) (by omega), dis 0 2 (by omega) (by omega) (by omega)⟩, dis 1 2 (by omega) (by omega) (by omega)⟩)
    hI0 hsum
  have hR : ∀ x, (∃ h ∈ [(l, 0), (l, 1), (l, 2)], D op V J h x) ↔ R op V J l x := by
    intro x
    constructor
    · rintro ⟨h, hh, hd⟩
      simp only [List.mem_cons, List.not_mem_nil, or_false] at hh
      rcases hh with rfl | rfl | rfl
      · exact ⟨0, by omega, hd⟩
      · exact ⟨1, by omega, hd⟩
      · exact ⟨2, by omega, hd⟩
    · rintro ⟨i, hi, hd⟩
      refine ⟨(l, i), ?_, hd⟩
      have : i = 0 ∨ i = 1 ∨ i = 2 := by omega
      rcases this with rfl | rfl | rfl <;> simp
  refine ⟨c, es, e1, ?_, ?_, e3.nodup, e4⟩
  · intro t
    rw [e6 t, comp_iff hG hA hl t]
    constructor
    · rintro (h | ⟨h, hh, x, hd, hx⟩)
      · cases h
      · exact ⟨x, (hR x).1 ⟨h, hh, hd⟩, hx⟩
    · rintro ⟨x, hr, hx⟩
      obtain ⟨h, hh, hd⟩ := (hR x).2 hr
      exact Or.inr ⟨h, hh, x, hd, hx⟩
  · intro x
    rw [e5 x, List.nil_append, hR x]
    constructor
    · rintro ⟨h1, h2⟩
      have := (edge_iff hG hA hl x h1).1 h2
      exact ⟨this.1, h1, this.2⟩
    · rintro ⟨h1, h2, h3⟩
      exact ⟨h2, (edge_iff hG hA hl x h2).2 ⟨h1, h3⟩⟩

/-- The first triangle of the cell of `l` in the list `labs`. -/
theorem cellLabel_spec {labs : List L} {c : List L} {P : L → Prop} (hc : ∀ t, t ∈ c ↔ P t) (hex : ∃ t ∈ labs, P t) :
    ∃ n, RSurf.cellLabel labs c = .ok n ∧ n ∈ labs ∧ P n ∧ ∀ c' : List L, (∀ t, t ∈ c' ↔ P t) → RSurf.cellLabel labs c' = .ok n := by
  have hf : ∃ n, labs.find? (fun l => decide (l ∈ c)) = some n := by
    rw [← Option.isSome_iff_exists, List.find?_isSome]
    obtain ⟨t, h1, h2⟩ := hex
    exact ⟨t, h1, by simpa using (hc t).2 h2⟩
  obtain ⟨n, hn⟩ := hf
  have hall : ∀ c' : List L, (∀ t, t ∈ c' ↔ P t) → RSurf.cellLabel labs c' = .ok n := by
    intro c' hc'
    have : (fun l => decide (l ∈ c')) = (fun l => decide (l ∈ c)) := by
      funext t
      rw [decide_eq_decide, hc', hc]
    unfold RSurf.cellLabel
    rw [this, hn]
  refine ⟨n, hall c hc, List.mem_of_find?_eq_some hn, ?_, hall⟩
  have := List.find?_some hn
  simpa [hc] using this

/-- `_cell` terminates, and returns the triangles of a cell with the edges of the cell. -/
theorem cell_spec {S : RSurf L K} (hG : CellGeom op V J μ) (hA : Agrees S op V J) (labs : List L) (hU : ∀ t, t ∈ labs ↔ V (t, 0))
    (I : L → List (L × ℕ) → Prop)
    (hI : ∀ l pre h post, V h → J h → (∀ x ∈ pre ++ h :: post, V x) → I l (pre ++ h :: post) →
      I l (pre ++ ((op h).1, ((op h).2 + 1) % 3) :: ((op h).1, ((op h).2 + 2) % 3) :: post))
    (hI0 : ∀ l, V (l, 0) → I l [(l, 0), (l, 1), (l, 2)]) {fuel : ℕ} (hf : 3 * labs.length ≤ fuel) {l : L} (hl : V (l, 0)) :
    ∃ n c es, n ∈ labs ∧ Comp op V J l n ∧ (∀ t, t ∈ c ↔ Comp op V J l t) ∧ (∀ x, x ∈ es ↔ V x ∧ ¬ J x ∧ Comp op V J l x.1) ∧ es.Nodup ∧ I n es ∧
      ∀ l', Comp op V J l l' → ∀ d, S.cell labs fuel (d + 2) l' = .ok (c, es) ∧ RSurf.cellLabel labs c = .ok n := by
  have vzero : ∀ {t : L} {e : ℕ}, V (t, e) → V (t, 0) := fun {t e} h => hA.tri (t, e) 0 h (by omega)
  have hU' : ∀ h, V h → h.1 ∈ labs := fun h hh => (hU h.1).2 (vzero (e := h.2) hh)
  have vcomp : ∀ {t}, Comp op V J l t → V (t, 0) := by
    intro t ht
    induction ht with
    | refl => exact hl
    | tail _ h2 ih =>
      obtain ⟨e, h3, h4, rfl⟩ := h2
      exact vzero (hG.opV _ h3)
  have congr : ∀ {t}, Comp op V J l t → ∀ t', Comp op V J t t' ↔ Comp op V J l t' := by
    intro t ht t'
    exact ⟨fun h => ht.trans h, fun h => (ht.symm hG).trans h⟩
  -- the label of the cell
  obtain ⟨c0, -, e1, e2, -, -, -⟩ := cellLoop_start hG hA labs hU' (fun _ => True) (fun _ _ _ _ _ _ _ => trivial) hl trivial hf
  obtain ⟨n, n1, n2, n3, n4⟩ := cellLabel_spec e2 ⟨l, (hU l).2 hl, Relation.ReflTransGen.refl⟩
  have vn := vcomp n3
  obtain ⟨c, es, f1, f2, f3, f4, f5⟩ := cellLoop_start hG hA labs hU' (I n) (hI n) vn (hI0 n vn) hf
  have f2' : ∀ t, t ∈ c ↔ Comp op V J l t := fun t => (f2 t).trans (congr n3 t)
  have nn : RSurf.cellLabel labs c = .ok n := n4 c f2'
  have atn : ∀ d, S.cell labs fuel (d + 1) n = .ok (c, es) := by
    intro d
    simp only [RSurf.cell, f1, nn, bind, Except.bind, pure, Except.pure, ne_eq, not_true_eq_false, if_false]
  refine ⟨n, c, es, n2, n3, f2', fun x => ?_, f4, f5, fun l' hl' d => ⟨?_, nn⟩⟩
  · rw [f3 x, congr n3]
  · by_cases hln : n = l'
    · rw [← hln]
      exact atn (d + 1)
    · obtain ⟨c', es', g1, g2, -, -, -⟩ := cellLoop_start hG hA labs hU' (fun _ => True) (fun _ _ _ _ _ _ _ => trivial) (vcomp hl') trivial hf
      have gn := n4 c' (fun t => (g2 t).trans (congr hl' t))
      have : S.cell labs fuel (d + 2) l' = S.cell labs fuel (d + 1) n := by
        conv_lhs => rw [RSurf.cell]
        simp only [g1, gn, bind, Except.bind, ne_eq, hln, not_false_eq_true, if_true]
      rw [this]
      exact atn d

end CellGeom
end Flat
