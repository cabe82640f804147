import Verif.Model.LazyDelaunay
import Mathlib.Data.Finset.Card
import Mathlib.Data.Finset.Prod
import Mathlib.Algebra.BigOperators.Group.List.Basic
import Mathlib.Tactic.Linarith

/-!
# The walk through a Delaunay cell

Edges of triangles are pairs `(t, e)`.  The walk crosses those edges that satisfy `J`.
-/

namespace Flat
variable {L K : Type} [Field K] [LinearOrder K] [IsStrictOrderedRing K]

/-- Crossing an edge with `J` increases `μ`. -/
structure CellGeom (op : L × ℕ → L × ℕ) (V J : L × ℕ → Prop) (μ : L × ℕ → K) : Prop where
  opV : ∀ h, V h → V (op h)
  opop : ∀ h, V h → op (op h) = h
  joinOp : ∀ h, V h → J h → J (op h)
  neg : ∀ h, V h → J h → μ (op h) = - μ h
  pos : ∀ a b, V a → V b → a.1 = b.1 → a ≠ b → 0 < μ a + μ b
  noself : ∀ h, V h → J h → op h ≠ h

namespace CellGeom
variable {op : L × ℕ → L × ℕ} {V J : L × ℕ → Prop} {μ : L × ℕ → K}

/-- After crossing `h` the walk can continue with `k`. -/
def Next (op : L × ℕ → L × ℕ) (V J : L × ℕ → Prop) (h k : L × ℕ) : Prop := V h ∧ J h ∧ V k ∧ k.1 = (op h).1 ∧ k ≠ op h

/-- Paths with a number of steps. -/
inductive Path (op : L × ℕ → L × ℕ) (V J : L × ℕ → Prop) : ℕ → L × ℕ → L × ℕ → Prop
  | zero (a) : Path op V J 0 a a
  | succ {n a y x} : Path op V J n a y → Next op V J y x → Path op V J (n + 1) a x

/-- There is a path. -/
def D (op : L × ℕ → L × ℕ) (V J : L × ℕ → Prop) (a x : L × ℕ) : Prop := ∃ n, Path op V J n a x

theorem Next.lt (hG : CellGeom op V J μ) {h k : L × ℕ} (hn : Next op V J h k) : μ h < μ k := by
  obtain ⟨h1, h2, h3, h4, h5⟩ := hn
  have := hG.pos k (op h) h3 (hG.opV h h1) h4 h5
  rw [hG.neg h h1 h2] at this
  linarith

theorem Path.le (hG : CellGeom op V J μ) {n : ℕ} {a x : L × ℕ} (h : Path op V J n a x) : μ a ≤ μ x := by
  induction h with
  | zero => exact le_refl _
  | succ _ h2 ih => exact ih.trans (h2.lt hG).le

theorem Path.cases_head {n : ℕ} {a x : L × ℕ} (h : Path op V J n a x) :
    (n = 0 ∧ x = a) ∨ ∃ m b, n = m + 1 ∧ Next op V J a b ∧ Path op V J m b x := by
  induction h with
  | zero => exact Or.inl ⟨rfl, rfl⟩
  | succ h1 h2 ih =>
    rcases ih with ⟨rfl, rfl⟩ | ⟨m, b, rfl, h3, h4⟩
    · exact Or.inr ⟨0, _, rfl, h2, .zero _⟩
    · exact Or.inr ⟨m + 1, b, rfl, h3, h4.succ h2⟩

theorem Path.head {n : ℕ} {a b x : L × ℕ} (h : Next op V J a b) (hp : Path op V J n b x) : Path op V J (n + 1) a x := by
  induction hp with
  | zero => exact (Path.zero _).succ h
  | succ _ h2 ih => exact (ih h).succ h2

/-- If `y` can be followed by `x` then `y` is glued to another edge of the triangle of `x`. -/
theorem Next.back (hG : CellGeom op V J μ) {x y : L × ℕ} (h : Next op V J y x) : V (op y) ∧ J (op y) ∧ op (op y) = y ∧ (op y).1 = x.1 ∧ op y ≠ x :=
  ⟨hG.opV y h.1, hG.joinOp y h.1 h.2.1, hG.opop y h.1, h.2.2.2.1.symm, fun e => h.2.2.2.2 e.symm⟩

/-- Walks that start with different edges of a triangle never meet. -/
theorem paths_disjoint (hG : CellGeom op V J μ) : ∀ (N m n : ℕ) (a b x : L × ℕ), m + n = N → V a → V b → a.1 = b.1 → a ≠ b →
    Path op V J m a x → Path op V J n b x → False := by
  intro N
  induction N using Nat.strong_induction_on with
  | _ N ih =>
    -- one of the walks is trivial
    have key : ∀ (n : ℕ) (a b : L × ℕ), n ≤ N → V a → V b → a.1 = b.1 → a ≠ b → Path op V J n b a → False := by
      intro n a b hn ha hb hab hne hp
      cases hp with
      | zero => exact hne rfl
      | @succ n _ y _ h1 h2 =>
        obtain ⟨y1, y2, y3, y4, y5⟩ := h2.back hG
        by_cases hy : op y = b
        · have hby : y = op b := by rw [← hy, y3]
          rw [hy] at y2
          subst hby
          rcases h1.cases_head with ⟨rfl, e⟩ | ⟨m, c, rfl, h3, h4⟩
          · exact hG.noself b hb y2 e
          · -- the walk comes back to the other side of `b`
            refine ih m (by omega) 0 m (op b) c (op b) (by omega) (hG.opV b hb) h3.2.2.1 h3.2.2.2.1.symm
              (fun e => h3.2.2.2.2 e.symm) (.zero _) h4
        · have hN : Next op V J y b := ⟨h2.1, h2.2.1, hb, by rw [← hab, y4], fun e => hy e.symm⟩
          exact absurd (hN.lt hG) (not_lt.2 (h1.le hG))
    intro m n a b x hmn ha hb hab hne hpa hpb
    cases hpa with
    | zero => exact key n a b (by omega) ha hb hab hne hpb
    | @succ m _ y _ h1 h2 =>
      cases hpb with
      | zero => exact key (m + 1) b a (by omega) hb ha hab.symm hne.symm (h1.succ h2)
      | @succ n _ z _ h1' h2' =>
        by_cases hyz : y = z
        · subst hyz
          exact ih (m + n) (by omega) m n a b y rfl ha hb hab hne h1 h1'
        · obtain ⟨y1, y2, y3, y4, y5⟩ := h2.back hG
          obtain ⟨z1, z2, z3, z4, z5⟩ := h2'.back hG
          have hop : op y ≠ op z := fun e => hyz (by rw [← y3, ← z3, e])
          have k1 := hG.pos (op y) (op z) y1 z1 (y4.trans z4.symm) hop
          rw [hG.neg y h2.1 h2.2.1, hG.neg z h2'.1 h2'.2.1] at k1
          have k2 := h1.le hG
          have k3 := h1'.le hG
          have k4 := hG.pos a b ha hb hab hne
          linarith

theorem D.disjoint (hG : CellGeom op V J μ) {a b x : L × ℕ} (ha : V a) (hb : V b) (hab : a.1 = b.1) (hne : a ≠ b)
    (h1 : D op V J a x) (h2 : D op V J b x) : False := by
  obtain ⟨m, h1⟩ := h1
  obtain ⟨n, h2⟩ := h2
  exact paths_disjoint hG _ m n a b x rfl ha hb hab hne h1 h2

theorem D.refl (a : L × ℕ) : D op V J a a := ⟨0, .zero a⟩

theorem D.head {a b x : L × ℕ} (h : Next op V J a b) (hp : D op V J b x) : D op V J a x := by
  obtain ⟨n, hp⟩ := hp
  exact ⟨n + 1, hp.head h⟩

theorem D.of_not_join {a x : L × ℕ} (h : ¬ J a) : D op V J a x ↔ x = a := by
  constructor
  · rintro ⟨n, hp⟩
    rcases hp.cases_head with ⟨-, e⟩ | ⟨m, b, -, h1, -⟩
    · exact e
    · exact absurd h1.2.1 h
  · rintro rfl
    exact D.refl _

theorem D.valid {a x : L × ℕ} (ha : V a) (h : D op V J a x) : V x := by
  obtain ⟨n, h⟩ := h
  cases h with
  | zero => exact ha
  | succ _ h2 => exact h2.2.2.1

/-- Crossing an edge. -/
theorem D.of_join {h k1 k2 x : L × ℕ} (hh : V h) (hJ : J h) (v1 : V k1) (v2 : V k2) (e1 : k1.1 = (op h).1) (e2 : k2.1 = (op h).1)
    (n1 : k1 ≠ op h) (n2 : k2 ≠ op h) (hall : ∀ k, V k → k.1 = (op h).1 → k ≠ op h → k = k1 ∨ k = k2) :
    D op V J h x ↔ x = h ∨ D op V J k1 x ∨ D op V J k2 x := by
  have s1 : Next op V J h k1 := ⟨hh, hJ, v1, e1, n1⟩
  have s2 : Next op V J h k2 := ⟨hh, hJ, v2, e2, n2⟩
  constructor
  · rintro ⟨n, hp⟩
    rcases hp.cases_head with ⟨-, e⟩ | ⟨m, b, -, h1, h2⟩
    · exact Or.inl e
    · rcases hall b h1.2.2.1 h1.2.2.2.1 h1.2.2.2.2 with rfl | rfl
      · exact Or.inr (Or.inl ⟨m, h2⟩)
      · exact Or.inr (Or.inr ⟨m, h2⟩)
  · rintro (rfl | h | h)
    · exact D.refl _
    · exact D.head s1 h
    · exact D.head s2 h

theorem D.not_back (hG : CellGeom op V J μ) {h k : L × ℕ} (hn : Next op V J h k) : ¬ D op V J k h := by
  rintro ⟨n, hp⟩
  exact absurd (hn.lt hG) (not_lt.2 (hp.le hG))

end CellGeom
end Flat
