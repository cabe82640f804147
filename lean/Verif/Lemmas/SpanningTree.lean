import Verif.Model.OrbitClosure
import Verif.Lemmas.Dict
import Mathlib.Algebra.BigOperators.Group.Finset.Basic
import Mathlib.LinearAlgebra.Span.Basic
import Mathlib.Algebra.Module.Pi
import Mathlib.Data.Int.Basic
import Mathlib.Tactic.Ring
import Mathlib.Tactic.LinearCombination
import Mathlib.Tactic.Linarith

/-!
# The search for a spanning tree of the faces of a triangulation, and the reduction of the edges
-/

namespace Flat
namespace FlatTri

/-- A triangulation without boundary: three half-edges bound each face. -/
structure Valid (T : FlatTri) : Prop where
  lt : ∀ h, h < 2 * T.size → T.next h < 2 * T.size
  three : ∀ h, h < 2 * T.size → T.next (T.next (T.next h)) = h
  ne : ∀ h, h < 2 * T.size → T.next h ≠ h

theorem neg_lt {h n : ℕ} (hh : h < 2 * n) : neg h < 2 * n := by unfold neg; split_ifs <;> omega

theorem neg_neg (h : ℕ) : neg (neg h) = h := by unfold neg; split_ifs <;> omega

theorem edge_eq {a b : ℕ} (h : edge a = edge b) : a = b ∨ a = neg b := by unfold edge at h; unfold neg; split_ifs <;> omega

theorem edge_neg (h : ℕ) : edge (neg h) = edge h := by unfold edge neg; split_ifs <;> omega

theorem edge_lt {h n : ℕ} (hh : h < 2 * n) : edge h < n := by unfold edge; omega

theorem sgn_mul_self (h : ℕ) : sgn h * sgn h = 1 := by unfold sgn; split_ifs <;> norm_num

section
variable {T : FlatTri} (hT : T.Valid)
include hT

theorem Valid.face_next {h : ℕ} (hh : h < 2 * T.size) : T.face (T.next h) = T.face h := by
  unfold face
  rw [hT.three h hh]
  omega

theorem Valid.face_mem {h : ℕ} (hh : h < 2 * T.size) : T.face h = h ∨ T.face h = T.next h ∨ T.face h = T.next (T.next h) := by
  unfold face
  omega

theorem Valid.face_lt {h : ℕ} (hh : h < 2 * T.size) : T.face h < 2 * T.size := by
  unfold face
  omega

theorem Valid.face_face {h : ℕ} (hh : h < 2 * T.size) : T.face (T.face h) = T.face h := by
  rcases hT.face_mem hh with h1 | h1 | h1
  · rw [h1, h1]
  · rw [h1, hT.face_next hh, h1]
  · rw [h1, hT.face_next (hT.lt _ hh), hT.face_next hh, h1]

/-- A half-edge of a face is the given one or one of the next two. -/
theorem Valid.face_eq {g h : ℕ} (hg : g < 2 * T.size) (hh : h < 2 * T.size) (he : T.face g = T.face h) : h = g ∨ h = T.next g ∨ h = T.next (T.next g) := by
  have t1 := hT.three g hg
  have t2 := hT.three h hh
  rcases hT.face_mem hg with h1 | h1 | h1 <;> rcases hT.face_mem hh with h2 | h2 | h2 <;> rw [h1, h2] at he
  · exact .inl he.symm
  · right; right; rw [he, t2]
  · right; left; rw [he, t2]
  · right; left; exact he.symm
  · left
    have := congrArg (fun x => T.next (T.next x)) he
    rw [t1, t2] at this
    exact this.symm
  · right; right
    have := congrArg T.next he
    rw [t2] at this
    exact this.symm
  · right; right; exact he.symm
  · right; left
    have := congrArg (fun x => T.next (T.next x)) he
    rw [t1, t2] at this
    exact this.symm
  · left
    have := congrArg T.next he
    rw [t1, t2] at this
    exact this.symm

end

/-! ### The search -/

/-- The half-edges lead from new faces to old faces, the last one first. -/
def Grow (T : FlatTri) (root : ℕ) : List ℕ → Prop
  | [] => True
  | f :: fs => f < 2 * T.size ∧ T.face f ∉ root :: fs.map T.face ∧ T.face (neg f) ∈ root :: fs.map T.face ∧ Grow T root fs

/-- What is known during the search. -/
structure SInv (T : FlatTri) (root : ℕ) (s : Search) : Prop where
  keys : ∀ g, g ∈ s.t.keys ↔ g ∈ root :: s.edges.reverse.map T.face
  values : ∀ v, v ∈ s.t.map Prod.snd ↔ v = none ∨ ∃ f ∈ s.edges, v = some f
  grow : Grow T root s.edges.reverse
  todo : ∀ g ∈ s.todo, g ∈ s.t.keys ∧ g < 2 * T.size ∧ T.face g = g

/-- All neighbours of a face have been visited. -/
def Closed (T : FlatTri) (s : Search) (g : ℕ) : Prop := ∀ h, h < 2 * T.size → T.face h = g → T.face (neg h) ∈ s.t.keys

theorem set_values {t : Dict ℕ (Option ℕ)} {k : ℕ} {v : Option ℕ} (hk : k ∉ t.keys) : t.set k v = t ++ [(k, v)] := by
  induction t with
  | nil => rfl
  | cons x t ih =>
    obtain ⟨a, c⟩ := x
    simp only [Dict.keys, List.map_cons, List.mem_cons, not_or] at hk ih
    rw [Dict.set, if_neg (Ne.symm hk.1), ih hk.2, List.cons_append]

section
variable {T : FlatTri} {root : ℕ}

theorem visit_inv (hT : T.Valid) {f : ℕ} {s : Search} (hf : f < 2 * T.size) (hk : T.face f ∈ s.t.keys) (h : SInv T root s) :
    SInv T root (T.visit f s) ∧ (∀ g ∈ s.t.keys, g ∈ (T.visit f s).t.keys) ∧ T.face (neg f) ∈ (T.visit f s).t.keys ∧
      (∀ g, g ∈ (T.visit f s).t.keys → g ∈ s.t.keys ∨ g ∈ (T.visit f s).todo) ∧ (∀ g ∈ s.todo, g ∈ (T.visit f s).todo) ∧
      (T.visit f s).todo.length + ((Finset.range (2 * T.size)).filter (fun g => g ∉ (T.visit f s).t.keys)).card ≤
        s.todo.length + ((Finset.range (2 * T.size)).filter (fun g => g ∉ s.t.keys)).card := by
  unfold visit
  by_cases hn : s.t.has (T.face (neg f)) = false
  · rw [if_pos hn]
    have hnk : T.face (neg f) ∉ s.t.keys := fun hc => by
      rw [← Dict.has_iff, hn] at hc
      cases hc
    have hkeys : (s.t.set (T.face (neg f)) (some (neg f))).keys = s.t.keys ++ [T.face (neg f)] := by rw [Dict.keys_set, if_neg hnk]
    have hnl := neg_lt hf
    refine ⟨⟨?_, ?_, ?_, ?_⟩, ?_, ?_, ?_, ?_, ?_⟩
    · intro g
      dsimp only
      rw [hkeys, List.mem_append, h.keys]
      simp only [List.reverse_append, List.reverse_cons, List.reverse_nil, List.nil_append, List.cons_append, List.map_cons, List.mem_cons, List.not_mem_nil, or_false]
      tauto
    · intro v
      dsimp only
      rw [set_values hnk, List.map_append, List.mem_append, h.values]
      simp only [List.map_cons, List.map_nil, List.mem_singleton, List.mem_append]
      constructor
      · rintro ((h1 | ⟨f', h1, h2⟩) | h1)
        · exact .inl h1
        · exact .inr ⟨f', .inl h1, h2⟩
        · exact .inr ⟨_, .inr rfl, h1⟩
      · rintro (h1 | ⟨f', h1 | h1, h2⟩)
        · exact .inl (.inl h1)
        · exact .inl (.inr ⟨f', h1, h2⟩)
        · subst h1; exact .inr h2
    · dsimp only
      rw [List.reverse_append]
      refine ⟨hnl, ?_, ?_, h.grow⟩
      · exact fun hc => hnk ((h.keys _).2 hc)
      · rw [neg_neg]
        exact (h.keys _).1 hk
    · intro g hg
      dsimp only at hg ⊢
      rw [hkeys]
      rcases List.mem_cons.1 hg with rfl | hg
      · exact ⟨by simp, hT.face_lt hnl, hT.face_face hnl⟩
      · obtain ⟨h1, h2⟩ := h.todo g hg
        exact ⟨List.mem_append_left _ h1, h2⟩
    · intro g hg
      dsimp only
      rw [hkeys]
      exact List.mem_append_left _ hg
    · dsimp only
      rw [hkeys]
      simp
    · intro g hg
      dsimp only at hg ⊢
      rw [hkeys, List.mem_append, List.mem_singleton] at hg
      rcases hg with hg | rfl
      · exact .inl hg
      · exact .inr List.mem_cons_self
    · intro g hg
      exact List.mem_cons_of_mem _ hg
    · dsimp only
      have h1 : (Finset.range (2 * T.size)).filter (fun g => g ∉ s.t.keys) =
          insert (T.face (neg f)) ((Finset.range (2 * T.size)).filter (fun g => g ∉ (s.t.set (T.face (neg f)) (some (neg f))).keys)) := by
        ext g
        rw [hkeys]
        simp only [Finset.mem_filter, Finset.mem_range, Finset.mem_insert, List.mem_append, List.mem_singleton, not_or]
        constructor
        · rintro ⟨h1, h2⟩
          by_cases hg : g = T.face (neg f)
          · exact .inl hg
          · exact .inr ⟨h1, h2, hg⟩
        · rintro (rfl | ⟨h1, h2, -⟩)
          · exact ⟨hT.face_lt hnl, hnk⟩
          · exact ⟨h1, h2⟩
      rw [h1, Finset.card_insert_of_notMem (by rw [hkeys]; simp)]
      simp only [List.length_cons]
      omega
  · rw [if_neg hn]
    rw [Bool.not_eq_false] at hn
    exact ⟨h, fun g hg => hg, (Dict.has_iff _ _).1 hn, fun g hg => .inl hg, fun g hg => hg, le_refl _⟩

theorem search_spec (hT : T.Valid) (fuel : ℕ) {s : Search} (h : SInv T root s) (hc : ∀ g ∈ s.t.keys, g ∈ s.todo ∨ Closed T s g) :
    (∃ s', T.search fuel s = .ok s' ∧ SInv T root s' ∧ ∀ g ∈ s'.t.keys, Closed T s' g) ∨
    (T.search fuel s = .error .outOfFuel ∧ fuel ≤ s.todo.length + ((Finset.range (2 * T.size)).filter (fun g => g ∉ s.t.keys)).card) := by
  induction fuel generalizing s with
  | zero => exact .inr ⟨rfl, Nat.zero_le _⟩
  | succ k ih =>
    obtain ⟨t, todo, edges⟩ := s
    cases todo with
    | nil =>
      refine .inl ⟨_, rfl, h, fun g hg => ?_⟩
      rcases hc g hg with h1 | h1
      · cases h1
      · exact h1
    | cons f todo =>
      obtain ⟨hf1, hf2, hf3⟩ := h.todo f List.mem_cons_self
      dsimp only at hf1
      have h0 : SInv T root ⟨t, todo, edges⟩ := ⟨h.keys, h.values, h.grow, fun g hg => h.todo g (List.mem_cons_of_mem _ hg)⟩
      have g1 := hT.lt f hf2
      have g2 := hT.lt _ g1
      have e1 : T.face (T.next f) = f := by rw [hT.face_next hf2, hf3]
      have e2 : T.face (T.next (T.next f)) = f := by rw [hT.face_next g1, e1]
      obtain ⟨a1, a2, a3, a4, a5, a6⟩ := visit_inv hT hf2 (by rw [hf3]; exact hf1) h0
      obtain ⟨b1, b2, b3, b4, b5, b6⟩ := visit_inv hT g1 (by rw [e1]; exact a2 _ hf1) a1
      obtain ⟨c1, c2, c3, c4, c5, c6⟩ := visit_inv hT g2 (by rw [e2]; exact b2 _ (a2 _ hf1)) b1
      have hs : T.search (k + 1) ⟨t, f :: todo, edges⟩ = T.search k (T.visit (T.next (T.next f)) (T.visit (T.next f) (T.visit f ⟨t, todo, edges⟩))) := rfl
      rw [hs]
      rcases ih c1 (fun g hg => by
        by_cases hgf : g = f
        · subst hgf
          right
          intro x hx hxg
          rcases hT.face_eq hf2 hx (hf3.trans hxg.symm) with rfl | rfl | rfl
          · exact c2 _ (b2 _ a3)
          · exact c2 _ b3
          · exact c3
        · rcases c4 g hg with hg | hg
          · rcases b4 g hg with hg | hg
            · rcases a4 g hg with hg | hg
              · rcases hc g hg with hg | hg
                · rcases List.mem_cons.1 hg with hg | hg
                  · exact absurd hg hgf
                  · exact .inl (c5 _ (b5 _ (a5 _ hg)))
                · right
                  intro x hx hxg
                  exact c2 _ (b2 _ (a2 _ (hg x hx hxg)))
              · exact .inl (c5 _ (b5 _ hg))
            · exact .inl (c5 _ hg)
          · exact .inl hg) with h1 | ⟨h1, h2⟩
      · exact .inl h1
      · refine .inr ⟨h1, ?_⟩
        simp only [List.length_cons] at a6 ⊢
        try dsimp only at a6 ⊢
        omega

/-! ### The reduction -/

/-- The boundary of the face of a half-edge. -/
def bd (T : FlatTri) (h : ℕ) : ℕ → ℤ := fun k => sgn h * (if edge h = k then 1 else 0) + sgn (T.next h) * (if edge (T.next h) = k then 1 else 0) +
  sgn (T.next (T.next h)) * (if edge (T.next (T.next h)) = k then 1 else 0)

/-- The edge of a half-edge in a list is not one of the edges at a later face. -/
theorem grow_edge (hT : T.Valid) {f h : ℕ} {fs : List ℕ} (hg : Grow T root fs) (hf : T.face f ∉ root :: fs.map T.face) (hh : T.face h = T.face f) {f' : ℕ} (hf' : f' ∈ fs) :
    edge h ≠ edge f' := by
  induction fs with
  | nil => cases hf'
  | cons x fs ih =>
    obtain ⟨h1, h2, h3, h4⟩ := hg
    simp only [List.map_cons, List.mem_cons, not_or] at hf
    rcases List.mem_cons.1 hf' with rfl | hf'
    · intro he
      rcases edge_eq he with he | he
      · rw [he] at hh
        exact hf.2.1 hh.symm
      · rw [he] at hh
        rw [hh, List.mem_cons] at h3
        tauto
    · exact ih h4 (by simp only [List.mem_cons, not_or]; tauto) hf'

theorem grow_self {f h : ℕ} {fs : List ℕ} (hg : Grow T root (f :: fs)) (hh : T.face h = T.face f) (hne : h ≠ f) : edge h ≠ edge f := by
  intro he
  obtain ⟨h1, h2, h3, h4⟩ := hg
  rcases edge_eq he with he | he
  · exact hne he
  · rw [← he, hh] at h3
    exact h2 h3

/-- The linear combination of rows for the boundary of a face. -/
def rowSum (T : FlatTri) (proj : Rows) (h : ℕ) : ℕ → ℤ := fun k => sgn h * proj (edge h) k + sgn (T.next h) * proj (edge (T.next h)) k +
  sgn (T.next (T.next h)) * proj (edge (T.next (T.next h))) k

/-- What is known during the reduction: `fs` are the half-edges that are left, `done` the ones that have been treated, `tree` all of them. -/
structure RInv (T : FlatTri) (tree done fs : List ℕ) (proj : Rows) : Prop where
  left : ∀ f ∈ fs, ∀ k, proj (edge f) k = if edge f = k then 1 else 0
  other : ∀ i, (∀ f ∈ tree, i ≠ edge f) → ∀ k, proj i k = if i = k then 1 else 0
  zero : ∀ i, (∀ f ∈ fs, i ≠ edge f) → ∀ f ∈ tree, proj i (edge f) = 0
  sum : ∀ f ∈ done, f < 2 * T.size ∧ (∀ k, rowSum T proj f k = 0) ∧ ∀ h, h < 2 * T.size → T.face h = T.face f → ∀ f' ∈ fs, edge h ≠ edge f'
  span : ∀ i, (fun k => proj i k - if i = k then 1 else 0) ∈ Submodule.span ℤ {v | ∃ h, h < 2 * T.size ∧ v = bd T h}

theorem reduceRows_spec (hT : T.Valid) {tree : List ℕ} : ∀ (fs done : List ℕ) (proj : Rows), Grow T root fs → (∀ f ∈ fs, f ∈ tree) → RInv T tree done fs proj →
    ∃ proj', T.reduceRows fs proj = .ok proj' ∧ RInv T tree (fs.reverse ++ done) [] proj' := by
  intro fs
  induction fs with
  | nil => intro done proj _ _ h; exact ⟨proj, rfl, by simpa using h⟩
  | cons f fs ih =>
    intro done proj hg htree h
    have hg' := hg
    obtain ⟨hf1, hf2, hf3, hf4⟩ := hg'
    have g1 := hT.lt f hf1
    have g2 := hT.lt _ g1
    have e1 : T.face (T.next f) = T.face f := hT.face_next hf1
    have e2 : T.face (T.next (T.next f)) = T.face f := by rw [hT.face_next g1, e1]
    have n1 : T.next f ≠ f := hT.ne f hf1
    have n2 : T.next (T.next f) ≠ f := fun hc => by
      have := hT.three f hf1
      rw [hc] at this
      exact n1 this
    have d1 := grow_self hg e1 n1
    have d2 := grow_self hg e2 n2
    have d0' := fun f' (hf' : f' ∈ fs) => grow_edge hT hf4 hf2 (h := f) rfl hf'
    have d1' := fun f' (hf' : f' ∈ fs) => grow_edge hT hf4 hf2 e1 hf'
    have d2' := fun f' (hf' : f' ∈ fs) => grow_edge hT hf4 hf2 e2 hf'
    have hft : f ∈ tree := htree f List.mem_cons_self
    let row : ℕ → ℤ := fun k => -sgn f * (sgn (T.next f) * proj (edge (T.next f)) k + sgn (T.next (T.next f)) * proj (edge (T.next (T.next f))) k)
    have z1 := h.zero (edge (T.next f)) (fun f' hf' => by
      rcases List.mem_cons.1 hf' with rfl | hf'
      · exact d1
      · exact d1' f' hf')
    have z2 := h.zero (edge (T.next (T.next f))) (fun f' hf' => by
      rcases List.mem_cons.1 hf' with rfl | hf'
      · exact d2
      · exact d2' f' hf')
    have hrow : ∀ f' ∈ tree, row (edge f') = 0 := fun f' hf' => by simp only [row, z1 f' hf', z2 f' hf']; ring
    have hnew : RInv T tree (f :: done) fs (Function.update proj (edge f) row) := by
      refine ⟨?_, ?_, ?_, ?_, ?_⟩
      · intro f' hf' k
        rw [Function.update_of_ne (Ne.symm (d0' f' hf'))]
        exact h.left f' (List.mem_cons_of_mem _ hf') k
      · intro i hi k
        rw [Function.update_of_ne (hi f hft)]
        exact h.other i hi k
      · intro i hi f' hf'
        by_cases hif : i = edge f
        · subst hif
          rw [Function.update_self]
          exact hrow f' hf'
        · rw [Function.update_of_ne hif]
          refine h.zero i (fun f'' hf'' => ?_) f' hf'
          rcases List.mem_cons.1 hf'' with rfl | hf''
          · exact hif
          · exact hi f'' hf''
      · intro f' hf'
        rcases List.mem_cons.1 hf' with rfl | hf'
        · refine ⟨hf1, fun k => ?_, fun x hx hxf f'' hf'' => grow_edge hT hf4 hf2 hxf hf''⟩
          simp only [rowSum, Function.update_self, Function.update_of_ne d1, Function.update_of_ne d2, row]
          have := sgn_mul_self f'
          linear_combination (-(sgn (T.next f') * proj (edge (T.next f')) k + sgn (T.next (T.next f')) * proj (edge (T.next (T.next f'))) k)) * this
        · obtain ⟨hlt, h1, h2⟩ := h.sum f' hf'
          refine ⟨hlt, fun k => ?_, fun x hx hxf f'' hf'' => h2 x hx hxf f'' (List.mem_cons_of_mem _ hf'')⟩
          have := h1 k
          have k1 := hT.lt f' hlt
          have k2 := hT.lt _ k1
          have l0 := h2 f' hlt rfl f List.mem_cons_self
          have l1 := h2 _ k1 (hT.face_next hlt) f List.mem_cons_self
          have l2 := h2 _ k2 (by rw [hT.face_next k1, hT.face_next hlt]) f List.mem_cons_self
          simpa only [rowSum, Function.update_of_ne l0, Function.update_of_ne l1, Function.update_of_ne l2] using this
      · intro i
        by_cases hif : i = edge f
        · subst hif
          have s1 := h.span (edge (T.next f))
          have s2 := h.span (edge (T.next (T.next f)))
          have s3 : bd T f ∈ Submodule.span ℤ {v | ∃ h, h < 2 * T.size ∧ v = bd T h} := Submodule.subset_span ⟨f, hf1, rfl⟩
          have s4 := Submodule.add_mem _ (Submodule.smul_mem _ (-sgn f) s3)
            (Submodule.add_mem _ (Submodule.smul_mem _ (-sgn f * sgn (T.next f)) s1) (Submodule.smul_mem _ (-sgn f * sgn (T.next (T.next f))) s2))
          convert s4 using 1
          funext k
          simp only [Function.update_self, row, bd, Pi.add_apply, Pi.smul_apply, smul_eq_mul]
          have := sgn_mul_self f
          linear_combination (if edge f = k then (1 : ℤ) else 0) * this
        · simp only [Function.update_of_ne hif]
          exact h.span i
    have hstep : T.reduceRow proj f = .ok (Function.update proj (edge f) row) := by
      unfold reduceRow
      dsimp only
      rw [if_neg (by rw [hT.three f hf1]; simp), if_pos]
      rw [List.all_eq_true]
      intro j _
      rw [decide_eq_true_eq]
      by_cases hj : ∃ f' ∈ fs, j = edge f'
      · obtain ⟨f', hf', rfl⟩ := hj
        rw [hnew.left f' hf', if_neg (Ne.symm (d0' f' hf'))]
      · exact hnew.zero j (fun f' hf' hc => hj ⟨f', hf', hc⟩) f hft
    obtain ⟨proj', hp, hr⟩ := ih (f :: done) _ hf4 (fun f' hf' => htree f' (List.mem_cons_of_mem _ hf')) hnew
    refine ⟨proj', ?_, by simpa using hr⟩
    simp only [reduceRows, hstep, bind, Except.bind]
    exact hp

end
end FlatTri
end Flat
