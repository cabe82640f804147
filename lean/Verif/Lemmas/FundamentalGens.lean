import Verif.Model.FundamentalGens
import Verif.Lemmas.WalkHomotopy
import Verif.Lemmas.Dict

/-!
# The spanning tree and the invariant of the loop of `gens`
-/

namespace Flat
namespace FPath
open RSurf
variable {L K : Type} [LinearOrder L] [Field K] [LinearOrder K] [IsStrictOrderedRing K]

/-- The walk from a polygon to the root of the tree. -/
def ClimbIs (tree : Tree L) : L → List (Letter L) → Prop
  | p, [] => tree.get p = some none
  | p, x :: c => x.1 = p ∧ tree.get p = some (some (x.2.2.2, x.2.1, x.2.2.1)) ∧ ClimbIs tree x.2.2.2 c

theorem climbIs_unique {tree : Tree L} {p : L} {c c' : List (Letter L)} (h : ClimbIs tree p c) (h' : ClimbIs tree p c') : c = c' := by
  induction c generalizing p c' with
  | nil =>
    cases c' with
    | nil => rfl
    | cons x c' =>
      have := h'.2.1
      rw [show tree.get p = some none from h] at this
      cases this
  | cons x c ih =>
    cases c' with
    | nil =>
      have := h.2.1
      rw [show tree.get p = some none from h'] at this
      cases this
    | cons y c' =>
      obtain ⟨h1, h2, h3⟩ := h
      obtain ⟨h1', h2', h3'⟩ := h'
      rw [h2] at h2'
      simp only [Option.some.injEq, Prod.mk.injEq] at h2'
      have hxy : x = y := Prod.ext (h1.trans h1'.symm) (Prod.ext h2'.2.1 (Prod.ext h2'.2.2 h2'.1))
      subst hxy
      rw [ih h3 h3']

theorem climbIs_set {tree : Tree L} {k p : L} {c : List (Letter L)} (v : Option (L × ℕ × ℕ)) (hk : tree.get k = none) (h : ClimbIs tree p c) :
    ClimbIs (tree.set k v) p c := by
  induction c generalizing p with
  | nil =>
    have h : tree.get p = some none := h
    have : p ≠ k := by rintro rfl; rw [hk] at h; cases h
    change (tree.set k v).get p = some none
    rw [Dict.get_set, if_neg this, h]
  | cons x c ih =>
    obtain ⟨h1, h2, h3⟩ := h
    have : p ≠ k := by rintro rfl; rw [hk] at h2; cases h2
    exact ⟨h1, by rw [Dict.get_set, if_neg this, h2], ih h3⟩

theorem climb_ok {tree : Tree L} {p : L} {c : List (Letter L)} (h : ClimbIs tree p c) {fuel : ℕ} (hf : c.length < fuel) :
    climb tree fuel p = .ok (c.map (fun x => x.2.2.2), c.map (fun x => x.2.1), c.map (fun x => x.2.2.1)) := by
  induction fuel generalizing p c with
  | zero => cases hf
  | succ k ih =>
    cases c with
    | nil =>
      have h : tree.get p = some none := h
      simp [climb, h]
    | cons x c =>
      obtain ⟨h1, h2, h3⟩ := h
      have := ih h3 (by simpa using hf)
      simp only [climb, h2, this, bind, Except.bind, pure, Except.pure, List.map_cons]

/-- A polygon is below another one in the tree. -/
def TreeEdge (tree : Tree L) (p : L) (e : ℕ) (q : L) (f : ℕ) : Prop := tree.get p = some (some (q, e, f))

/-- The path that goes down the tree, crosses an edge, and goes up the tree. -/
def GenOf (S : RSurf L K) (b : L) (tree : Tree L) (g : FPath L) (x : L × ℕ) : Prop := ∃ (q : L) (f : ℕ) (c c' : List (Letter L)), S.opp x.1 x.2 = .ok (some (q, f)) ∧
  ClimbIs tree q c ∧ ClimbIs tree x.1 c' ∧ g = toPath b (winv c ++ (q, f, x.2, x.1) :: c')

/-- What is known about the tree. -/
structure TInv (S : RSurf L K) (valid : L → Prop) (b : L) (tree : Tree L) : Prop where
  root : tree.get b = some none
  only : ∀ p, tree.get p = some none → p = b
  ok : ∀ p e q f, TreeEdge tree p e q f → S.IsDart valid (p, e) ∧ S.opp p e = .ok (some (q, f)) ∧ tree.has q = true
  climb : ∀ p, tree.has p = true → ∃ c, ClimbIs tree p c ∧ c.length < tree.length
  val : ∀ p, tree.has p = true → valid p

section
variable {S : RSurf L K} {valid : L → Prop} {b : L} {tree : Tree L}

theorem TInv.walk (h : TInv S valid b tree) {p : L} {c : List (Letter L)} (hc : ClimbIs tree p c) : Walk S valid p c b := by
  induction c generalizing p with
  | nil => exact h.only p hc
  | cons x c ih =>
    obtain ⟨h1, h2, h3⟩ := hc
    subst h1
    obtain ⟨h4, h5, -⟩ := h.ok _ _ _ _ h2
    exact ⟨rfl, h4, h5, ih h3⟩

theorem genOf_walk (hS : S.Bordered valid) (h : TInv S valid b tree) {p q : L} {e f : ℕ} {c c' : List (Letter L)} (hd : S.IsDart valid (p, e))
    (ho : S.opp p e = .ok (some (q, f))) (hc : ClimbIs tree q c) (hc' : ClimbIs tree p c') : Walk S valid b (winv c ++ (q, f, e, p) :: c') b := by
  obtain ⟨h1, h2⟩ := hS.opp_symm (d := (p, e)) hd ho
  exact walk_append.2 ⟨q, (h.walk hc).inv hS, rfl, h1, h2, h.walk hc'⟩

theorem treeCycle_ok (hS : S.Bordered valid) (h : TInv S valid b tree) {p q : L} {e f : ℕ} (hd : S.IsDart valid (p, e))
    (ho : S.opp p e = .ok (some (q, f))) (hp : tree.has p = true) (hq : tree.has q = true) : ∃ g, treeCycle tree q f p e = .ok g ∧ GenOf S b tree g (p, e) := by
  obtain ⟨c, hc, hcl⟩ := h.climb q hq
  obtain ⟨c', hc', hcl'⟩ := h.climb p hp
  refine ⟨_, ?_, q, f, c, c', ho, hc, hc', rfl⟩
  simp only [treeCycle, climb_ok hc hcl, climb_ok hc' hcl', bind, Except.bind, pure, Except.pure]
  have h1 := toPath_reverse (h.walk hc)
  simp only [toPath, FPath.mk.injEq] at h1
  obtain ⟨h2, h3, h4⟩ := h1
  simp only [toPath, winv, List.map_append, List.map_cons, Except.ok.injEq, FPath.mk.injEq]
  refine ⟨?_, ?_, ?_⟩
  · rw [h2]; simp
  · rw [h3]
  · rw [h4]

theorem waitFor_ok {p : L} (es : List ℕ) (h : ∀ e ∈ es, ∃ c, S.opp p e = .ok (some c)) : ∃ r, waitFor S p es = .ok r ∧
    (∀ x ∈ r, x.2.2.1 = p ∧ x.2.2.2 ∈ es ∧ S.opp p x.2.2.2 = .ok (some (x.1, x.2.1))) ∧ (∀ e ∈ es, ∀ c, S.opp p e = .ok (some c) → (c.1, c.2, p, e) ∈ r) ∧
    r.map (fun x => x.2.2.2) = es := by
  induction es with
  | nil => exact ⟨[], rfl, by simp, by simp, rfl⟩
  | cons e es ih =>
    obtain ⟨r, h1, h2, h3, h4⟩ := ih (fun e he => h e (List.mem_cons_of_mem _ he))
    obtain ⟨c, hc⟩ := h e List.mem_cons_self
    refine ⟨(c.1, c.2, p, e) :: r, ?_, ?_, ?_, by simp [h4]⟩
    · simp only [waitFor, opp!_ok hc, h1, bind, Except.bind, pure, Except.pure]
    · intro x hx
      rcases List.mem_cons.1 hx with rfl | hx
      · exact ⟨rfl, List.mem_cons_self, hc⟩
      · exact ⟨(h2 x hx).1, List.mem_cons_of_mem _ (h2 x hx).2.1, (h2 x hx).2.2⟩
    · intro e' he' c' hc'
      rcases List.mem_cons.1 he' with rfl | he'
      · rw [hc] at hc'
        simp only [Except.ok.injEq, Option.some.injEq] at hc'
        subst hc'
        exact List.mem_cons_self
      · exact List.mem_cons_of_mem _ (h3 e' he' c' hc')

/-- What is known in the loop; `X` are the edges that have given rise to a path. -/
structure GInv (S : RSurf L K) (valid : L → Prop) (b : L) (tree : Tree L) (basis : List (FPath L)) (wait : List (Waiting L)) (X : List (L × ℕ)) : Prop where
  tinv : TInv S valid b tree
  wait_ok : ∀ x ∈ wait, tree.has x.2.2.1 = true ∧ S.IsDart valid (x.2.2.1, x.2.2.2) ∧ S.opp x.2.2.1 x.2.2.2 = .ok (some (x.1, x.2.1))
  cover : ∀ p e q f, tree.has p = true → S.IsDart valid (p, e) → S.opp p e = .ok (some (q, f)) → (q, f, p, e) ∈ wait ∨ TreeEdge tree p e q f ∨ TreeEdge tree q f p e ∨
    (tree.has q = true ∧ (pairGt q f p e = false → (p, e) ∈ X))
  cyc : List.Forall₂ (GenOf S b tree) basis X
  xnodup : X.Nodup
  wnodup : wait.Nodup
  xwait : ∀ x ∈ wait, (x.2.2.1, x.2.2.2) ∉ X
  xtree : ∀ x ∈ X, tree.has x.1 = true ∧ S.IsDart valid x ∧ ∀ q f, S.opp x.1 x.2 = .ok (some (q, f)) →
    tree.has q = true ∧ pairGt q f x.1 x.2 = false ∧ ¬ TreeEdge tree x.1 x.2 q f ∧ ¬ TreeEdge tree q f x.1 x.2
  wtree : ∀ x ∈ wait, ¬ TreeEdge tree x.2.2.1 x.2.2.2 x.1 x.2.1 ∧ ¬ TreeEdge tree x.1 x.2.1 x.2.2.1 x.2.2.2

variable {basis : List (FPath L)} {wait : List (Waiting L)} {X : List (L × ℕ)} {p1 p2 : L} {e1 e2 : ℕ}

theorem GInv.skip (h : GInv S valid b tree basis ((p1, e1, p2, e2) :: wait) X) (h1 : tree.has p1 = true) (h2 : pairGt p1 e1 p2 e2 = true) :
    GInv S valid b tree basis wait X where
  tinv := h.tinv
  wait_ok x hx := h.wait_ok x (List.mem_cons_of_mem _ hx)
  cover p e q f hp hd ho := by
    rcases h.cover p e q f hp hd ho with h3 | h3 | h3 | h3
    · rcases List.mem_cons.1 h3 with h3 | h3
      · simp only [Prod.mk.injEq] at h3
        obtain ⟨rfl, rfl, rfl, rfl⟩ := h3
        exact .inr (.inr (.inr ⟨h1, fun h4 => by rw [h2] at h4; cases h4⟩))
      · exact .inl h3
    · exact .inr (.inl h3)
    · exact .inr (.inr (.inl h3))
    · exact .inr (.inr (.inr h3))
  cyc := h.cyc
  xnodup := h.xnodup
  wnodup := (List.nodup_cons.1 h.wnodup).2
  xwait x hx := h.xwait x (List.mem_cons_of_mem _ hx)
  xtree := h.xtree
  wtree x hx := h.wtree x (List.mem_cons_of_mem _ hx)

theorem GInv.cycle {g : FPath L} (h : GInv S valid b tree basis ((p1, e1, p2, e2) :: wait) X) (h1 : tree.has p1 = true) (h2 : pairGt p1 e1 p2 e2 = false)
    (hg : GenOf S b tree g (p2, e2)) : GInv S valid b tree (basis ++ [g]) wait (X ++ [(p2, e2)]) := by
  obtain ⟨hw1, hw2, hw3⟩ := h.wait_ok _ List.mem_cons_self
  dsimp only at hw1 hw2 hw3
  exact {
    tinv := h.tinv
    wait_ok := fun x hx => h.wait_ok x (List.mem_cons_of_mem _ hx)
    cover := by
      intro p e q f hp hd ho
      rcases h.cover p e q f hp hd ho with h3 | h3 | h3 | h3
      · rcases List.mem_cons.1 h3 with h3 | h3
        · simp only [Prod.mk.injEq] at h3
          obtain ⟨rfl, rfl, rfl, rfl⟩ := h3
          exact .inr (.inr (.inr ⟨h1, fun h4 => by simp⟩))
        · exact .inl h3
      · exact .inr (.inl h3)
      · exact .inr (.inr (.inl h3))
      · exact .inr (.inr (.inr ⟨h3.1, fun h4 => List.mem_append_left _ (h3.2 h4)⟩))
    cyc := List.rel_append h.cyc (.cons hg .nil)
    xnodup := by
      have := h.xwait _ List.mem_cons_self
      rw [List.nodup_append]
      refine ⟨h.xnodup, by simp, ?_⟩
      intro a ha c hc hac
      rw [List.mem_singleton] at hc
      subst hac hc
      exact this ha
    wnodup := (List.nodup_cons.1 h.wnodup).2
    xwait := by
      intro x hx hX
      rcases List.mem_append.1 hX with hX | hX
      · exact h.xwait x (List.mem_cons_of_mem _ hx) hX
      · rw [List.mem_singleton, Prod.mk.injEq] at hX
        obtain ⟨-, -, h5⟩ := h.wait_ok x (List.mem_cons_of_mem _ hx)
        rw [hX.1, hX.2, hw3] at h5
        simp only [Except.ok.injEq, Option.some.injEq, Prod.mk.injEq] at h5
        have : x = (p1, e1, p2, e2) := Prod.ext h5.1.symm (Prod.ext h5.2.symm (Prod.ext hX.1 hX.2))
        subst this
        exact (List.nodup_cons.1 h.wnodup).1 hx
    xtree := by
      intro x hx
      rcases List.mem_append.1 hx with hx | hx
      · exact h.xtree x hx
      · rw [List.mem_singleton] at hx
        subst hx
        refine ⟨hw1, hw2, fun q f ho => ?_⟩
        dsimp only at ho ⊢
        rw [hw3] at ho
        simp only [Except.ok.injEq, Option.some.injEq, Prod.mk.injEq] at ho
        obtain ⟨rfl, rfl⟩ := ho
        exact ⟨h1, h2, h.wtree _ List.mem_cons_self⟩
    wtree := fun x hx => h.wtree x (List.mem_cons_of_mem _ hx) }

theorem GInv.branch {new : List (Waiting L)} {P : Poly K} (hS : S.Bordered valid) (h : GInv S valid b tree basis ((p1, e1, p2, e2) :: wait) X) (h1 : tree.has p1 = false)
    (hP : S.polygon p1 = .ok P)
    (hn1 : ∀ x ∈ new, x.2.2.1 = p1 ∧ (x.2.2.2 < P.length ∧ x.2.2.2 ≠ e1) ∧ S.opp p1 x.2.2.2 = .ok (some (x.1, x.2.1)))
    (hn2 : ∀ e, e < P.length → e ≠ e1 → ∀ c, S.opp p1 e = .ok (some c) → (c.1, c.2, p1, e) ∈ new) (hn3 : new.Nodup) :
    GInv S valid b (tree.set p1 (some (p2, e1, e2))) basis (new.reverse ++ wait) X := by
  obtain ⟨hw1, hw2, hw3⟩ := h.wait_ok _ List.mem_cons_self
  dsimp only at hw1 hw2 hw3
  obtain ⟨hd1, ho1⟩ := hS.opp_symm (d := (p2, e2)) hw2 hw3
  dsimp only at ho1
  have hnone : tree.get p1 = none := by simpa [Dict.has] using h1
  have hhas : ∀ p, tree.has p = true → p ≠ p1 := by
    rintro p hp rfl
    rw [h1] at hp
    cases hp
  have hget : ∀ p, p ≠ p1 → (tree.set p1 (some (p2, e1, e2))).get p = tree.get p := fun p hp => by rw [Dict.get_set, if_neg hp]
  have hself : (tree.set p1 (some (p2, e1, e2))).get p1 = some (some (p2, e1, e2)) := by rw [Dict.get_set, if_pos rfl]
  have hmono : ∀ p, tree.has p = true → (tree.set p1 (some (p2, e1, e2))).has p = true := fun p hp => by
    unfold Dict.has
    rw [hget p (hhas p hp)]
    exact hp
  have hinv : ∀ p, (tree.set p1 (some (p2, e1, e2))).has p = true → p = p1 ∨ tree.has p = true := fun p hp => by
    by_cases hpp : p = p1
    · exact .inl hpp
    · unfold Dict.has at hp ⊢
      rw [hget p hpp] at hp
      exact .inr hp
  have hlen : (tree.set p1 (some (p2, e1, e2))).length = tree.length + 1 := by
    have := congrArg List.length (Dict.keys_set tree p1 (some (p2, e1, e2)))
    rw [if_neg ((Dict.get_eq_none_iff _ _).1 hnone)] at this
    simpa [Dict.keys] using this
  have hedge : ∀ p e q f, TreeEdge (tree.set p1 (some (p2, e1, e2))) p e q f → (p = p1 ∧ e = e1 ∧ q = p2 ∧ f = e2) ∨ (p ≠ p1 ∧ TreeEdge tree p e q f) := by
    intro p e q f hT
    unfold TreeEdge at hT
    by_cases hpp : p = p1
    · subst hpp
      rw [hself] at hT
      simp only [Option.some.injEq, Prod.mk.injEq] at hT
      exact .inl ⟨rfl, hT.2.1.symm, hT.1.symm, hT.2.2.symm⟩
    · rw [hget p hpp] at hT
      exact .inr ⟨hpp, hT⟩
  have hedge' : ∀ p e q f, TreeEdge tree p e q f → TreeEdge (tree.set p1 (some (p2, e1, e2))) p e q f := by
    intro p e q f hT
    unfold TreeEdge at hT ⊢
    rw [hget p, hT]
    rintro rfl
    rw [hnone] at hT
    cases hT
  exact {
    tinv := {
      root := by
        rw [hget b, h.tinv.root]
        rintro rfl
        rw [h.tinv.root] at hnone
        cases hnone
      only := by
        intro p hp
        by_cases hpp : p = p1
        · subst hpp
          rw [hself] at hp
          cases hp
        · rw [hget p hpp] at hp
          exact h.tinv.only p hp
      ok := by
        intro p e q f hT
        rcases hedge p e q f hT with ⟨rfl, rfl, rfl, rfl⟩ | ⟨-, hT⟩
        · exact ⟨hd1, ho1, hmono _ hw1⟩
        · obtain ⟨h3, h4, h5⟩ := h.tinv.ok p e q f hT
          exact ⟨h3, h4, hmono _ h5⟩
      climb := by
        intro p hp
        rw [hlen]
        rcases hinv p hp with rfl | hp
        · obtain ⟨c, hc, hcl⟩ := h.tinv.climb p2 hw1
          exact ⟨(p, e1, e2, p2) :: c, ⟨rfl, hself, climbIs_set _ hnone hc⟩, by simpa using hcl⟩
        · obtain ⟨c, hc, hcl⟩ := h.tinv.climb p hp
          exact ⟨c, climbIs_set _ hnone hc, by omega⟩
      val := by
        intro p hp
        rcases hinv p hp with rfl | hp
        · exact hd1.1
        · exact h.tinv.val p hp }
    wait_ok := by
      intro x hx
      rcases List.mem_append.1 hx with hx | hx
      · obtain ⟨h3, h4, h5⟩ := hn1 x (List.mem_reverse.1 hx)
        rw [h3]
        exact ⟨by unfold Dict.has; rw [hself]; rfl, ⟨hd1.1, P, hP, h4.1⟩, h5⟩
      · obtain ⟨h3, h4, h5⟩ := h.wait_ok x (List.mem_cons_of_mem _ hx)
        exact ⟨hmono _ h3, h4, h5⟩
    cover := by
      intro p e q f hp hd ho
      rcases hinv p hp with rfl | hp
      · by_cases he : e = e1
        · subst he
          rw [ho1] at ho
          simp only [Except.ok.injEq, Option.some.injEq, Prod.mk.injEq] at ho
          obtain ⟨rfl, rfl⟩ := ho
          exact .inr (.inl hself)
        · obtain ⟨-, P', hP', heP⟩ := hd
          dsimp only at hP' heP
          rw [hP] at hP'
          injection hP' with hP'
          subst hP'
          exact .inl (List.mem_append_left _ (List.mem_reverse.2 (hn2 e heP he _ ho)))
      · rcases h.cover p e q f hp hd ho with h3 | h3 | h3 | h3
        · rcases List.mem_cons.1 h3 with h3 | h3
          · simp only [Prod.mk.injEq] at h3
            obtain ⟨rfl, rfl, rfl, rfl⟩ := h3
            exact .inr (.inr (.inl hself))
          · exact .inl (List.mem_append_right _ h3)
        · exact .inr (.inl (hedge' _ _ _ _ h3))
        · exact .inr (.inr (.inl (hedge' _ _ _ _ h3)))
        · exact .inr (.inr (.inr ⟨hmono _ h3.1, h3.2⟩))
    cyc := by
      refine h.cyc.imp ?_
      rintro g x ⟨q, f, c, c', h3, h4, h5, h6⟩
      exact ⟨q, f, c, c', h3, climbIs_set _ hnone h4, climbIs_set _ hnone h5, h6⟩
    xnodup := h.xnodup
    wnodup := by
      rw [List.nodup_append]
      refine ⟨List.nodup_reverse.2 hn3, (List.nodup_cons.1 h.wnodup).2, ?_⟩
      rintro x hx y hy rfl
      have h3 := (hn1 x (List.mem_reverse.1 hx)).1
      have h4 := (h.wait_ok x (List.mem_cons_of_mem _ hy)).1
      exact hhas _ h4 h3
    xwait := by
      intro x hx hX
      rcases List.mem_append.1 hx with hx | hx
      · exact hhas _ (h.xtree _ hX).1 (hn1 x (List.mem_reverse.1 hx)).1
      · exact h.xwait x (List.mem_cons_of_mem _ hx) hX
    xtree := by
      intro x hx
      obtain ⟨h3, h4, h5⟩ := h.xtree x hx
      refine ⟨hmono _ h3, h4, fun q f ho => ?_⟩
      obtain ⟨h6, h7, h8, h9⟩ := h5 q f ho
      refine ⟨hmono _ h6, h7, fun hT => ?_, fun hT => ?_⟩
      · rcases hedge _ _ _ _ hT with ⟨h10, -⟩ | ⟨-, hT⟩
        · exact hhas _ h3 h10
        · exact h8 hT
      · rcases hedge _ _ _ _ hT with ⟨h10, -⟩ | ⟨-, hT⟩
        · exact hhas _ h6 h10
        · exact h9 hT
    wtree := by
      intro x hx
      rcases List.mem_append.1 hx with hx | hx
      · obtain ⟨h3, h4, h5⟩ := hn1 x (List.mem_reverse.1 hx)
        rw [h3]
        refine ⟨fun hT => ?_, fun hT => ?_⟩
        · rcases hedge _ _ _ _ hT with ⟨-, h10, -⟩ | ⟨h10, -⟩
          · exact h4.2 h10
          · exact h10 rfl
        · rcases hedge _ _ _ _ hT with ⟨-, -, h10, -⟩ | ⟨-, hT⟩
          · exact hhas _ hw1 h10.symm
          · exact hhas _ (h.tinv.ok _ _ _ _ hT).2.2 rfl
      · obtain ⟨h3, h4, h5⟩ := h.wait_ok x (List.mem_cons_of_mem _ hx)
        obtain ⟨h6, h7⟩ := h.wtree x (List.mem_cons_of_mem _ hx)
        refine ⟨fun hT => ?_, fun hT => ?_⟩
        · rcases hedge _ _ _ _ hT with ⟨h10, -⟩ | ⟨-, hT⟩
          · exact hhas _ h3 h10
          · exact h6 hT
        · rcases hedge _ _ _ _ hT with ⟨h10, h11, h12, h13⟩ | ⟨-, hT⟩
          · have : x = (p1, e1, p2, e2) := Prod.ext h10 (Prod.ext h11 (Prod.ext h12 h13))
            subst this
            exact (List.nodup_cons.1 h.wnodup).1 hx
          · exact h7 hT }

end
end FPath
end Flat
