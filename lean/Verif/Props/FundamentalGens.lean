import Verif.Lemmas.FundamentalGens
import Mathlib.Algebra.BigOperators.Group.Finset.Basic
import Mathlib.Algebra.Order.BigOperators.Group.Finset
import Mathlib.Algebra.Group.TypeTags.Basic
import Mathlib.Algebra.BigOperators.Group.List.Basic

/-!
# C90: the generators of the fundamental group
-/

namespace Flat
namespace FPath
open RSurf
variable {L K : Type} [LinearOrder L] [Field K] [LinearOrder K] [IsStrictOrderedRing K]
variable {S : RSurf L K} {valid : L → Prop} {b : L} {tree : Tree L} {basis : List (FPath L)} {wait : List (Waiting L)} {X : List (L × ℕ)}

/-- The number of edges of a polygon. -/
def sides (S : RSurf L K) (l : L) : ℕ :=
  match S.polygon l with
  | .ok P => P.length
  | .error _ => 0

theorem gensLoop_spec (hS : S.Closed valid) (fuel : ℕ) (h : GInv S valid b tree basis wait X) :
    (∃ r tree' X', gensLoop S fuel tree basis wait = .ok r ∧ GInv S valid b tree' r [] X') ∨
    (gensLoop S fuel tree basis wait = .error .outOfFuel ∧ ∀ labels : Finset L, (∀ l, valid l → l ∈ labels) →
      fuel ≤ wait.length + ∑ l ∈ labels.filter (fun l => tree.has l = false), sides S l) := by
  induction fuel generalizing tree basis wait X with
  | zero => exact .inr ⟨by cases wait <;> rfl, by simp⟩
  | succ k ih =>
    cases wait with
    | nil => exact .inl ⟨basis, tree, X, rfl, h⟩
    | cons x wait =>
      obtain ⟨p1, e1, p2, e2⟩ := x
      obtain ⟨hw1, hw2, hw3⟩ := h.wait_ok _ List.mem_cons_self
      dsimp only at hw1 hw2 hw3
      by_cases h1 : tree.has p1 = true
      · by_cases h2 : pairGt p1 e1 p2 e2 = true
        · have heq : gensLoop S (k + 1) tree basis ((p1, e1, p2, e2) :: wait) = gensLoop S k tree basis wait := by
            rw [gensLoop, if_neg (by rw [hw1]; simp), if_pos h1, if_pos h2]
          rw [heq]
          rcases ih (h.skip h1 h2) with h3 | ⟨h3, h4⟩
          · exact .inl h3
          · refine .inr ⟨h3, fun labels hl => ?_⟩
            have := h4 labels hl
            simp only [List.length_cons]
            omega
        · rw [Bool.not_eq_true] at h2
          obtain ⟨g, hg, hg'⟩ := treeCycle_ok hS.bordered h.tinv hw2 hw3 hw1 h1
          have heq : gensLoop S (k + 1) tree basis ((p1, e1, p2, e2) :: wait) = gensLoop S k tree (basis ++ [g]) wait := by
            rw [gensLoop, if_neg (by rw [hw1]; simp), if_pos h1, if_neg (by rw [h2]; simp), hg]
            rfl
          rw [heq]
          rcases ih (h.cycle h1 h2 hg') with h3 | ⟨h3, h4⟩
          · exact .inl h3
          · refine .inr ⟨h3, fun labels hl => ?_⟩
            have := h4 labels hl
            simp only [List.length_cons]
            omega
      · rw [Bool.not_eq_true] at h1
        obtain ⟨hd1, ho1⟩ := hS.bordered.opp_symm (d := (p2, e2)) hw2 hw3
        obtain ⟨hv1, P, hP, heP⟩ := hd1
        dsimp only at hv1 hP heP
        obtain ⟨new, hn, hn1, hn2, hn3⟩ := waitFor_ok (S := S) (p := p1) ((List.range P.length).filter (fun e => decide (e ≠ e1))) (fun e he => by
          rw [List.mem_filter, List.mem_range] at he
          obtain ⟨l', e', p', h3, -⟩ := hS.glue p1 P e hv1 hP he.1
          exact ⟨_, h3⟩)
        have heq : gensLoop S (k + 1) tree basis ((p1, e1, p2, e2) :: wait) =
            gensLoop S k (tree.set p1 (some (p2, e1, e2))) basis (new.reverse ++ wait) := by
          rw [gensLoop, if_neg (by rw [hw1]; simp), if_neg (by rw [h1]; simp), hP]
          simp only [bind, Except.bind]
          rw [hn]
        rw [heq]
        have hg := h.branch hS.bordered h1 hP (new := new) (fun x hx => by
            obtain ⟨h3, h4, h5⟩ := hn1 x hx
            rw [List.mem_filter, List.mem_range, decide_eq_true_eq] at h4
            exact ⟨h3, h4, h5⟩)
          (fun e he he' => hn2 e (by rw [List.mem_filter, List.mem_range, decide_eq_true_eq]; exact ⟨he, he'⟩))
          (List.Nodup.of_map (fun x => x.2.2.2) (by rw [hn3]; exact List.nodup_range.filter _))
        rcases ih hg with h3 | ⟨h3, h4⟩
        · exact .inl h3
        · refine .inr ⟨h3, fun labels hl => ?_⟩
          have h5 := h4 labels hl
          have h6 : new.length ≤ P.length := by
            have := congrArg List.length hn3
            rw [List.length_map] at this
            rw [this]
            exact (List.length_filter_le _ _).trans (by simp)
          have h7 : labels.filter (fun l => tree.has l = false) = insert p1 (labels.filter (fun l => (tree.set p1 (some (p2, e1, e2))).has l = false)) := by
            ext l
            simp only [Finset.mem_filter, Finset.mem_insert, Dict.has, Dict.get_set]
            by_cases hlp : l = p1
            · subst hlp
              simp only [true_or, iff_true]
              exact Finset.mem_filter.2 ⟨hl _ hv1, h1⟩
            · simp [hlp]
          rw [h7, Finset.sum_insert (by simp [Dict.has, Dict.get_set])]
          have h8 : sides S p1 = P.length := by simp only [sides, hP]
          rw [h8]
          simp only [List.length_append, List.length_reverse, List.length_cons] at h5 ⊢
          omega

theorem ginv_start (hS : S.Closed valid) (hb : valid b) {P : Poly K} (hP : S.polygon b = .ok P) : ∃ wait, waitFor S b (List.range P.length) = .ok wait ∧
    GInv S valid b [(b, none)] [] wait.reverse [] ∧ wait.length = P.length := by
  obtain ⟨wait, hn, hn1, hn2, hn3⟩ := waitFor_ok (S := S) (p := b) (List.range P.length) (fun e he => by
    rw [List.mem_range] at he
    obtain ⟨l', e', p', h3, -⟩ := hS.glue b P e hb hP he
    exact ⟨_, h3⟩)
  have hget : ∀ p, Dict.get ([(b, none)] : Tree L) p = if b = p then some none else none := fun p => rfl
  have hhas : ∀ p, Dict.has ([(b, none)] : Tree L) p = true → p = b := fun p hp => by
    unfold Dict.has at hp
    rw [hget] at hp
    by_contra hpb
    rw [if_neg (Ne.symm hpb)] at hp
    cases hp
  have hno : ∀ p e q f, ¬ TreeEdge ([(b, none)] : Tree L) p e q f := fun p e q f hT => by
    unfold TreeEdge at hT
    rw [hget] at hT
    split_ifs at hT
    simp at hT
  refine ⟨wait, hn, ?_, by simpa using congrArg List.length hn3⟩
  exact {
    tinv := {
      root := by rw [hget, if_pos rfl]
      only := fun p hp => by
        rw [hget] at hp
        by_contra hpb
        rw [if_neg (Ne.symm hpb)] at hp
        cases hp
      ok := fun p e q f hT => absurd hT (hno p e q f)
      climb := fun p hp => ⟨[], by rw [hhas p hp]; exact (by rw [hget, if_pos rfl] : Dict.get ([(b, none)] : Tree L) b = some none), by simp⟩
      val := fun p hp => by rw [hhas p hp]; exact hb }
    wait_ok := fun x hx => by
      obtain ⟨h3, h4, h5⟩ := hn1 x (List.mem_reverse.1 hx)
      rw [h3]
      exact ⟨by simp [Dict.has, hget], ⟨hb, P, hP, List.mem_range.1 h4⟩, h5⟩
    cover := fun p e q f hp hd ho => by
      have := hhas p hp
      subst this
      obtain ⟨-, P', hP', heP⟩ := hd
      dsimp only at hP' heP
      rw [hP] at hP'
      injection hP' with hP'
      subst hP'
      exact .inl (List.mem_reverse.2 (hn2 e (List.mem_range.2 heP) _ ho))
    cyc := .nil
    xnodup := List.nodup_nil
    wnodup := List.nodup_reverse.2 (List.Nodup.of_map (fun x => x.2.2.2) (by rw [hn3]; exact List.nodup_range))
    xwait := fun x _ => by simp
    xtree := fun x hx => by cases hx
    wtree := fun x _ => ⟨hno _ _ _ _, hno _ _ _ _⟩ }

/-! ### The paths -/

theorem genOf_isWalk (hS : S.Bordered valid) (h : GInv S valid b tree basis wait X) {g : FPath L} {x : L × ℕ} (hx : x ∈ X) (hg : GenOf S b tree g x) :
    ∃ w, g = toPath b w ∧ Walk S valid b w b := by
  obtain ⟨q, f, c, c', h1, h2, h3, rfl⟩ := hg
  exact ⟨_, rfl, genOf_walk hS h.tinv (h.xtree x hx).2.1 h1 h2 h3⟩

theorem forall₂_left {A B : Type} {R : A → B → Prop} {l : List A} {l' : List B} (h : List.Forall₂ R l l') {a : A} (ha : a ∈ l) : ∃ c ∈ l', R a c := by
  induction h with
  | nil => cases ha
  | cons h1 _ ih =>
    rcases List.mem_cons.1 ha with rfl | ha
    · exact ⟨_, List.mem_cons_self, h1⟩
    · obtain ⟨c, hc, hac⟩ := ih ha
      exact ⟨c, List.mem_cons_of_mem _ hc, hac⟩

theorem forall₂_right {A B : Type} {R : A → B → Prop} {l : List A} {l' : List B} (h : List.Forall₂ R l l') {c : B} (hc : c ∈ l') : ∃ a ∈ l, R a c := by
  induction h with
  | nil => cases hc
  | cons h1 _ ih =>
    rcases List.mem_cons.1 hc with rfl | hc
    · exact ⟨_, List.mem_cons_self, h1⟩
    · obtain ⟨a, ha, hac⟩ := ih hc
      exact ⟨a, List.mem_cons_of_mem _ ha, hac⟩

theorem forall₂_nodup {A B : Type} {R : A → B → Prop} {l : List A} {l' : List B} (h : List.Forall₂ R l l') (hn : l'.Nodup)
    (hR : ∀ a x y, x ∈ l' → y ∈ l' → R a x → R a y → x = y) : l.Nodup := by
  induction h with
  | nil => exact List.nodup_nil
  | @cons a c l l' h1 h2 ih =>
    rw [List.nodup_cons] at hn ⊢
    refine ⟨fun ha => ?_, ih hn.2 (fun a x y hx hy => hR a x y (List.mem_cons_of_mem _ hx) (List.mem_cons_of_mem _ hy))⟩
    obtain ⟨c', hc', hac⟩ := forall₂_left h2 ha
    have := hR a c c' List.mem_cons_self (List.mem_cons_of_mem _ hc') h1 hac
    subst this
    exact hn.1 hc'

theorem mapM_make (l : List (FPath L)) (h : ∀ g ∈ l, make b g = .ok g) : l.mapM (make b) = .ok l := by
  induction l with
  | nil => rfl
  | cons g l ih =>
    rw [List.mapM_cons, h g List.mem_cons_self, ih (fun g hg => h g (List.mem_cons_of_mem _ hg))]
    rfl

/-- The state of the loop at its end. -/
theorem gens_state (hS : S.Closed valid) (hb : valid b) {sort : List (FPath L) → List (FPath L)} (hs : ∀ l, (sort l).Perm l) (fuel : ℕ) :
    (∃ gs tree X basis, gens S b sort fuel = .ok gs ∧ gs.Perm basis ∧ GInv S valid b tree basis [] X) ∨
    (gens S b sort fuel = .error .outOfFuel ∧ ∀ labels : Finset L, (∀ l, valid l → l ∈ labels) → fuel ≤ ∑ l ∈ labels, sides S l) := by
  obtain ⟨P, hP, -⟩ := hS.poly b hb
  obtain ⟨wait, hw, hg, hlen⟩ := ginv_start hS hb hP
  rcases gensLoop_spec hS fuel hg with ⟨r, tree', X', h1, h2⟩ | ⟨h1, h2⟩
  · refine .inl ⟨sort r, tree', X', r, ?_, hs r, h2⟩
    simp only [gens, hP, bind, Except.bind]
    rw [hw]
    dsimp only
    rw [h1]
    dsimp only
    refine mapM_make _ (fun g hgm => ?_)
    obtain ⟨x, hx, hgx⟩ := forall₂_left h2.cyc ((hs r).mem_iff.1 hgm)
    obtain ⟨w, rfl, hw⟩ := genOf_isWalk hS.bordered h2 hx hgx
    exact make_toPath hw
  · refine .inr ⟨?_, fun labels hl => ?_⟩
    · simp only [gens, hP, bind, Except.bind]
      rw [hw]
      dsimp only
      rw [h1]
    · refine (h2 labels hl).trans ?_
      rw [List.length_reverse, hlen, ← show sides S b = P.length by simp only [sides, hP]]
      have h3 : labels.filter (fun l => Dict.has ([(b, none)] : Tree L) l = false) = labels.erase b := by
        ext l
        simp only [Finset.mem_filter, Finset.mem_erase, Dict.has, Dict.get]
        by_cases hlb : b = l
        · simp [hlb]
        · simp [hlb, Ne.symm hlb]
      rw [h3, Finset.add_sum_erase _ _ (hl b hb)]

theorem gens_ok (hS : S.Closed valid) (hb : valid b) {sort : List (FPath L) → List (FPath L)} (hs : ∀ l, (sort l).Perm l) {fuel : ℕ} {gs : List (FPath L)}
    (h : gens S b sort fuel = .ok gs) : ∃ tree X basis, gs.Perm basis ∧ GInv S valid b tree basis [] X := by
  rcases gens_state hS hb hs fuel with ⟨gs', tree, X, basis, h1, h2⟩ | ⟨h1, -⟩
  · rw [h] at h1
    injection h1 with h1
    subst h1
    exact ⟨tree, X, basis, h2⟩
  · rw [h] at h1
    cases h1

/-- **C90**. On every closed surface with finitely many polygons `gens` ends, for the number of steps that is given by the number of edges. -/
theorem C90_terminates (hS : S.Closed valid) (hb : valid b) {sort : List (FPath L) → List (FPath L)} (hs : ∀ l, (sort l).Perm l) (labels : Finset L)
    (hl : ∀ l, valid l → l ∈ labels) {fuel : ℕ} (hf : ∑ l ∈ labels, sides S l < fuel) : ∃ gs, gens S b sort fuel = .ok gs := by
  rcases gens_state hS hb hs fuel with ⟨gs, _, _, _, h1, -⟩ | ⟨-, h2⟩
  · exact ⟨gs, h1⟩
  · exact absurd (h2 labels hl) (by omega)

theorem climb_reduced (h : TInv S valid b tree) (hS : S.Bordered valid) {p : L} {c : List (Letter L)} (hc : ClimbIs tree p c) : Words.Red Letter.inv c := by
  unfold Words.Red
  induction c generalizing p with
  | nil => exact .nil
  | cons x c ih =>
    cases c with
    | nil => exact .singleton _
    | cons y c =>
      refine List.isChain_cons_cons.2 ⟨fun hxy => ?_, ih hc.2.2⟩
      obtain ⟨h1, h2, h3, h4, h5⟩ := hc
      have h6 : y.2.2.2 = p := by rw [← h1, hxy]; rfl
      rw [h6] at h5
      have h7 : ClimbIs tree p (x :: y :: c) := ⟨h1, h2, h3, h4, by rw [h6]; exact h5⟩
      have := climbIs_unique h5 h7
      have := congrArg List.length this
      simp only [List.length_cons] at this
      omega

/-- **C90**. The generators of every closed surface are closed paths at the base polygon that never cross an edge and go straight back. -/
theorem C90_closed (hS : S.Closed valid) (hb : valid b) {sort : List (FPath L) → List (FPath L)} (hs : ∀ l, (sort l).Perm l) {fuel : ℕ} {gs : List (FPath L)}
    (h : gens S b sort fuel = .ok gs) : ∀ g ∈ gs, IsPath S valid b b g ∧ Reduced g := by
  obtain ⟨tree, X, basis, hp, hi⟩ := gens_ok hS hb hs h
  intro g hg
  obtain ⟨x, hx, q, f, c, c', h1, h2, h3, rfl⟩ := forall₂_left hi.cyc (hp.mem_iff.1 hg)
  obtain ⟨hx1, hx2, hx3⟩ := hi.xtree x hx
  obtain ⟨hx4, hx5, hx6, hx7⟩ := hx3 q f h1
  have hw := genOf_walk hS.bordered hi.tinv hx2 h1 h2 h3
  refine ⟨isPath_iff.2 ⟨_, rfl, hw⟩, (reduced_iff hS.bordered hw).2 ?_⟩
  have hr := climb_reduced hi.tinv hS.bordered h2
  have hr' := climb_reduced hi.tinv hS.bordered h3
  unfold Words.Red at *
  rw [List.isChain_append]
  refine ⟨?_, ?_, ?_⟩
  · rw [winv, List.isChain_map, List.isChain_reverse]
    refine hr.imp (fun a d had hda => had ?_)
    rw [← Letter.inv_inv a, ← hda]
  · cases c' with
    | nil => exact .singleton _
    | cons y c' =>
      refine List.isChain_cons_cons.2 ⟨fun hxy => hx6 ?_, hr'⟩
      have h4 := h3.2.1
      have h5 : y = (x.1, x.2, f, q) := by rw [← Letter.inv_inv y, ← hxy]; rfl
      rw [h5] at h4
      exact h4
  · intro a ha d hd had
    simp only [List.head?_cons, Option.mem_def, Option.some.injEq] at hd
    subst hd
    cases c with
    | nil => simp [winv] at ha
    | cons y c =>
      rw [winv_cons] at ha
      simp only [List.getLast?_append, List.getLast?_singleton, Option.some_or, Option.mem_def, Option.some.injEq] at ha
      apply hx7
      have h4 := h2.2.1
      have h5 : y = (q, f, x.2, x.1) := by rw [← Letter.inv_inv y, ha, had]; rfl
      rw [h5] at h4
      exact h4

/-! ### Generation -/

theorem pairGt_total (p q : L) (e f : ℕ) : pairGt p e q f = false ∨ pairGt q f p e = false := by
  rcases lt_trichotomy p q with h | h | h
  · left; simp [pairGt, h.le, h.ne]
  · subst h
    rcases le_total e f with h | h
    · left; simp [pairGt, h]
    · right; simp [pairGt, h]
  · right; simp [pairGt, h.le, h.ne]

theorem cross_edge (hS : S.Closed valid) (hi : GInv S valid b tree basis [] X) {p q : L} {e f : ℕ} {c c' : List (Letter L)} (hp : tree.has p = true)
    (hd : S.IsDart valid (p, e)) (ho : S.opp p e = .ok (some (q, f))) (hc : ClimbIs tree p c) (hq : tree.has q = true → ClimbIs tree q c') : tree.has q = true ∧
    ∃ ws : List (List (Letter L)), (∀ w ∈ ws, Walk S valid b w b ∧ (toPath b w ∈ basis ∨ ∃ g ∈ basis, invert b g = .ok (toPath b w))) ∧
      WH S valid b b (winv c ++ (p, e, f, q) :: c') ws.flatten := by
  have hB := hS.bordered
  have hpc := hi.tinv.walk hc
  obtain ⟨hd', ho'⟩ := hB.opp_symm (d := (p, e)) hd ho
  dsimp only at ho'
  have hxy : Walk S valid p [(p, e, f, q)] q := ⟨rfl, hd, ho, rfl⟩
  have tree1 : TreeEdge tree p e q f → tree.has q = true ∧ (tree.has q = true → WH S valid b b (winv c ++ (p, e, f, q) :: c') []) := by
    intro hT
    refine ⟨(hi.tinv.ok _ _ _ _ hT).2.2, fun h => ?_⟩
    have h1 : c = (p, e, f, q) :: c' := climbIs_unique hc ⟨rfl, hT, hq h⟩
    rw [← h1]
    exact WH.cancel' hB hpc
  have tree2 : TreeEdge tree q f p e → tree.has q = true ∧ (tree.has q = true → WH S valid b b (winv c ++ (p, e, f, q) :: c') []) := by
    intro hT
    have hh : tree.has q = true := by unfold Dict.has; rw [show tree.get q = _ from hT]; rfl
    refine ⟨hh, fun h => ?_⟩
    have h1 : c' = (q, f, e, p) :: c := climbIs_unique (hq h) ⟨rfl, hT, hc⟩
    have h2 := WH.cancel hB hxy
    have h3 := (h2.append_right hpc).append_left (hpc.inv hB)
    rw [h1]
    refine WH.trans ?_ (WH.cancel' hB hpc)
    simpa [winv, Letter.inv] using h3
  have gen1 : tree.has q = true → (p, e) ∈ X → ∃ ws : List (List (Letter L)), (∀ w ∈ ws, Walk S valid b w b ∧ (toPath b w ∈ basis ∨ ∃ g ∈ basis, invert b g = .ok (toPath b w))) ∧
      WH S valid b b (winv c ++ (p, e, f, q) :: c') ws.flatten := by
    intro hh hX
    obtain ⟨g, hg, q', f', c1, c1', h1, h2, h3, h4⟩ := forall₂_right hi.cyc hX
    dsimp only at h1 h3 h4
    rw [ho] at h1
    simp only [Except.ok.injEq, Option.some.injEq, Prod.mk.injEq] at h1
    obtain ⟨rfl, rfl⟩ := h1
    obtain rfl := climbIs_unique h3 hc
    obtain rfl := climbIs_unique h2 (hq hh)
    have hw := genOf_walk hB hi.tinv hd ho h2 h3
    have hwi := hw.inv hB
    have he : List.map Letter.inv (winv c1 ++ (q, f, e, p) :: c1').reverse = winv c1' ++ (p, e, f, q) :: c1 := by
      change winv (winv c1 ++ (q, f, e, p) :: c1') = _
      rw [winv_append, winv_cons, winv_winv]
      simp [Letter.inv]
    rw [he] at hwi
    refine ⟨[winv c1' ++ (p, e, f, q) :: c1], ?_, by simpa using WH.refl _⟩
    intro w hwm
    rw [List.mem_singleton] at hwm
    subst hwm
    refine ⟨hwi, .inr ⟨g, hg, ?_⟩⟩
    unfold invert
    rw [h4, toPath_reverse hw, he, make_toPath hwi]
  have gen2 : tree.has q = true → (q, f) ∈ X → ∃ ws : List (List (Letter L)), (∀ w ∈ ws, Walk S valid b w b ∧ (toPath b w ∈ basis ∨ ∃ g ∈ basis, invert b g = .ok (toPath b w))) ∧
      WH S valid b b (winv c ++ (p, e, f, q) :: c') ws.flatten := by
    intro hh hX
    obtain ⟨g, hg, q', f', c1, c1', h1, h2, h3, h4⟩ := forall₂_right hi.cyc hX
    dsimp only at h1 h3 h4
    rw [ho'] at h1
    simp only [Except.ok.injEq, Option.some.injEq, Prod.mk.injEq] at h1
    obtain ⟨rfl, rfl⟩ := h1
    obtain rfl := climbIs_unique h2 hc
    obtain rfl := climbIs_unique h3 (hq hh)
    have hw := genOf_walk hB hi.tinv hd' ho' h2 h3
    refine ⟨[winv c1 ++ (p, e, f, q) :: c1'], ?_, by simpa using WH.refl _⟩
    intro w hwm
    rw [List.mem_singleton] at hwm
    subst hwm
    refine ⟨hw, .inl ?_⟩
    rw [← h4]
    exact hg
  rcases hi.cover p e q f hp hd ho with h1 | h1 | h1 | ⟨h1, h2⟩
  · cases h1
  · exact ⟨(tree1 h1).1, [], by simp, (tree1 h1).2 (tree1 h1).1⟩
  · exact ⟨(tree2 h1).1, [], by simp, (tree2 h1).2 (tree2 h1).1⟩
  · refine ⟨h1, ?_⟩
    by_cases h3 : pairGt q f p e = false
    · exact gen1 h1 (h2 h3)
    · have h4 := (pairGt_total q p f e).resolve_left h3
      rcases hi.cover q f p e h1 hd' ho' with h5 | h5 | h5 | ⟨-, h5⟩
      · cases h5
      · exact ⟨[], by simp, (tree2 h5).2 h1⟩
      · exact ⟨[], by simp, (tree1 h5).2 h1⟩
      · exact gen2 h1 (h5 h4)

theorem telescope (hS : S.Closed valid) (hi : GInv S valid b tree basis [] X) {p q : L} {w c : List (Letter L)} (hp : tree.has p = true) (hw : Walk S valid p w q)
    (hc : ClimbIs tree p c) : ∃ c', ClimbIs tree q c' ∧ ∃ ws : List (List (Letter L)),
      (∀ w ∈ ws, Walk S valid b w b ∧ (toPath b w ∈ basis ∨ ∃ g ∈ basis, invert b g = .ok (toPath b w))) ∧ WH S valid b q (winv c ++ w) (ws.flatten ++ winv c') := by
  have hB := hS.bordered
  induction w generalizing p c with
  | nil =>
    have hw : p = q := hw
    subst hw
    exact ⟨c, hc, [], by simp, by simpa using WH.refl _⟩
  | cons x w ih =>
    obtain ⟨p', e, f, r⟩ := x
    obtain ⟨h1, h2, h3, h4⟩ := hw
    dsimp only at h1 h2 h3 h4
    subst h1
    have hr : tree.has r = true := by
      by_contra hr
      exact hr (cross_edge hS hi (c' := []) hp h2 h3 hc (fun h => absurd h hr)).1
    obtain ⟨c1, hc1, -⟩ := hi.tinv.climb r hr
    obtain ⟨-, ws, hws, hwh⟩ := cross_edge hS hi hp h2 h3 hc (fun _ => hc1)
    obtain ⟨c', hc', ws', hws', hwh'⟩ := ih hr h4 hc1
    refine ⟨c', hc', ws ++ ws', ?_, ?_⟩
    · intro w hw
      rcases List.mem_append.1 hw with hw | hw
      · exact hws w hw
      · exact hws' w hw
    · have hpc := hi.tinv.walk hc
      have hrc := hi.tinv.walk hc1
      have hx : Walk S valid b (winv c ++ [(p', e, f, r)]) r := walk_append.2 ⟨p', hpc.inv hB, rfl, h2, h3, rfl⟩
      have ha := ((WH.cancel hB hrc).append_right h4).append_left hx
      have hrw : Walk S valid b (winv c1 ++ w) q := walk_append.2 ⟨r, hrc.inv hB, h4⟩
      have hb := hwh.append_right hrw
      have hflat : Walk S valid b ws.flatten b := by
        refine hwh.ends.1 ?_
        rw [show winv c ++ (p', e, f, r) :: c1 = (winv c ++ [(p', e, f, r)]) ++ c1 by simp]
        exact walk_append.2 ⟨r, hx, hrc⟩
      have hd := hwh'.append_left hflat
      simp only [List.append_assoc, List.cons_append, List.nil_append, List.flatten_append] at ha hb hd ⊢
      exact ha.symm.trans (hb.trans hd)

/-- **C90**. On every closed surface, every closed path at the base polygon is homotopic to a concatenation of generators and inverses of generators. -/
theorem C90_generate (hS : S.Closed valid) (hb : valid b) {sort : List (FPath L) → List (FPath L)} (hs : ∀ l, (sort l).Perm l) {fuel : ℕ} {gs : List (FPath L)}
    (h : gens S b sort fuel = .ok gs) {P : FPath L} (hP : IsPath S valid b b P) :
    ∃ Qs : List (FPath L), (∀ Q ∈ Qs, Q ∈ gs ∨ ∃ g ∈ gs, invert b g = .ok Q) ∧ Homotopic S valid b P (Qs.foldr concat ⟨[b], [], []⟩) := by
  obtain ⟨tree, X, basis, hp, hi⟩ := gens_ok hS hb hs h
  obtain ⟨w, rfl, hw⟩ := isPath_iff.1 hP
  have hbh : tree.has b = true := by unfold Dict.has; rw [hi.tinv.root]; rfl
  obtain ⟨c', hc', ws, hws, hwh⟩ := telescope hS hi (c := []) hbh hw hi.tinv.root
  obtain rfl := climbIs_unique hc' (show ClimbIs tree b [] from hi.tinv.root)
  refine ⟨ws.map (toPath b), ?_, ?_⟩
  · intro Q hQ
    obtain ⟨w', hw', rfl⟩ := List.mem_map.1 hQ
    rcases (hws w' hw').2 with h1 | ⟨g, h1, h2⟩
    · exact .inl (hp.mem_iff.2 h1)
    · exact .inr ⟨g, hp.mem_iff.2 h1, h2⟩
  · have h1 : ∀ ws : List (List (Letter L)), (ws.map (toPath b)).foldr concat ⟨[b], [], []⟩ = toPath b ws.flatten := by
      intro ws
      induction ws with
      | nil => rfl
      | cons w ws ih => rw [List.map_cons, List.foldr_cons, ih, concat_toPath, List.flatten_cons]
    rw [h1]
    simpa [winv] using hwh.homotopic

/-! ### Freeness -/

/-- The product of the values of the edges that a path crosses. -/
def hol {G : Type} [Group G] (w : L → ℕ → G) (P : FPath L) : G := (List.zipWith w P.polys P.edges).prod

theorem hol_toPath {G : Type} [Group G] (w : L → ℕ → G) {a c : L} {u : List (Letter L)} (h : Walk S valid a u c) : hol w (toPath a u) = (u.map (fun x => w x.1 x.2.1)).prod := by
  induction u generalizing a with
  | nil => simp [hol, toPath]
  | cons x u ih =>
    have := ih h.2.2.2
    obtain ⟨h1, -⟩ := h
    subst h1
    simp only [hol, toPath, List.map_cons, List.zipWith_cons_cons, List.prod_cons] at this ⊢
    rw [this]

theorem free_index {G : Type} [Group G] (hS : S.Closed valid) (hi : GInv S valid b tree basis [] X)
    (hself : ∀ p e, S.IsDart valid (p, e) → S.opp p e ≠ .ok (some (p, e))) (c : L × ℕ → G) : ∃ w : L → ℕ → G,
    (∀ p e q f, S.IsDart valid (p, e) → S.opp p e = .ok (some (q, f)) → w q f = (w p e)⁻¹) ∧ ∀ x ∈ X, ∀ g, GenOf S b tree g x → hol w g = c x := by
  classical
  have hB := hS.bordered
  let w : L → ℕ → G := fun p e => if (p, e) ∈ X then (c (p, e))⁻¹ else
    match S.opp p e with
    | .ok (some y) => if y ∈ X then c y else 1
    | _ => 1
  have hexcl : ∀ p e q f, S.IsDart valid (p, e) → S.opp p e = .ok (some (q, f)) → (p, e) ∈ X → (q, f) ∉ X := by
    intro p e q f hd ho h1 h2
    obtain ⟨-, ho'⟩ := hB.opp_symm (d := (p, e)) hd ho
    have h3 := ((hi.xtree _ h1).2.2 q f ho).2.1
    have h4 := ((hi.xtree _ h2).2.2 p e ho').2.1
    apply hself p e hd
    rw [ho]
    simp only [pairGt, Bool.or_eq_false_iff, decide_eq_false_iff_not, not_lt, Bool.and_eq_false_iff] at h3 h4
    have h5 : p = q := le_antisymm h4.1 h3.1
    subst h5
    have h6 : e = f := le_antisymm (by simpa using h4.2) (by simpa using h3.2)
    rw [h6]
  have hwo : ∀ p e q f, S.IsDart valid (p, e) → S.opp p e = .ok (some (q, f)) → w p e = if (p, e) ∈ X then (c (p, e))⁻¹ else if (q, f) ∈ X then c (q, f) else 1 := by
    intro p e q f hd ho
    simp only [w, ho]
  have htree : ∀ p e q f, TreeEdge tree p e q f → w p e = 1 ∧ w q f = 1 := by
    intro p e q f hT
    obtain ⟨hd, ho, -⟩ := hi.tinv.ok _ _ _ _ hT
    obtain ⟨hd', ho'⟩ := hB.opp_symm (d := (p, e)) hd ho
    have h1 : (p, e) ∉ X := fun hX => ((hi.xtree _ hX).2.2 q f ho).2.2.1 hT
    have h2 : (q, f) ∉ X := fun hX => ((hi.xtree _ hX).2.2 p e ho').2.2.2 hT
    rw [hwo p e q f hd ho, hwo q f p e hd' ho', if_neg h1, if_neg h2, if_neg h2, if_neg h1]
    exact ⟨rfl, rfl⟩
  have hclimb : ∀ u p, ClimbIs tree p u → (u.map (fun x => w x.1 x.2.1)).prod = 1 ∧ ((winv u).map (fun x => w x.1 x.2.1)).prod = 1 := by
    intro u
    induction u with
    | nil => intro p _; simp [winv]
    | cons x u ih =>
      intro p hu
      obtain ⟨h1, h2, h3⟩ := hu
      obtain ⟨h4, h5⟩ := ih _ h3
      obtain ⟨h6, h7⟩ := htree _ _ _ _ h2
      subst h1
      rw [winv_cons]
      simp only [List.map_cons, List.prod_cons, List.map_append, List.prod_append, List.map_nil, List.prod_nil, h4, h5, h6, mul_one, one_mul, true_and]
      exact h7
  refine ⟨w, ?_, ?_⟩
  · intro p e q f hd ho
    obtain ⟨hd', ho'⟩ := hB.opp_symm (d := (p, e)) hd ho
    rw [hwo p e q f hd ho, hwo q f p e hd' ho']
    by_cases h1 : (p, e) ∈ X
    · rw [if_neg (hexcl p e q f hd ho h1), if_pos h1, if_pos h1, inv_inv]
    · by_cases h2 : (q, f) ∈ X
      · rw [if_pos h2, if_neg h1, if_pos h2]
      · rw [if_neg h2, if_neg h1, if_neg h1, if_neg h2, inv_one]
  · rintro ⟨p, e⟩ hx g ⟨q, f, u, u', h1, h2, h3, rfl⟩
    dsimp only at h1 h3 ⊢
    obtain ⟨-, hd, -⟩ := hi.xtree _ hx
    obtain ⟨hd', ho'⟩ := hB.opp_symm (d := (p, e)) hd h1
    rw [hol_toPath w (genOf_walk hB hi.tinv hd h1 h2 h3), List.map_append, List.map_cons, List.prod_append, List.prod_cons, (hclimb u q h2).2, (hclimb u' p h3).1, one_mul, mul_one]
    dsimp only
    rw [hwo q f p e hd' ho', if_neg (hexcl p e q f hd h1 hx), if_pos hx]

theorem genOf_unique {g g' : FPath L} {x : L × ℕ} (h : GenOf S b tree g x) (h' : GenOf S b tree g' x) : g = g' := by
  obtain ⟨q, f, c, c', h1, h2, h3, rfl⟩ := h
  obtain ⟨q', f', d, d', h1', h2', h3', rfl⟩ := h'
  rw [h1] at h1'
  simp only [Except.ok.injEq, Option.some.injEq, Prod.mk.injEq] at h1'
  obtain ⟨rfl, rfl⟩ := h1'
  rw [climbIs_unique h2 h2', climbIs_unique h3 h3']

/-- **C90**. On every closed surface none of whose edges is glued to itself, the generators are different and free: for all elements of any group there are values of the
edges, opposite for opposite edges, such that the product along each generator is the given element. -/
theorem C90_free {G : Type} [Group G] (hS : S.Closed valid) (hb : valid b) (hself : ∀ p e, S.IsDart valid (p, e) → S.opp p e ≠ .ok (some (p, e)))
    {sort : List (FPath L) → List (FPath L)} (hs : ∀ l, (sort l).Perm l) {fuel : ℕ} {gs : List (FPath L)} (h : gens S b sort fuel = .ok gs) :
    gs.Nodup ∧ ∀ c : FPath L → G, ∃ w : L → ℕ → G, (∀ p e q f, S.IsDart valid (p, e) → S.opp p e = .ok (some (q, f)) → w q f = (w p e)⁻¹) ∧ ∀ g ∈ gs, hol w g = c g := by
  classical
  obtain ⟨tree, X, basis, hp, hi⟩ := gens_ok hS hb hs h
  refine ⟨hp.nodup_iff.2 (forall₂_nodup hi.cyc hi.xnodup ?_), fun c => ?_⟩
  · intro g x y hx hy hgx hgy
    by_contra hxy
    obtain ⟨w, -, hw⟩ := free_index (G := Multiplicative ℤ) hS hi hself (fun z => Multiplicative.ofAdd (if z = x then 1 else 0))
    have h1 := hw x hx g hgx
    have h2 := hw y hy g hgy
    rw [h1] at h2
    simp [Ne.symm hxy] at h2
  · obtain ⟨w, hw1, hw2⟩ := free_index hS hi hself (fun x => if hx : ∃ g, GenOf S b tree g x then c hx.choose else 1)
    refine ⟨w, hw1, fun g hg => ?_⟩
    obtain ⟨x, hx, hgx⟩ := forall₂_left hi.cyc (hp.mem_iff.1 hg)
    rw [hw2 x hx g hgx]
    have hex : ∃ g, GenOf S b tree g x := ⟨g, hgx⟩
    rw [dif_pos hex, genOf_unique hex.choose_spec hgx]

/-- The values along homotopic paths have the same product, so that the values of `C90_free` define a homomorphism. -/
theorem C90_hol_homotopic {G : Type} [Group G] {w : L → ℕ → G}
    (hw : ∀ p e q f, S.IsDart valid (p, e) → S.opp p e = .ok (some (q, f)) → w q f = (w p e)⁻¹) {P Q : FPath L} (h : Homotopic S valid b P Q) : hol w P = hol w Q := by
  induction h with
  | rel P Q h =>
    obtain ⟨hP, hQ, hb⟩ := h
    obtain ⟨u, rfl, hu⟩ := isPath_iff.1 hP
    obtain ⟨v, rfl, hv⟩ := isPath_iff.1 hQ
    have hst := step_of_backtrack hu hv hb
    rw [hol_toPath w hu, hol_toPath w hv]
    clear hb hP hQ hv
    obtain ⟨u, v, x⟩ := hst
    rw [walk_append] at hu
    obtain ⟨c, -, -, -, -, -, h2, h3, -⟩ := hu
    have := hw _ _ _ _ h2 h3
    simp only [List.map_append, List.map_cons, List.prod_append, List.prod_cons]
    rw [← mul_assoc (w (Letter.inv x).1 _), show w (Letter.inv x).1 (Letter.inv x).2.1 = (w x.1 x.2.1)⁻¹ from this]
    simp
  | refl => rfl
  | symm _ _ _ ih => exact ih.symm
  | trans _ _ _ _ _ ih1 ih2 => exact ih1.trans ih2

/-- Three squares, some of whose edges are glued to themselves. -/
example : threeSquares.Closed (fun l => l < 3) ∧ ∃ gs, gens threeSquares 1 id 20 = .ok gs ∧ gs.length = 7 :=
  ⟨threeSquares_closed, _, rfl, by decide +kernel⟩

/-- The square torus. -/
example : squareTorus.Closed (fun _ => True) ∧ (∀ p e, squareTorus.IsDart (fun _ => True) (p, e) → squareTorus.opp p e ≠ .ok (some (p, e))) ∧
    gens squareTorus () id 5 = .ok [⟨[(), ()], [1], [3]⟩, ⟨[(), ()], [0], [2]⟩] := by
  refine ⟨squareTorus_closed, ?_, by decide +kernel⟩
  rintro p e ⟨-, P, hP, he⟩
  have he' : e < 4 := by
    simp only [squareTorus, Except.ok.injEq] at hP
    subst hP
    exact he
  interval_cases e <;> simp [squareTorus]

end FPath
end Flat
