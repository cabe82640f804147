import Verif.Model.HyperbolicHull
import Verif.Lemmas.HalfSpaceCanonical
import Mathlib.Analysis.Convex.Hull

/-!
# The Graham scan

Helper lemmas about `Verif.Model.HyperbolicHull`.
-/

namespace Flat
namespace Hyp

variable {K F : Type} [Field K] [LinearOrder K] [IsStrictOrderedRing K] [Field F] [LinearOrder F] [IsStrictOrderedRing F]

/-- Twice the signed area of a triangle. -/
def area (A B C : K × K) : K := (B.1 - A.1) * (C.2 - A.2) - (B.2 - A.2) * (C.1 - A.1)

theorem turnsLeft_iff (A B C : K × K) : turnsLeft A B C = true ↔ 0 < area A B C := by
  simp only [turnsLeft, decide_eq_true_eq, area, gt_iff_lt]
  constructor <;> intro h <;> nlinarith

/-- A point that is in every half plane that contains the given points. -/
def Dominated (H : List (K × K)) (p : K × K) : Prop := ∀ g : Geo K, (∀ q ∈ H, 0 ≤ g.val q) → 0 ≤ g.val p

theorem dominated_of_mem {H : List (K × K)} {p : K × K} (h : p ∈ H) : Dominated H p := fun _ hg => hg p h

theorem Dominated.trans {H H' : List (K × K)} (h : ∀ q ∈ H, Dominated H' q) {p : K × K} (hp : Dominated H p) : Dominated H' p := fun g hg => hp g fun q hq => h q hq g hg

/-! ### The scan -/

/-- The vertices that follow each other, seen from `O`, and that are in convex position; the last vertex comes first. -/
def ConvexPos : List (K × K) → Prop
  | [] => True
  | v :: l => l.Pairwise (fun b a => 0 < area a b v) ∧ ConvexPos l

theorem convexPos_push {O v : K × K} {H : List (K × K)} (hA : H.Pairwise fun b a => 0 < area O a b) (hC : ConvexPos H) (hv : ∀ x ∈ H, 0 < area O x v)
    (hl : ∀ k a rest, H = k :: a :: rest → 0 < area a k v) : ConvexPos (v :: H) := by
  refine ⟨?_, hC⟩
  match H, hA, hC, hv, hl with
  | [], _, _, _, _ => exact List.Pairwise.nil
  | k :: T, hA, hC, hv, hl =>
    rw [List.pairwise_cons] at hA
    obtain ⟨hA1, hA2⟩ := hA
    obtain ⟨hC1, hC2⟩ := hC
    have hk := hv k (by simp)
    have keyA : ∀ j ∈ T, 0 < area j k v := by
      match T, hA1, hA2, hC1, hC2, hv, hl with
      | [], _, _, _, _, _, _ => simp
      | a :: rest, hA1, hA2, hC1, hC2, hv, hl =>
        have ha := hl k a rest rfl
        intro j hj
        rcases List.mem_cons.mp hj with rfl | hj
        · exact ha
        · have h1 := hA1 a (by simp)
          have h2 := hA1 j (by simp [hj])
          rw [List.pairwise_cons] at hC1
          have h3 := hC1.1 j hj
          have id : area O a k * area j k v = area O j k * area a k v + area O k v * area j a k := by simp only [area]; ring
          have : 0 < area O a k * area j k v := by rw [id]; exact add_pos (mul_pos h2 ha) (mul_pos hk h3)
          exact pos_of_mul_pos_right this h1.le
    rw [List.pairwise_cons]
    refine ⟨keyA, (hA2.and hC1).imp_of_mem ?_⟩
    rintro j i hj hi ⟨h1, h2⟩
    have h3 := hA1 j hj
    have id : area O j k * area i j v = area O i j * area j k v + area O j v * area i j k := by simp only [area]; ring
    have : 0 < area O j k * area i j v := by rw [id]; exact add_pos (mul_pos h1 (keyA j hj)) (mul_pos (hv j (by simp [hj])) h2)
    exact pos_of_mul_pos_right this h3.le

/-- What the inner loop does. -/
theorem popHull_spec {O v : K × K} : ∀ {H : List (K × K)}, H.Pairwise (fun b a => 0 < area O a b) → ConvexPos H → (∀ x ∈ H, 0 < area O x v) →
    ∃ H', popHull v (H ++ [O]) = H' ++ [O] ∧ H'.Sublist H ∧ (H ≠ [] → H' ≠ []) ∧ ConvexPos (v :: H') ∧ ∀ x ∈ H, Dominated (v :: H' ++ [O]) x := by
  intro H
  induction H with
  | nil => intro _ _ _; exact ⟨[], rfl, .slnil, by simp, ⟨List.Pairwise.nil, trivial⟩, by simp⟩
  | cons k T ih =>
    intro hA hC hv
    match T, hA, hC, hv, ih with
    | [], hA, hC, hv, ih =>
      refine ⟨[k], ?_, List.Sublist.refl _, by simp, ⟨List.pairwise_singleton _ _, hC⟩, fun x hx => dominated_of_mem (by simp at hx ⊢; tauto)⟩
      simp only [List.cons_append, List.nil_append, popHull]
      rw [if_pos ((turnsLeft_iff _ _ _).2 (hv k (by simp)))]
    | a :: rest, hA, hC, hv, ih =>
      by_cases hl : 0 < area a k v
      · refine ⟨k :: a :: rest, ?_, List.Sublist.refl _, by simp, convexPos_push hA hC hv ?_, fun x hx => dominated_of_mem (by simp at hx ⊢; tauto)⟩
        · simp only [List.cons_append, popHull]
          rw [if_pos ((turnsLeft_iff _ _ _).2 hl)]
        · intro k' a' rest' h
          simp only [List.cons.injEq] at h
          rw [← h.1, ← h.2.1]; exact hl
      · obtain ⟨H', h1, h2, h3, h4, h5⟩ := ih (List.pairwise_cons.mp hA).2 hC.2 (fun x hx => hv x (List.mem_cons_of_mem _ hx))
        refine ⟨H', ?_, h2.trans (List.sublist_cons_self _ _), fun _ => h3 (by simp), h4, fun x hx => ?_⟩
        · simp only [List.cons_append, popHull]
          rw [if_neg (fun h => hl ((turnsLeft_iff _ _ _).1 h))]
          exact h1
        · rcases List.mem_cons.mp hx with rfl | hx
          · refine Dominated.trans (H := [O, a, v]) (fun q hq => ?_) ?_
            · simp only [List.mem_cons, List.not_mem_nil, or_false] at hq
              rcases hq with rfl | rfl | rfl
              · exact dominated_of_mem (by simp)
              · exact h5 q (by simp)
              · exact dominated_of_mem (by simp)
            · intro g hg
              have g1 := hg O (by simp)
              have g2 := hg a (by simp)
              have g3 := hg v (by simp)
              have c1 : 0 ≤ -area a x v := by linarith [not_lt.mp hl]
              have c2 := hv x (by simp)
              have c3 : 0 < area O a x := (List.pairwise_cons.mp hA).1 a (by simp)
              have c4 : 0 < area O a v := hv a (by simp)
              have id : area O a v * g.val x = -area a x v * g.val O + area O x v * g.val a + area O a x * g.val v := by simp only [area, Geo.val]; ring
              have : 0 ≤ area O a v * g.val x := by rw [id]; exact add_nonneg (add_nonneg (mul_nonneg c1 g1) (mul_nonneg c2.le g2)) (mul_nonneg c3.le g3)
              exact nonneg_of_mul_nonneg_right this c4
          · exact h5 x hx

/-- What the outer loop does. -/
theorem scan_spec {O : K × K} : ∀ (l H seen : List (K × K)), H.Pairwise (fun b a => 0 < area O a b) → ConvexPos H → l.Pairwise (fun a b => 0 < area O a b) → (∀ x ∈ H, ∀ y ∈ l, 0 < area O x y) →
    (∀ x ∈ seen, Dominated (H ++ [O]) x) →
    ∃ H', l.foldl (fun hull v => v :: popHull v hull) (H ++ [O]) = H' ++ [O] ∧ H'.Pairwise (fun b a => 0 < area O a b) ∧ ConvexPos H' ∧ (∀ x ∈ H', x ∈ H ∨ x ∈ l) ∧ (∀ x ∈ seen ++ l, Dominated (H' ++ [O]) x) ∧
      (l ≠ [] → H' ≠ []) ∧ (2 ≤ l.length ∨ (l ≠ [] ∧ H ≠ []) → 2 ≤ H'.length) := by
  intro l
  induction l with
  | nil => intro H seen hA hC _ _ hd; exact ⟨H, rfl, hA, hC, fun x hx => .inl hx, by simpa using hd, by simp, by simp⟩
  | cons v l ih =>
    intro H seen hA hC hl hHl hd
    rw [List.pairwise_cons] at hl
    obtain ⟨H1, p1, p2, p3, p4, p5⟩ := popHull_spec hA hC (fun x hx => hHl x hx v (by simp))
    obtain ⟨H2, q1, q2, q3, q4, q5, q6, q7⟩ := ih (v :: H1) (seen ++ [v]) (List.pairwise_cons.mpr ⟨fun a ha => hHl a (p2.subset ha) v (by simp), hA.sublist p2⟩) p4 hl.2 (by
      intro x hx y hy
      rcases List.mem_cons.mp hx with rfl | hx
      · exact hl.1 y hy
      · exact hHl x (p2.subset hx) y (List.mem_cons_of_mem _ hy)) (by
      intro x hx
      rcases List.mem_append.mp hx with hx | hx
      · refine Dominated.trans (fun q hq => ?_) (hd x hx)
        rcases List.mem_append.mp hq with hq | hq
        · exact p5 q hq
        · exact dominated_of_mem (by simp at hq; simp [hq])
      · simp only [List.mem_singleton] at hx
        exact dominated_of_mem (by simp [hx]))
    refine ⟨H2, ?_, q2, q3, fun x hx => ?_, fun x hx => q5 x (by simpa using hx), fun _ => ?_, fun h => ?_⟩
    · rw [List.foldl_cons, p1]; exact q1
    · rcases q4 x hx with h | h
      · rcases List.mem_cons.mp h with rfl | h
        · exact .inr (by simp)
        · exact .inl (p2.subset h)
      · exact .inr (List.mem_cons_of_mem _ h)
    · by_cases hl0 : l = []
      · subst hl0
        simp only [List.foldl_nil] at q1
        intro h
        rw [h] at q1
        simp at q1
      · exact q6 hl0
    · by_cases hl0 : l = []
      · subst hl0
        simp only [List.foldl_nil] at q1
        have : H2 = v :: H1 := by
          have := List.append_cancel_right q1
          exact this.symm
        rw [this]
        rcases h with h | ⟨-, h⟩
        · simp at h
        · have := List.length_pos_iff.mpr (p3 h)
          simp only [List.length_cons]
          omega
      · exact q7 (.inr ⟨hl0, by simp⟩)

/-! ### Sorting -/

/-- A point that is to the right of the reference point, or above it. -/
def After (r p : K × K) : Prop := r.1 < p.1 ∨ (r.1 = p.1 ∧ r.2 < p.2)

/-- The order of the points, seen from the reference point. -/
def SlopeLe (r p q : K × K) : Prop := slopeLt r q p = false

theorem slopeLe_iff (r p q : K × K) : SlopeLe r p q ↔ 0 < area r p q ∨ (area r p q = 0 ∧ (p.1 - r.1) * (p.1 - r.1) + (p.2 - r.2) * (p.2 - r.2) ≤ (q.1 - r.1) * (q.1 - r.1) + (q.2 - r.2) * (q.2 - r.2)) := by
  have e : area r p q = (q.2 - r.2) * (p.1 - r.1) - (p.2 - r.2) * (q.1 - r.1) := by simp only [area]; ring
  unfold SlopeLe slopeLt
  rw [e]
  split_ifs with h1 h2
  · simp only [Bool.true_eq_false, false_iff, not_or, not_and]
    exact ⟨by linarith, fun h => by linarith⟩
  · simp only [true_iff]
    exact .inl (by linarith)
  · have h3 : (q.2 - r.2) * (p.1 - r.1) - (p.2 - r.2) * (q.1 - r.1) = 0 := by linarith [not_lt.mp h1, not_lt.mp h2]
    simp only [decide_eq_false_iff_not, not_lt, h3, lt_irrefl, true_and, false_or]

theorem area_trans {r p q s : K × K} (hp : After r p) (hq : After r q) (hs : After r s) (h1 : 0 ≤ area r p q) (h2 : 0 ≤ area r q s) : 0 ≤ area r p s ∧ (0 < area r p q ∨ 0 < area r q s → 0 < area r p s) := by
  -- the cross products satisfy two linear relations
  have e1 : (q.1 - r.1) * area r p s = (p.1 - r.1) * area r q s + (s.1 - r.1) * area r p q := by simp only [area]; ring
  have e2 : (q.2 - r.2) * area r p s = (p.2 - r.2) * area r q s + (s.2 - r.2) * area r p q := by simp only [area]; ring
  rcases hq with hq | ⟨hq, hq'⟩
  · have q0 : 0 < q.1 - r.1 := by linarith
    have p0 : 0 ≤ p.1 - r.1 := by rcases hp with h | ⟨h, -⟩ <;> linarith
    have s0 : 0 ≤ s.1 - r.1 := by rcases hs with h | ⟨h, -⟩ <;> linarith
    refine ⟨nonneg_of_mul_nonneg_right (by rw [e1]; positivity) q0, fun h => ?_⟩
    refine pos_of_mul_pos_right (a := q.1 - r.1) ?_ q0.le
    rw [e1]
    -- one of the factors is not zero
    rcases h with h | h
    · rcases s0.lt_or_eq with s0 | s0
      · have := mul_pos s0 h; have := mul_nonneg p0 h2; linarith
      · have hs2 : 0 < s.2 - r.2 := by rcases hs with h | ⟨-, h⟩ <;> linarith
        have h3 : 0 < area r q s := by simp only [area]; rw [← s0]; nlinarith
        rcases p0.lt_or_eq with p0 | p0
        · have := mul_pos p0 h3; rw [← s0]; linarith
        · have hp2 : 0 < p.2 - r.2 := by rcases hp with h | ⟨-, h⟩ <;> linarith
          have : area r p q = -((p.2 - r.2) * (q.1 - r.1)) := by simp only [area]; rw [← p0]; ring
          nlinarith [mul_pos hp2 q0]
    · rcases p0.lt_or_eq with p0 | p0
      · have := mul_pos p0 h; have := mul_nonneg s0 h1; linarith
      · have hp2 : 0 < p.2 - r.2 := by rcases hp with h | ⟨-, h⟩ <;> linarith
        have : area r p q = -((p.2 - r.2) * (q.1 - r.1)) := by simp only [area]; rw [← p0]; ring
        nlinarith [mul_pos hp2 q0]
  · have q0 : 0 < q.2 - r.2 := by linarith
    have hq0 : q.1 - r.1 = 0 := by linarith
    have a2 : area r q s = -((q.2 - r.2) * (s.1 - r.1)) := by simp only [area]; rw [hq0]; ring
    have a1 : area r p q = (p.1 - r.1) * (q.2 - r.2) := by simp only [area]; rw [hq0]; ring
    have s0 : 0 ≤ s.1 - r.1 := by rcases hs with h | ⟨h, -⟩ <;> linarith
    have s1 : s.1 - r.1 = 0 := by
      rw [a2] at h2
      by_contra hne
      have := mul_pos q0 (lt_of_le_of_ne s0 (Ne.symm hne))
      linarith
    have s2 : 0 < s.2 - r.2 := by rcases hs with h | ⟨-, h⟩ <;> linarith
    have p0 : 0 ≤ p.1 - r.1 := by rcases hp with h | ⟨h, -⟩ <;> linarith
    have a3 : area r p s = (p.1 - r.1) * (s.2 - r.2) := by simp only [area]; rw [s1]; ring
    refine ⟨by rw [a3]; positivity, fun h => ?_⟩
    rw [a3]
    refine mul_pos ?_ s2
    rcases h with h | h
    · rw [a1] at h
      exact pos_of_mul_pos_left h q0.le
    · rw [a2, s1] at h; simp at h

theorem slopeLe_trans {r p q s : K × K} (hp : After r p) (hq : After r q) (hs : After r s) (h1 : SlopeLe r p q) (h2 : SlopeLe r q s) : SlopeLe r p s := by
  rw [slopeLe_iff] at h1 h2 ⊢
  have a1 : 0 ≤ area r p q := by rcases h1 with h | ⟨h, -⟩ <;> linarith
  have a2 : 0 ≤ area r q s := by rcases h2 with h | ⟨h, -⟩ <;> linarith
  obtain ⟨t1, t2⟩ := area_trans hp hq hs a1 a2
  rcases h1 with h1 | ⟨h1, d1⟩
  · exact .inl (t2 (.inl h1))
  rcases h2 with h2 | ⟨h2, d2⟩
  · exact .inl (t2 (.inr h2))
  rcases t1.lt_or_eq with h | h
  · exact .inl h
  · exact .inr ⟨h.symm, d1.trans d2⟩

theorem slopeLe_of_lt {r p q : K × K} (h : slopeLt r p q = true) : SlopeLe r p q := by
  unfold SlopeLe
  unfold slopeLt at h ⊢
  split_ifs at h ⊢ with h1 h2 h3 h4 <;> first | rfl | (exfalso; linarith) | skip
  simp only [decide_eq_true_eq, decide_eq_false_iff_not, not_lt] at h ⊢
  exact h.le

theorem insertSlope_perm (r p : K × K) : ∀ l, (insertSlope r p l).Perm (p :: l)
  | [] => .refl _
  | q :: l => by
    unfold insertSlope
    split_ifs
    · exact .refl _
    · exact ((insertSlope_perm r p l).cons q).trans (.swap _ _ _)

theorem insertSlope_sorted {r p : K × K} (hp : After r p) : ∀ {l : List (K × K)}, (∀ q ∈ l, After r q) → l.Pairwise (SlopeLe r) → (insertSlope r p l).Pairwise (SlopeLe r)
  | [], _, _ => List.pairwise_singleton _ _
  | q :: l, hl, hs => by
    unfold insertSlope
    have hq := hl q (by simp)
    rw [List.pairwise_cons] at hs
    by_cases h : slopeLt r p q = true
    · rw [if_pos h]
      have h1 := slopeLe_of_lt h
      refine List.pairwise_cons.mpr ⟨fun s hs' => ?_, List.pairwise_cons.mpr hs⟩
      rcases List.mem_cons.mp hs' with rfl | hs'
      · exact h1
      · exact slopeLe_trans hp hq (hl s (List.mem_cons_of_mem _ hs')) h1 (hs.1 s hs')
    · rw [if_neg h]
      refine List.pairwise_cons.mpr ⟨fun s hs' => ?_, insertSlope_sorted hp (fun q hq => hl q (List.mem_cons_of_mem _ hq)) hs.2⟩
      rcases List.mem_cons.mp ((insertSlope_perm r p l).mem_iff.mp hs') with rfl | hs'
      · exact (Bool.not_eq_true _).mp h
      · exact hs.1 s hs'

theorem insertSlope_reference {r : K × K} : ∀ {l : List (K × K)}, (∀ q ∈ l, After r q) → insertSlope r r l = r :: l
  | [], _ => rfl
  | q :: l, hl => by
    unfold insertSlope
    rw [if_pos]
    have hq := hl q (by simp)
    unfold slopeLt
    simp only [sub_self, zero_mul, mul_zero, lt_irrefl, if_false, add_zero, gt_iff_lt, decide_eq_true_eq]
    rcases hq with h | ⟨-, h⟩
    · nlinarith [mul_self_nonneg (q.2 - r.2), mul_pos (sub_pos.mpr h) (sub_pos.mpr h)]
    · nlinarith [mul_self_nonneg (q.1 - r.1), mul_pos (sub_pos.mpr h) (sub_pos.mpr h)]

theorem insertSlope_cons_reference {r p : K × K} (hp : After r p) (l : List (K × K)) : insertSlope r p (r :: l) = r :: insertSlope r p l := by
  conv_lhs => unfold insertSlope
  rw [if_neg]
  have h : SlopeLe r r p := by
    rw [slopeLe_iff]
    refine .inr ⟨by simp only [area]; ring, ?_⟩
    nlinarith [mul_self_nonneg (p.2 - r.2), mul_self_nonneg (p.1 - r.1)]
  rw [h]
  simp

/-- Sorting the vertices. -/
theorem sortSlope_spec {r : K × K} : ∀ {l : List (K × K)}, l.Nodup → r ∈ l → (∀ p ∈ l, p = r ∨ After r p) →
    ∃ m, sortSlope r l = r :: m ∧ (∀ p, p ∈ m ↔ p ∈ l ∧ p ≠ r) ∧ (∀ p ∈ m, After r p) ∧ m.Pairwise (SlopeLe r) := by
  have hne : ∀ p : K × K, After r p → p ≠ r := by
    rintro p (h | ⟨-, h⟩) rfl <;> exact lt_irrefl _ h
  have part : ∀ l : List (K × K), (∀ p ∈ l, After r p) → (∀ p, p ∈ sortSlope r l ↔ p ∈ l) ∧ (sortSlope r l).Pairwise (SlopeLe r) := by
    intro l
    induction l with
    | nil => intro _; simp [sortSlope]
    | cons a l ih =>
      intro hl
      obtain ⟨h1, h2⟩ := ih (fun p hp => hl p (List.mem_cons_of_mem _ hp))
      have e : sortSlope r (a :: l) = insertSlope r a (sortSlope r l) := rfl
      rw [e]
      refine ⟨fun p => ?_, insertSlope_sorted (hl a (by simp)) (fun q hq => hl q (List.mem_cons_of_mem _ ((h1 q).1 hq))) h2⟩
      rw [(insertSlope_perm r a _).mem_iff, List.mem_cons, List.mem_cons, h1]
  intro l
  induction l with
  | nil => intro _ h; cases h
  | cons a l ih =>
    intro hn hr hl
    rw [List.nodup_cons] at hn
    have e : sortSlope r (a :: l) = insertSlope r a (sortSlope r l) := rfl
    by_cases ha : a = r
    · subst ha
      have hl' : ∀ p ∈ l, After a p := fun p hp => (hl p (List.mem_cons_of_mem _ hp)).resolve_left (fun h => hn.1 (h ▸ hp))
      obtain ⟨h1, h2⟩ := part l hl'
      refine ⟨sortSlope a l, ?_, fun p => ?_, fun p hp => hl' p ((h1 p).1 hp), h2⟩
      · rw [e, insertSlope_reference (fun q hq => hl' q ((h1 q).1 hq))]
      · rw [h1, List.mem_cons]
        constructor
        · exact fun h => ⟨.inr h, hne p (hl' p h)⟩
        · rintro ⟨h | h, hp⟩
          · exact absurd h hp
          · exact h
    · have ha' := (hl a (by simp)).resolve_left ha
      obtain ⟨m, h1, h2, h3, h4⟩ := ih hn.2 ((List.mem_cons.mp hr).resolve_left (Ne.symm ha)) (fun p hp => hl p (List.mem_cons_of_mem _ hp))
      refine ⟨insertSlope r a m, ?_, fun p => ?_, fun p hp => ?_, insertSlope_sorted ha' h3 h4⟩
      · rw [e, h1, insertSlope_cons_reference ha']
      · rw [(insertSlope_perm r a m).mem_iff, List.mem_cons, List.mem_cons, h2]
        constructor
        · rintro (rfl | ⟨h, h'⟩)
          · exact ⟨.inl rfl, ha⟩
          · exact ⟨.inr h, h'⟩
        · rintro ⟨h | h, h'⟩
          · exact .inl h
          · exact .inr ⟨h, h'⟩
      · rcases List.mem_cons.mp ((insertSlope_perm r a m).mem_iff.mp hp) with rfl | hp
        · exact ha'
        · exact h3 p hp

/-- Dropping collinear points. -/
theorem dropCollinear_spec {r : K × K} : ∀ {l : List (K × K)}, (∀ p ∈ l, After r p) → l.Pairwise (SlopeLe r) →
    (dropCollinear r l).Pairwise (fun a b => 0 < area r a b) ∧ (∀ p ∈ dropCollinear r l, p ∈ l) ∧ (∀ p ∈ l, Dominated (dropCollinear r l ++ [r]) p) ∧ (l ≠ [] → dropCollinear r l ≠ []) := by
  intro l
  induction l with
  | nil => intro _ _; simp [dropCollinear]
  | cons p l ih =>
    intro hl hs
    match l, ih, hl, hs with
    | [], _, hl, hs => exact ⟨by simp [dropCollinear], by simp [dropCollinear], fun q hq => dominated_of_mem (by simp at hq; simp [dropCollinear, hq]), by simp [dropCollinear]⟩
    | q :: l, ih, hl, hs =>
      obtain ⟨h1, h2, h3, h4⟩ := ih (fun p hp => hl p (List.mem_cons_of_mem _ hp)) (List.pairwise_cons.mp hs).2
      have hp := hl p (by simp)
      have hq := hl q (by simp)
      have hpq := (List.pairwise_cons.mp hs).1 q (by simp)
      have hp0 : ¬(p.1 - r.1 = 0 ∧ p.2 - r.2 = 0) := by
        rintro ⟨e1, e2⟩
        rcases hp with h | ⟨-, h⟩ <;> linarith
      have hse : slopeEq r p q = true ↔ area r p q = 0 := by
        unfold slopeEq
        rw [if_neg hp0, decide_eq_true_eq]
        simp only [area]
        constructor <;> intro h <;> linarith
      by_cases he : slopeEq r p q = true
      · have e : dropCollinear r (p :: q :: l) = dropCollinear r (q :: l) := by
          conv_lhs => unfold dropCollinear
          rw [if_pos he]
        rw [e]
        refine ⟨h1, fun x hx => List.mem_cons_of_mem _ (h2 x hx), fun x hx => ?_, fun _ => h4 (by simp)⟩
        rcases List.mem_cons.mp hx with rfl | hx
        · -- between the reference and the next point
          have ha := hse.1 he
          have hd : (x.1 - r.1) * (x.1 - r.1) + (x.2 - r.2) * (x.2 - r.2) ≤ (q.1 - r.1) * (q.1 - r.1) + (q.2 - r.2) * (q.2 - r.2) := by
            rcases (slopeLe_iff _ _ _).1 hpq with h | ⟨-, h⟩
            · rw [ha] at h; exact absurd h (lt_irrefl _)
            · exact h
          obtain ⟨t, t0, t1, e1, e2⟩ : ∃ t, 0 ≤ t ∧ t ≤ 1 ∧ x.1 - r.1 = t * (q.1 - r.1) ∧ x.2 - r.2 = t * (q.2 - r.2) := by
            simp only [area] at ha
            have main : ∀ t : K, 0 ≤ t → x.1 - r.1 = t * (q.1 - r.1) → x.2 - r.2 = t * (q.2 - r.2) → 0 < (q.1 - r.1) * (q.1 - r.1) + (q.2 - r.2) * (q.2 - r.2) → t ≤ 1 := by
              intro t t0 e1 e2 hn
              rw [e1, e2] at hd
              by_contra ht
              push Not at ht
              have h2 : 1 < t * t := by nlinarith
              nlinarith
            rcases hq with hq | ⟨hq, hq'⟩
            · have q0 : 0 < q.1 - r.1 := by linarith
              have x0 : 0 ≤ x.1 - r.1 := by rcases hp with h | ⟨h, -⟩ <;> linarith
              have e1 : x.1 - r.1 = (x.1 - r.1) / (q.1 - r.1) * (q.1 - r.1) := by field_simp
              have e2 : x.2 - r.2 = (x.1 - r.1) / (q.1 - r.1) * (q.2 - r.2) := by
                rw [div_mul_eq_mul_div, eq_div_iff q0.ne']
                linarith
              exact ⟨_, div_nonneg x0 q0.le, main _ (div_nonneg x0 q0.le) e1 e2 (by nlinarith [mul_self_nonneg (q.2 - r.2), mul_pos q0 q0]), e1, e2⟩
            · have q0 : 0 < q.2 - r.2 := by linarith
              have q1 : q.1 - r.1 = 0 := by linarith
              have x1 : x.1 - r.1 = 0 := by
                rw [q1] at ha
                have : (x.1 - r.1) * (q.2 - r.2) = 0 := by linarith
                exact (mul_eq_zero.mp this).resolve_right q0.ne'
              have x0 : 0 ≤ x.2 - r.2 := by rcases hp with h | ⟨-, h⟩ <;> linarith
              have e1 : x.1 - r.1 = (x.2 - r.2) / (q.2 - r.2) * (q.1 - r.1) := by rw [x1, q1]; ring
              have e2 : x.2 - r.2 = (x.2 - r.2) / (q.2 - r.2) * (q.2 - r.2) := by field_simp
              exact ⟨_, div_nonneg x0 q0.le, main _ (div_nonneg x0 q0.le) e1 e2 (by nlinarith [mul_self_nonneg (q.1 - r.1), mul_pos q0 q0]), e1, e2⟩
          refine Dominated.trans (H := [q, r]) (fun y hy => ?_) (fun g hg => ?_)
          · simp only [List.mem_cons, List.not_mem_nil, or_false] at hy
            rcases hy with rfl | rfl
            · exact h3 y (by simp)
            · exact dominated_of_mem (by simp)
          · have g1 := hg q (by simp)
            have g2 := hg r (by simp)
            have id : g.val x = t * g.val q + (1 - t) * g.val r := by
              have e1' : x.1 = r.1 + t * (q.1 - r.1) := by linarith
              have e2' : x.2 = r.2 + t * (q.2 - r.2) := by linarith
              simp only [Geo.val, e1', e2']; ring
            rw [id]
            exact add_nonneg (mul_nonneg t0 g1) (mul_nonneg (by linarith) g2)
        · exact h3 x hx
      · have e : dropCollinear r (p :: q :: l) = p :: dropCollinear r (q :: l) := by
          conv_lhs => unfold dropCollinear
          rw [if_neg he]
        rw [e]
        have hpq' : 0 < area r p q := by
          rcases (slopeLe_iff _ _ _).1 hpq with h | ⟨h, -⟩
          · exact h
          · exact absurd (hse.2 h) he
        refine ⟨List.pairwise_cons.mpr ⟨fun x hx => ?_, h1⟩, fun x hx => ?_, fun x hx => ?_, by simp⟩
        · have hx := h2 x hx
          rcases List.mem_cons.mp hx with rfl | hx'
          · exact hpq'
          · have hqx := (List.pairwise_cons.mp (List.pairwise_cons.mp hs).2).1 x hx'
            have : 0 ≤ area r q x := by rcases (slopeLe_iff _ _ _).1 hqx with h | ⟨h, -⟩ <;> linarith
            exact (area_trans hp hq (hl x (List.mem_cons_of_mem _ hx)) hpq'.le this).2 (.inl hpq')
        · rcases List.mem_cons.mp hx with rfl | hx
          · simp
          · exact List.mem_cons_of_mem _ (h2 x hx)
        · rcases List.mem_cons.mp hx with rfl | hx
          · exact dominated_of_mem (by simp)
          · refine Dominated.trans (fun y hy => dominated_of_mem ?_) (h3 x hx)
            rw [List.cons_append]
            exact List.mem_cons_of_mem _ hy

end Hyp
end Flat
