import Verif.Lemmas.ChainFlow
import Verif.Props.EulerInvariance
import Verif.Props.Intersection

/-!
# Transport of chains along a flip
-/

namespace Flat
open MSurf (flipOld)
namespace RSurf
variable {L K : Type} [LinearOrder L] [Field K] [LinearOrder K] [IsStrictOrderedRing K] {S T : RSurf L K} {valid : L → Prop}
  {R : Type} [CommRing R]

/-- The surface `T` arises from `S` by a flip. -/
structure Flip (S T : RSurf L K) (valid : L → Prop) (l0 : L) (d0 : ℕ) (l1 : L) (d1 : ℕ) : Prop where
  ne : l0 ≠ l1
  lt0 : d0 < 3
  lt1 : d1 < 3
  sides0 : S.sides l0 = 3
  sides1 : S.sides l1 = 3
  sides : ∀ l, T.sides l = S.sides l
  valid0 : valid l0
  valid1 : valid l1
  s0 : S.opp l0 d0 = .ok (some (l1, d1))
  s1 : S.opp l1 d1 = .ok (some (l0, d0))
  t0 : T.opp l0 d0 = .ok (some (l1, d1))
  t1 : T.opp l1 d1 = .ok (some (l0, d0))
  retri : Retri S valid T valid {(l0, d0), (l1, d1)} {(l0, d0), (l1, d1)} (flipOld l0 d0 l1 d1)

/-- The product of a matrix and a vector. -/
def matVec {D : Type} (gens : List D) (A : D → D → R) (f : D → R) (i : D) : R := (gens.map (fun j => A i j * f j)).sum

theorem sum_two {D : Type} [DecidableEq D] {es : List D} (hn : es.Nodup) {a b : D} (ha : a ∈ es) (hb : b ∈ es) (hab : a ≠ b) (f : D → R) :
    (es.map (fun x => (if x = a ∨ x = b then 1 else 0) * f x)).sum = f a + f b := by
  rw [← List.sum_toFinset _ hn, Finset.sum_eq_add a b hab]
  · simp
  · rintro c - ⟨h1, h2⟩
    simp [h1, h2]
  · intro h; exact absurd (List.mem_toFinset.2 ha) h
  · intro h; exact absurd (List.mem_toFinset.2 hb) h

theorem sum_one {D : Type} [DecidableEq D] {es : List D} (hn : es.Nodup) {a : D} (ha : a ∈ es) (f : D → R) :
    (es.map (fun x => (if a = x then 1 else 0) * f x)).sum = f a := by
  rw [← List.sum_toFinset _ hn, Finset.sum_eq_single a]
  · simp
  · intro c _ h1
    simp [Ne.symm h1]
  · intro h; exact absurd (List.mem_toFinset.2 ha) h

section
variable {l0 l1 : L} {d0 d1 : ℕ}

/-- The six edges of the two triangles. -/
structure Six (D : Type) where
  (a0 a1 a2 b0 b1 b2 : D)

structure Six.Distinct {D : Type} (x : Six D) : Prop where
  (h1 : x.a0 ≠ x.a1) (h2 : x.a0 ≠ x.a2) (h3 : x.a0 ≠ x.b0) (h4 : x.a0 ≠ x.b1) (h5 : x.a0 ≠ x.b2)
  (h6 : x.a1 ≠ x.a2) (h7 : x.a1 ≠ x.b0) (h8 : x.a1 ≠ x.b1) (h9 : x.a1 ≠ x.b2)
  (h10 : x.a2 ≠ x.b0) (h11 : x.a2 ≠ x.b1) (h12 : x.a2 ≠ x.b2)
  (h13 : x.b0 ≠ x.b1) (h14 : x.b0 ≠ x.b2) (h15 : x.b1 ≠ x.b2)

def six (l0 : L) (d0 : ℕ) (l1 : L) (d1 : ℕ) : Six (L × ℕ) :=
  ⟨(l0, d0), (l0, (d0 + 1) % 3), (l0, (d0 + 2) % 3), (l1, d1), (l1, (d1 + 1) % 3), (l1, (d1 + 2) % 3)⟩

omit [LinearOrder L] in
theorem six_distinct (hne : l0 ≠ l1) (h0 : d0 < 3) (h1 : d1 < 3) : (six l0 d0 l1 d1).Distinct := by
  constructor <;> simp only [six, ne_eq, Prod.mk.injEq, not_and] <;> intro h <;> first | omega | exact absurd h hne

theorem ones_eq (hne : l0 ≠ l1) (h0 : d0 < 3) (h1 : d1 < 3) : FlipRec.ones ((l0, d0), (l1, d1)) =
    let x := six l0 d0 l1 d1
    [(x.b1, x.a0), (x.a2, x.a0), (x.b2, x.a1), (x.a1, x.a2), (x.a1, x.b0), (x.b2, x.b0), (x.a2, x.b1), (x.b1, x.b2)] := by
  have e0 : (d0 + 0) % 3 = d0 := by omega
  have e1 : (d1 + 0) % 3 = d1 := by omega
  simp only [FlipRec.ones, FlipRec.denormalize, List.map_cons, List.map_nil, if_true, if_neg hne.symm, six, Nat.add_comm _ d0, Nat.add_comm _ d1, e0, e1]

/-- The rows of the matrix of a flip. -/
theorem matrix_row (hne : l0 ≠ l1) (h0 : d0 < 3) (h1 : d1 < 3) (j : L × ℕ) :
    let x := six l0 d0 l1 d1
    let M : L × ℕ → L × ℕ → R := FlipRec.matrix ((l0, d0), (l1, d1))
    M x.a0 j = 0 ∧ M x.b0 j = 0 ∧ M x.a1 j = (if j = x.a2 ∨ j = x.b0 then 1 else 0) ∧ M x.a2 j = (if j = x.a0 ∨ j = x.b1 then 1 else 0) ∧
      M x.b1 j = (if j = x.a0 ∨ j = x.b2 then 1 else 0) ∧ M x.b2 j = (if j = x.a1 ∨ j = x.b0 then 1 else 0) := by
  have hd := six_distinct hne h0 h1
  have lab : (six l0 d0 l1 d1).a0.1 = l0 ∧ (six l0 d0 l1 d1).a1.1 = l0 ∧ (six l0 d0 l1 d1).a2.1 = l0 ∧ (six l0 d0 l1 d1).b0.1 = l1 ∧
    (six l0 d0 l1 d1).b1.1 = l1 ∧ (six l0 d0 l1 d1).b2.1 = l1 := ⟨rfl, rfl, rfl, rfl, rfl, rfl⟩
  intro x M
  have hM : ∀ i, M i j = if (i, j) ∈ [(x.b1, x.a0), (x.a2, x.a0), (x.b2, x.a1), (x.a1, x.a2), (x.a1, x.b0), (x.b2, x.b0), (x.a2, x.b1), (x.b1, x.b2)]
      then 1 else if i.1 ≠ l0 ∧ i.1 ≠ l1 ∧ i = j then 1 else 0 := by
    intro i
    show FlipRec.matrix ((l0, d0), (l1, d1)) i j = _
    unfold FlipRec.matrix
    rw [ones_eq hne h0 h1]
  generalize hx : six l0 d0 l1 d1 = x' at hd lab
  have : x = x' := hx
  subst this
  obtain ⟨h1, h2, h3, h4, h5, h6, h7, h8, h9, h10, h11, h12, h13, h14, h15⟩ := hd
  obtain ⟨k1, k2, k3, k4, k5, k6⟩ := lab
  simp only [hM, List.mem_cons, List.not_mem_nil, or_false, Prod.mk.injEq, k1, k2, k3, k4, k5, k6, h1, h2, h3, h4, h5, h6, h7, h8, h9, h10, h11,
    h12, h13, h14, h15, h1.symm, h2.symm, h3.symm, h4.symm, h5.symm, h6.symm, h7.symm, h8.symm, h9.symm, h10.symm, h11.symm, h12.symm, h13.symm,
    h14.symm, h15.symm, false_and, true_and, false_or, ne_eq, not_true_eq_false, and_false, if_false, and_true]

theorem matrix_other {i : L × ℕ} (h0 : i.1 ≠ l0) (h1 : i.1 ≠ l1) (hne : l0 ≠ l1) (h0' : d0 < 3) (h1' : d1 < 3) (j : L × ℕ) :
    (FlipRec.matrix ((l0, d0), (l1, d1)) i j : R) = if i = j then 1 else 0 := by
  unfold FlipRec.matrix
  rw [ones_eq hne h0' h1', if_neg]
  · simp [h0, h1]
  · intro h
    simp only [six, List.mem_cons, List.not_mem_nil, or_false, Prod.mk.injEq] at h
    rcases h with h | h | h | h | h | h | h | h <;> obtain ⟨h, -⟩ := h <;> rw [h] at h0 h1 <;> first | exact h0 rfl | exact h1 rfl


namespace Flip

variable (F : Flip S T valid l0 d0 l1 d1)
include F

theorem dart_iff (hS : S.Bordered valid) (hT : T.Bordered valid) (d : L × ℕ) : T.IsDart valid d ↔ S.IsDart valid d := by
  rw [isDart_iff hS, isDart_iff hT, F.sides]

/-- The edges of the surface. -/
theorem dart_cases (hS : S.Bordered valid) {d : L × ℕ} (hd : S.IsDart valid d) :
    let x := six l0 d0 l1 d1
    (d.1 ≠ l0 ∧ d.1 ≠ l1) ∨ d = x.a0 ∨ d = x.a1 ∨ d = x.a2 ∨ d = x.b0 ∨ d = x.b1 ∨ d = x.b2 := by
  obtain ⟨l, e⟩ := d
  obtain ⟨-, he⟩ := (isDart_iff hS _).1 hd
  dsimp only at he
  have h0 := F.lt0
  have h1 := F.lt1
  simp only [six, Prod.mk.injEq]
  by_cases hl0 : l = l0
  · subst hl0
    rw [F.sides0] at he
    simp only [true_and]
    omega
  · by_cases hl1 : l = l1
    · subst hl1
      rw [F.sides1] at he
      simp only [true_and]
      omega
    · exact .inl ⟨hl0, hl1⟩

theorem six_dart (hS : S.Bordered valid) :
    let x := six l0 d0 l1 d1
    S.IsDart valid x.a0 ∧ S.IsDart valid x.a1 ∧ S.IsDart valid x.a2 ∧ S.IsDart valid x.b0 ∧ S.IsDart valid x.b1 ∧ S.IsDart valid x.b2 := by
  have h0 := F.lt0
  have h1 := F.lt1
  simp only [six, isDart_iff hS, F.sides0, F.sides1]
  refine ⟨⟨F.valid0, h0⟩, ⟨F.valid0, by omega⟩, ⟨F.valid0, by omega⟩, ⟨F.valid1, h1⟩, ⟨F.valid1, by omega⟩, ⟨F.valid1, by omega⟩⟩

theorem old_six :
    let x := six l0 d0 l1 d1
    let old := flipOld l0 d0 l1 d1
    old x.a1 = x.a2 ∧ old x.a2 = x.b1 ∧ old x.b1 = x.b2 ∧ old x.b2 = x.a1 ∧ ∀ d : L × ℕ, d.1 ≠ l0 → d.1 ≠ l1 → old d = d := by
  have hd := six_distinct F.ne F.lt0 F.lt1
  have hdef : ∀ d, flipOld l0 d0 l1 d1 d = if d = (six l0 d0 l1 d1).a1 then (six l0 d0 l1 d1).a2
    else if d = (six l0 d0 l1 d1).a2 then (six l0 d0 l1 d1).b1 else if d = (six l0 d0 l1 d1).b1 then (six l0 d0 l1 d1).b2
    else if d = (six l0 d0 l1 d1).b2 then (six l0 d0 l1 d1).a1 else d := fun d => rfl
  intro x old
  show flipOld l0 d0 l1 d1 _ = _ ∧ flipOld l0 d0 l1 d1 _ = _ ∧ flipOld l0 d0 l1 d1 _ = _ ∧ flipOld l0 d0 l1 d1 _ = _ ∧
    ∀ d : L × ℕ, _ → _ → flipOld l0 d0 l1 d1 d = d
  refine ⟨?_, ?_, ?_, ?_, ?_⟩
  · rw [hdef, if_pos rfl]
  · rw [hdef, if_neg hd.h6.symm, if_pos rfl]
  · rw [hdef, if_neg hd.h8.symm, if_neg hd.h11.symm, if_pos rfl]
  · rw [hdef, if_neg hd.h9.symm, if_neg hd.h12.symm, if_neg hd.h15.symm, if_pos rfl]
  · intro d h0 h1
    rw [hdef, if_neg, if_neg, if_neg, if_neg]
    · rintro rfl; exact h1 rfl
    · rintro rfl; exact h1 rfl
    · rintro rfl; exact h0 rfl
    · rintro rfl; exact h0 rfl

/-- The image of a chain. -/
theorem apply (hS : S.Bordered valid) {es : List (L × ℕ)} (hn : es.Nodup) (hes : ∀ d, d ∈ es ↔ S.IsDart valid d) (f : L × ℕ → R) :
    let x := six l0 d0 l1 d1
    let g := matVec es (FlipRec.matrix ((l0, d0), (l1, d1))) f
    g x.a0 = 0 ∧ g x.b0 = 0 ∧ g x.a1 = f x.a2 + f x.b0 ∧ g x.a2 = f x.a0 + f x.b1 ∧ g x.b1 = f x.a0 + f x.b2 ∧ g x.b2 = f x.a1 + f x.b0 ∧
      ∀ d : L × ℕ, S.IsDart valid d → d.1 ≠ l0 → d.1 ≠ l1 → g d = f d := by
  have hd := six_distinct F.ne F.lt0 F.lt1
  obtain ⟨k1, k2, k3, k4, k5, k6⟩ := F.six_dart hS
  have row := fun j => matrix_row (R := R) F.ne F.lt0 F.lt1 j
  refine ⟨?_, ?_, ?_, ?_, ?_, ?_, ?_⟩
  · show (es.map _).sum = 0
    simp only [(row _).1, zero_mul, List.map_const', List.sum_replicate, smul_zero]
  · show (es.map _).sum = 0
    simp only [(row _).2.1, zero_mul, List.map_const', List.sum_replicate, smul_zero]
  · show (es.map _).sum = _
    simp only [(row _).2.2.1]
    exact sum_two hn ((hes _).2 k3) ((hes _).2 k4) hd.h10 f
  · show (es.map _).sum = _
    simp only [(row _).2.2.2.1]
    exact sum_two hn ((hes _).2 k1) ((hes _).2 k5) hd.h4 f
  · show (es.map _).sum = _
    simp only [(row _).2.2.2.2.1]
    exact sum_two hn ((hes _).2 k1) ((hes _).2 k6) hd.h5 f
  · show (es.map _).sum = _
    simp only [(row _).2.2.2.2.2]
    exact sum_two hn ((hes _).2 k2) ((hes _).2 k4) hd.h7 f
  · intro d hd h0 h1
    show (es.map _).sum = _
    simp only [matrix_other h0 h1 F.ne F.lt0 F.lt1]
    exact sum_one hn ((hes _).2 hd) f

/-- The edges other than the diagonals. -/
theorem opp_old (hS : S.Closed valid) (hT : T.Closed valid) {d : L × ℕ} (hd : S.IsDart valid d) (ha : d ≠ (l0, d0)) (hb : d ≠ (l1, d1)) :
    T.oppF d ≠ (l0, d0) ∧ T.oppF d ≠ (l1, d1) ∧ flipOld l0 d0 l1 d1 (T.oppF d) = S.oppF (flipOld l0 d0 l1 d1 d) := by
  have hdT := (F.dart_iff hS.bordered hT.bordered d).2 hd
  have hX : d ∉ ({(l0, d0), (l1, d1)} : Finset (L × ℕ)) := by simp [ha, hb]
  have ho := hT.opp_oppF hdT
  have := (F.retri.dT.out hT.bordered hdT hX ho).2
  simp only [Finset.mem_insert, Finset.mem_singleton, not_or] at this
  refine ⟨this.1, this.2, ?_⟩
  obtain ⟨c, h1, h2⟩ := F.retri.opp d hdT hX
  rw [ho] at h1
  injection h1 with h1
  subst h1
  exact (oppF_eq h2).symm

end Flip

namespace Flip
variable (F : Flip S T valid l0 d0 l1 d1)
include F

theorem flow_eq (hS : S.Closed valid) (hT : T.Closed valid) (f g : L × ℕ → R) {d : L × ℕ} (hd : S.IsDart valid d)
    (ha : d ≠ (l0, d0)) (hb : d ≠ (l1, d1)) : T.flow g d = S.flow f (flipOld l0 d0 l1 d1 d) + (g d - f (flipOld l0 d0 l1 d1 d)) -
      (g (T.oppF d) - f (flipOld l0 d0 l1 d1 (T.oppF d))) := by
  unfold flow
  rw [(F.opp_old hS hT hd ha hb).2.2]
  ring

/-- A chain is a boundary exactly if its image is. -/
theorem null_iff (hS : S.Closed valid) (hT : T.Closed valid) {es : List (L × ℕ)} (hn : es.Nodup) (hes : ∀ d, d ∈ es ↔ S.IsDart valid d)
    (f : L × ℕ → R) : T.Null valid (matVec es (FlipRec.matrix ((l0, d0), (l1, d1))) f) ↔ S.Null valid f := by
  obtain ⟨p1, p2, p3, p4, p5, p6, p7⟩ := F.apply hS.bordered hn hes f
  obtain ⟨o1, o2, o3, o4, o5⟩ := F.old_six
  have hds := six_distinct F.ne F.lt0 F.lt1
  have dT : ∀ d, T.IsDart valid d ↔ S.IsDart valid d := F.dart_iff hS.bordered hT.bordered
  have ia : S.oppF (six l0 d0 l1 d1).a0 = (six l0 d0 l1 d1).b0 := oppF_eq F.s0
  have ib : S.oppF (six l0 d0 l1 d1).b0 = (six l0 d0 l1 d1).a0 := oppF_eq F.s1
  have ja : T.oppF (six l0 d0 l1 d1).a0 = (six l0 d0 l1 d1).b0 := oppF_eq F.t0
  have jb : T.oppF (six l0 d0 l1 d1).b0 = (six l0 d0 l1 d1).a0 := oppF_eq F.t1
  have kS := F.six_dart hS.bordered
  have hcases := fun d hd => F.dart_cases hS.bordered (d := d) hd
  have hopp := fun d hd ha hb => F.opp_old hS hT (d := d) hd ha hb
  have hflow := fun g d hd ha hb => F.flow_eq hS hT f g (d := d) hd ha hb
  have lab : (six l0 d0 l1 d1).a0.1 = l0 ∧ (six l0 d0 l1 d1).a1.1 = l0 ∧ (six l0 d0 l1 d1).a2.1 = l0 ∧ (six l0 d0 l1 d1).b0.1 = l1 ∧
    (six l0 d0 l1 d1).b1.1 = l1 ∧ (six l0 d0 l1 d1).b2.1 = l1 := ⟨rfl, rfl, rfl, rfl, rfl, rfl⟩
  have hA : (six l0 d0 l1 d1).a0 = (l0, d0) := rfl
  have hB : (six l0 d0 l1 d1).b0 = (l1, d1) := rfl
  rw [← hA] at hopp hflow
  simp only [← hB] at hopp hflow
  generalize six l0 d0 l1 d1 = x at *
  generalize matVec es (FlipRec.matrix ((l0, d0), (l1, d1))) f = g at *
  have oppd := fun d hd => hS.oppF_dart (d := d) hd
  have oppT : ∀ d, S.IsDart valid d → S.IsDart valid (T.oppF d) := fun d hd => (dT _).1 (hT.oppF_dart ((dT d).2 hd))
  obtain ⟨q1, q2, q3, q4, q5, q6⟩ := lab
  constructor
  · rintro ⟨w, hw⟩
    have e : w l0 = w l1 := by
      have := hw x.a0 ((dT _).2 kS.1)
      unfold flow at this
      rw [ja, p1, p2, q1, q4] at this
      linear_combination -this
    refine ⟨fun l => if l = l0 then w l0 - f x.b0 else if l = l1 then w l0 - f x.a0 else w l, ?_⟩
    -- the weights agree
    have key : ∀ d, S.IsDart valid d → d ≠ x.a0 → d ≠ x.b0 →
        (fun l => if l = l0 then w l0 - f x.b0 else if l = l1 then w l0 - f x.a0 else w l) (flipOld l0 d0 l1 d1 d).1 =
          w d.1 - (g d - f (flipOld l0 d0 l1 d1 d)) := by
      intro d hd ha hb
      rcases hcases d hd with ⟨h0, h1⟩ | h | h | h | h | h | h
      · dsimp only
        rw [o5 d h0 h1, if_neg h0, if_neg h1, p7 d hd h0 h1]; ring
      · exact absurd h ha
      · rw [h, o1, p3]; dsimp only; rw [q3, if_pos rfl, q2]; ring
      · rw [h, o2, p4]; dsimp only; rw [q5, if_neg F.ne.symm, if_pos rfl, q3]; ring
      · exact absurd h hb
      · rw [h, o3, p5]; dsimp only; rw [q6, if_neg F.ne.symm, if_pos rfl, q5, e]; ring
      · rw [h, o4, p6]; dsimp only; rw [q2, if_pos rfl, q6, e]; ring
    intro d hd
    by_cases ha : d = x.a0
    · subst ha; unfold flow; rw [ia, q1, q4]; dsimp only; rw [if_pos rfl, if_neg F.ne.symm, if_pos rfl]; ring
    by_cases hb : d = x.b0
    · subst hb; unfold flow; rw [ib, q1, q4]; dsimp only; rw [if_pos rfl, if_neg F.ne.symm, if_pos rfl]; ring
    obtain ⟨y, hy, hyX, rfl⟩ := F.retri.surj d hd (by simp [← hA, ← hB, ha, hb])
    rw [dT] at hy
    simp only [Finset.mem_insert, Finset.mem_singleton, not_or, ← hA, ← hB] at hyX
    obtain ⟨n1, n2, n3⟩ := hopp y hy hyX.1 hyX.2
    have h1 := hflow g y hy hyX.1 hyX.2
    rw [hw y ((dT _).2 hy)] at h1
    rw [← n3, key _ hy hyX.1 hyX.2, key _ (oppT _ hy) n1 n2]
    linear_combination -h1
  · rintro ⟨w, hw⟩
    have e : w l0 + f x.b0 = w l1 + f x.a0 := by
      have := hw x.a0 kS.1
      unfold flow at this
      rw [ia, q1, q4] at this
      linear_combination -this
    refine ⟨fun l => if l = l0 ∨ l = l1 then w l0 + f x.b0 else w l, ?_⟩
    have key : ∀ d, S.IsDart valid d → d ≠ x.a0 → d ≠ x.b0 →
        (fun l => if l = l0 ∨ l = l1 then w l0 + f x.b0 else w l) d.1 =
          w (flipOld l0 d0 l1 d1 d).1 + (g d - f (flipOld l0 d0 l1 d1 d)) := by
      intro d hd ha hb
      rcases hcases d hd with ⟨h0, h1⟩ | h | h | h | h | h | h
      · dsimp only
        rw [o5 d h0 h1, if_neg (by tauto), p7 d hd h0 h1]; ring
      · exact absurd h ha
      · rw [h, o1, p3]; dsimp only; rw [q2, q3, if_pos (.inl rfl)]; ring
      · rw [h, o2, p4]; dsimp only; rw [q3, if_pos (.inl rfl), q5, e]; ring
      · exact absurd h hb
      · rw [h, o3, p5]; dsimp only; rw [q5, q6, if_pos (.inr rfl), e]; ring
      · rw [h, o4, p6]; dsimp only; rw [q6, if_pos (.inr rfl), q2]; ring
    intro d hd
    rw [dT] at hd
    by_cases ha : d = x.a0
    · subst ha; unfold flow; rw [ja, q1, q4, p1, p2]; dsimp only; rw [if_pos (.inl rfl), if_pos (.inr rfl)]; ring
    by_cases hb : d = x.b0
    · subst hb; unfold flow; rw [jb, q1, q4, p1, p2]; dsimp only; rw [if_pos (.inr rfl), if_pos (.inl rfl)]; ring
    obtain ⟨n1, n2, n3⟩ := hopp d hd ha hb
    have h1 := hflow g d hd ha hb
    rw [key _ hd ha hb, key _ (oppT _ hd) n1 n2, h1, hw _ ?_, n3]
    · ring
    · exact (F.retri.maps d ((dT _).2 hd) (by simp [← hA, ← hB, ha, hb])).1

/-- Each chain is the image of a chain up to a boundary. -/
theorem surj (hS : S.Closed valid) (hT : T.Closed valid) {es : List (L × ℕ)} (hn : es.Nodup) (hes : ∀ d, d ∈ es ↔ S.IsDart valid d)
    (g : L × ℕ → R) : ∃ f : L × ℕ → R, T.Null valid (g - matVec es (FlipRec.matrix ((l0, d0), (l1, d1))) f) := by
  have dT : ∀ d, T.IsDart valid d ↔ S.IsDart valid d := F.dart_iff hS.bordered hT.bordered
  have hds := six_distinct F.ne F.lt0 F.lt1
  obtain ⟨x, hx⟩ : ∃ x, x = six l0 d0 l1 d1 := ⟨_, rfl⟩
  obtain ⟨f, hf⟩ : ∃ f : L × ℕ → R, f = fun d => if d = x.a0 then 0 else if d = x.b0 then 0 else if d = x.a2 then g x.a1 - g x.a0
    else if d = x.b1 then g x.a2 - g x.a0 else if d = x.b2 then g x.b1 - g x.b0 else if d = x.a1 then g x.b2 - g x.b0 else g d := ⟨_, rfl⟩
  rw [← hx] at hds
  have f1 : f x.a0 = 0 := by rw [hf]; exact if_pos rfl
  have f2 : f x.b0 = 0 := by rw [hf]; dsimp only; rw [if_neg hds.h3.symm, if_pos rfl]
  have f3 : f x.a2 = g x.a1 - g x.a0 := by rw [hf]; dsimp only; rw [if_neg hds.h2.symm, if_neg hds.h10, if_pos rfl]
  have f4 : f x.b1 = g x.a2 - g x.a0 := by
    rw [hf]; dsimp only; rw [if_neg hds.h4.symm, if_neg hds.h13.symm, if_neg hds.h11.symm, if_pos rfl]
  have f5 : f x.b2 = g x.b1 - g x.b0 := by
    rw [hf]; dsimp only; rw [if_neg hds.h5.symm, if_neg hds.h14.symm, if_neg hds.h12.symm, if_neg hds.h15.symm, if_pos rfl]
  have f6 : f x.a1 = g x.b2 - g x.b0 := by
    rw [hf]; dsimp only; rw [if_neg hds.h1.symm, if_neg hds.h7, if_neg hds.h6, if_neg hds.h8, if_neg hds.h9, if_pos rfl]
  have f7 : ∀ d : L × ℕ, d.1 ≠ l0 → d.1 ≠ l1 → f d = g d := by
    intro d h0 h1
    rw [hf, hx]; dsimp only
    rw [if_neg, if_neg, if_neg, if_neg, if_neg, if_neg] <;> rintro rfl
    exacts [h0 rfl, h1 rfl, h1 rfl, h0 rfl, h1 rfl, h0 rfl]
  refine ⟨f, fun l => if l = l0 then g x.a0 else if l = l1 then g x.b0 else 0, ?_⟩
  obtain ⟨p1, p2, p3, p4, p5, p6, p7⟩ := F.apply hS.bordered hn hes f
  have lab : (six l0 d0 l1 d1).a0.1 = l0 ∧ (six l0 d0 l1 d1).a1.1 = l0 ∧ (six l0 d0 l1 d1).a2.1 = l0 ∧ (six l0 d0 l1 d1).b0.1 = l1 ∧
    (six l0 d0 l1 d1).b1.1 = l1 ∧ (six l0 d0 l1 d1).b2.1 = l1 := ⟨rfl, rfl, rfl, rfl, rfl, rfl⟩
  have hcases := fun d hd => F.dart_cases hS.bordered (d := d) hd
  rw [← hx] at p1 p2 p3 p4 p5 p6 lab
  simp only [← hx] at hcases
  obtain ⟨q1, q2, q3, q4, q5, q6⟩ := lab
  have key : ∀ d, S.IsDart valid d → (g - matVec es (FlipRec.matrix ((l0, d0), (l1, d1))) f) d =
      if d.1 = l0 then g x.a0 else if d.1 = l1 then g x.b0 else 0 := by
    intro d hd
    rw [Pi.sub_apply]
    rcases hcases d hd with ⟨h0, h1⟩ | h | h | h | h | h | h
    · rw [if_neg h0, if_neg h1, p7 d hd h0 h1, f7 d h0 h1, sub_self]
    · rw [h, q1, if_pos rfl, p1, sub_zero]
    · rw [h, q2, if_pos rfl, p3, f2, f3]; ring
    · rw [h, q3, if_pos rfl, p4, f1, f4]; ring
    · rw [h, q4, if_neg F.ne.symm, if_pos rfl, p2, sub_zero]
    · rw [h, q5, if_neg F.ne.symm, if_pos rfl, p5, f1, f5]; ring
    · rw [h, q6, if_neg F.ne.symm, if_pos rfl, p6, f2, f6]; ring
  intro d hd
  unfold flow
  rw [key d ((dT d).1 hd), key _ ((dT _).1 (hT.oppF_dart hd))]

/-- The pairing of a chain with a function on the vertices. -/
theorem pairing (hS : S.Closed valid) (hT : T.Closed valid) {es : List (L × ℕ)} (hn : es.Nodup) (hes : ∀ d, d ∈ es ↔ S.IsDart valid d)
    (f : L × ℕ → R) {φ ψ : L × ℕ → R} (hφ : ∀ a b, S.SameVertex valid a b → φ a = φ b)
    (hψ : ∀ d, S.IsDart valid d → d ≠ (l0, d0) → d ≠ (l1, d1) → ψ d = φ (flipOld l0 d0 l1 d1 d)) :
    (es.map (fun d => matVec es (FlipRec.matrix ((l0, d0), (l1, d1))) f d * (ψ (T.oppF d) - ψ d))).sum =
      (es.map (fun d => f d * (φ (S.oppF d) - φ d))).sum := by
  obtain ⟨p1, p2, p3, p4, p5, p6, p7⟩ := F.apply hS.bordered hn hes f
  obtain ⟨o1, o2, o3, o4, o5⟩ := F.old_six
  have hds := six_distinct F.ne F.lt0 F.lt1
  have ia : S.oppF (six l0 d0 l1 d1).a0 = (six l0 d0 l1 d1).b0 := oppF_eq F.s0
  have ib : S.oppF (six l0 d0 l1 d1).b0 = (six l0 d0 l1 d1).a0 := oppF_eq F.s1
  have kS := F.six_dart hS.bordered
  have hcases := fun d hd => F.dart_cases hS.bordered (d := d) hd
  have hnext : S.nextF (six l0 d0 l1 d1).a0 = (six l0 d0 l1 d1).a1 ∧ S.nextF (six l0 d0 l1 d1).a1 = (six l0 d0 l1 d1).a2 ∧
      S.nextF (six l0 d0 l1 d1).a2 = (six l0 d0 l1 d1).a0 ∧ S.nextF (six l0 d0 l1 d1).b0 = (six l0 d0 l1 d1).b1 ∧
      S.nextF (six l0 d0 l1 d1).b1 = (six l0 d0 l1 d1).b2 ∧ S.nextF (six l0 d0 l1 d1).b2 = (six l0 d0 l1 d1).b0 := by
    have h0 := F.lt0
    have h1 := F.lt1
    simp only [six, nextF, F.sides0, F.sides1, Prod.mk.injEq, true_and]
    omega
  -- the difference of the values at the ends
  have hdiff : ∀ d, S.IsDart valid d → d ≠ (l0, d0) → d ≠ (l1, d1) →
      ψ (T.oppF d) - ψ d = φ (S.oppF (flipOld l0 d0 l1 d1 d)) - φ (flipOld l0 d0 l1 d1 d) := by
    intro d hd ha hb
    obtain ⟨n1, n2, n3⟩ := F.opp_old hS hT hd ha hb
    have hd' : S.IsDart valid (T.oppF d) := (F.dart_iff hS.bordered hT.bordered _).1 (hT.oppF_dart ((F.dart_iff hS.bordered hT.bordered _).2 hd))
    rw [hψ d hd ha hb, hψ _ hd' n1 n2, n3]
  have hend : ∀ d, S.IsDart valid d → φ (S.oppF d) = φ (S.nextF d) := fun d hd => hφ _ _ (hS.sameVertex_next hd)
  have hA : (l0, d0) = (six l0 d0 l1 d1).a0 := rfl
  have hB : (l1, d1) = (six l0 d0 l1 d1).b0 := rfl
  have lab : (six l0 d0 l1 d1).a0.1 = l0 ∧ (six l0 d0 l1 d1).a1.1 = l0 ∧ (six l0 d0 l1 d1).a2.1 = l0 ∧ (six l0 d0 l1 d1).b0.1 = l1 ∧
    (six l0 d0 l1 d1).b1.1 = l1 ∧ (six l0 d0 l1 d1).b2.1 = l1 := ⟨rfl, rfl, rfl, rfl, rfl, rfl⟩
  simp only [hA, hB] at hdiff
  -- the sum over the edges of the two triangles and the sum over the other edges
  have split : ∀ h : L × ℕ → R, (es.map h).sum = h (six l0 d0 l1 d1).a0 + (h (six l0 d0 l1 d1).a1 + (h (six l0 d0 l1 d1).a2 +
      (h (six l0 d0 l1 d1).b0 + (h (six l0 d0 l1 d1).b1 + (h (six l0 d0 l1 d1).b2 +
        (es.toFinset.filter (fun d => d.1 ≠ l0 ∧ d.1 ≠ l1)).sum h))))) := by
    intro h
    rw [← List.sum_toFinset h hn, ← Finset.sum_filter_add_sum_filter_not es.toFinset (fun d => d.1 ≠ l0 ∧ d.1 ≠ l1)]
    have : es.toFinset.filter (fun d => ¬ (d.1 ≠ l0 ∧ d.1 ≠ l1)) = {(six l0 d0 l1 d1).a0, (six l0 d0 l1 d1).a1, (six l0 d0 l1 d1).a2,
        (six l0 d0 l1 d1).b0, (six l0 d0 l1 d1).b1, (six l0 d0 l1 d1).b2} := by
      ext d
      simp only [Finset.mem_filter, List.mem_toFinset, hes, Finset.mem_insert, Finset.mem_singleton]
      constructor
      · rintro ⟨hd, hd'⟩
        exact (hcases d hd).resolve_left hd'
      · obtain ⟨k1, k2, k3, k4, k5, k6⟩ := kS
        obtain ⟨q1, q2, q3, q4, q5, q6⟩ := lab
        rintro (rfl | rfl | rfl | rfl | rfl | rfl)
        exacts [⟨k1, fun h => h.1 q1⟩, ⟨k2, fun h => h.1 q2⟩, ⟨k3, fun h => h.1 q3⟩, ⟨k4, fun h => h.2 q4⟩, ⟨k5, fun h => h.2 q5⟩, ⟨k6, fun h => h.2 q6⟩]
    rw [this]
    obtain ⟨h1, h2, h3, h4, h5, h6, h7, h8, h9, h10, h11, h12, h13, h14, h15⟩ := hds
    rw [Finset.sum_insert (by simp only [Finset.mem_insert, Finset.mem_singleton, not_or]; exact ⟨h1, h2, h3, h4, h5⟩),
      Finset.sum_insert (by simp only [Finset.mem_insert, Finset.mem_singleton, not_or]; exact ⟨h6, h7, h8, h9⟩),
      Finset.sum_insert (by simp only [Finset.mem_insert, Finset.mem_singleton, not_or]; exact ⟨h10, h11, h12⟩),
      Finset.sum_insert (by simp only [Finset.mem_insert, Finset.mem_singleton, not_or]; exact ⟨h13, h14⟩),
      Finset.sum_insert (by simp only [Finset.mem_singleton]; exact h15), Finset.sum_singleton]
    ring
  rw [split, split]
  have hrest : (es.toFinset.filter (fun d => d.1 ≠ l0 ∧ d.1 ≠ l1)).sum
      (fun d => matVec es (FlipRec.matrix ((l0, d0), (l1, d1))) f d * (ψ (T.oppF d) - ψ d)) =
      (es.toFinset.filter (fun d => d.1 ≠ l0 ∧ d.1 ≠ l1)).sum (fun d => f d * (φ (S.oppF d) - φ d)) := by
    refine Finset.sum_congr rfl fun d hd => ?_
    simp only [Finset.mem_filter, List.mem_toFinset, hes] at hd
    obtain ⟨hd, h0, h1⟩ := hd
    rw [p7 d hd h0 h1, hdiff d hd (by rintro rfl; exact h0 rfl) (by rintro rfl; exact h1 rfl), o5 d h0 h1]
  rw [hrest]
  generalize (es.toFinset.filter (fun d => d.1 ≠ l0 ∧ d.1 ≠ l1)).sum (fun d => f d * (φ (S.oppF d) - φ d)) = rest
  obtain ⟨k1, k2, k3, k4, k5, k6⟩ := kS
  rw [hdiff _ k2 hds.h1.symm hds.h7, hdiff _ k3 hds.h2.symm hds.h10, hdiff _ k5 hds.h4.symm hds.h13.symm, hdiff _ k6 hds.h5.symm hds.h14.symm,
    o1, o2, o3, o4, p1, p2, p3, p4, p5, p6]
  obtain ⟨n1, n2, n3, n4, n5, n6⟩ := hnext
  have e1 := hend _ k1
  have e2 := hend _ k2
  have e3 := hend _ k3
  have e4 := hend _ k4
  have e5 := hend _ k5
  have e6 := hend _ k6
  rw [ia, n1] at e1
  rw [ib, n4] at e4
  rw [n2] at e2
  rw [n3] at e3
  rw [n5] at e5
  rw [n6] at e6
  rw [ia, ib, e2, e3, e5, e6, ← e1, ← e4]
  ring

/-- Four flips of the same diagonal. -/
theorem four (hS : S.Closed valid) {es : List (L × ℕ)} (hn : es.Nodup) (hes : ∀ d, d ∈ es ↔ S.IsDart valid d) (f : L × ℕ → R) :
    let M := matVec es (FlipRec.matrix ((l0, d0), (l1, d1)) (R := R))
    S.Null valid (M (M (M (M f))) - f) := by
  intro M
  have hM : ∀ h, _ := fun h => F.apply hS.bordered hn hes h (R := R)
  have ia : S.oppF (six l0 d0 l1 d1).a0 = (six l0 d0 l1 d1).b0 := oppF_eq F.s0
  have ib : S.oppF (six l0 d0 l1 d1).b0 = (six l0 d0 l1 d1).a0 := oppF_eq F.s1
  have hcases := fun d hd => F.dart_cases hS.bordered (d := d) hd
  have lab : (six l0 d0 l1 d1).a0.1 = l0 ∧ (six l0 d0 l1 d1).a1.1 = l0 ∧ (six l0 d0 l1 d1).a2.1 = l0 ∧ (six l0 d0 l1 d1).b0.1 = l1 ∧
    (six l0 d0 l1 d1).b1.1 = l1 ∧ (six l0 d0 l1 d1).b2.1 = l1 := ⟨rfl, rfl, rfl, rfl, rfl, rfl⟩
  dsimp only at hM hcases
  have hMd : matVec es (FlipRec.matrix ((l0, d0), (l1, d1)) (R := R)) = M := rfl
  clear_value M
  rw [hMd] at hM
  generalize six l0 d0 l1 d1 = x at *
  obtain ⟨q1, q2, q3, q4, q5, q6⟩ := lab
  refine ⟨fun l => if l = l0 then f x.b0 else if l = l1 then f x.a0 else 0, ?_⟩
  obtain ⟨a1, a2, a3, a4, a5, a6, a7⟩ := hM f
  obtain ⟨b1, b2, b3, b4, b5, b6, b7⟩ := hM (M f)
  obtain ⟨c1, c2, c3, c4, c5, c6, c7⟩ := hM (M (M f))
  obtain ⟨e1, e2, e3, e4, e5, e6, e7⟩ := hM (M (M (M f)))
  have key : ∀ d, S.IsDart valid d → d ≠ x.a0 → d ≠ x.b0 → (M (M (M (M f))) - f) d =
      if d.1 = l0 then f x.b0 else if d.1 = l1 then f x.a0 else 0 := by
    intro d hd ha hb
    rw [Pi.sub_apply]
    rcases hcases d hd with ⟨h0, h1⟩ | h | h | h | h | h | h
    · rw [if_neg h0, if_neg h1, e7 d hd h0 h1, c7 d hd h0 h1, b7 d hd h0 h1, a7 d hd h0 h1, sub_self]
    · exact absurd h ha
    · rw [h, q2, if_pos rfl, e3, c4, c2, b5, b1, a6, a1]; ring
    · rw [h, q3, if_pos rfl, e4, c5, c1, b6, b1, a3, a2]; ring
    · exact absurd h hb
    · rw [h, q5, if_neg F.ne.symm, if_pos rfl, e5, c6, c1, b3, b2, a4, a2]; ring
    · rw [h, q6, if_neg F.ne.symm, if_pos rfl, e6, c3, c2, b4, b2, a5, a1]; ring
  intro d hd
  by_cases ha : d = x.a0
  · subst ha; unfold flow; rw [ia, q1, q4, Pi.sub_apply, Pi.sub_apply, e1, e2]; dsimp only; rw [if_pos rfl, if_neg F.ne.symm, if_pos rfl]; ring
  by_cases hb : d = x.b0
  · subst hb; unfold flow; rw [ib, q1, q4, Pi.sub_apply, Pi.sub_apply, e1, e2]; dsimp only; rw [if_pos rfl, if_neg F.ne.symm, if_pos rfl]; ring
  have hne : ∀ z, S.IsDart valid z → S.oppF d = z → d = S.oppF z := fun z hz h => by rw [← h, hS.oppF_oppF hd]
  unfold flow
  rw [key d hd ha hb, key _ (hS.oppF_dart hd)]
  · intro h; exact hb ((hne _ (h ▸ hS.oppF_dart hd) h).trans ia)
  · intro h; exact ha ((hne _ (h ▸ hS.oppF_dart hd) h).trans ib)

end Flip

end
end RSurf
end Flat
