import Verif.Lemmas.Retriangulate
import Verif.Lemmas.AllValid
import Verif.Props.TriangleFlip

/-!
# The Euler characteristic does not depend on the polygons of a surface (C32)
-/

namespace Flat
namespace RSurf
variable {L K : Type} [LinearOrder L] [Field K] [LinearOrder K] [IsStrictOrderedRing K]

theorem bordered_ofMSurf {s : MSurf L (Poly K)} (h : s.GInv) (hv : ∀ l p, s.polygon l = .ok p → p.Valid) :
    (ofMSurf s).Bordered (fun l => ∃ p, s.polygon l = .ok p) := by
  constructor
  · rintro l ⟨p, hp⟩
    exact ⟨p, hp, hv l p hp⟩
  · rintro l p e ⟨p0, hp0⟩ hp he
    have hE : s.IsEdge l e := ⟨p, MSurf.polygon_ok.1 hp, he⟩
    have h1 := MSurf.oppositeEdge_eq_opp h.toShape hE
    cases ho : s.opp l e with
    | none => exact .inl (by simp [ofMSurf, h1, ho, bind, Except.bind, pure, Except.pure])
    | some c =>
      obtain ⟨l', e'⟩ := c
      obtain ⟨k, rfl, hk⟩ := h.inv l e l' e' ho
      have hE' := MSurf.opp_isEdge h.toShape hk
      obtain ⟨p', hp', he'⟩ := id hE'
      refine .inr ⟨l', k, p', ?_, ⟨p', MSurf.polygon_ok.2 hp'⟩, MSurf.polygon_ok.2 hp', he', ?_⟩
      · simp [ofMSurf, h1, ho, bind, Except.bind, pure, Except.pure]
      · simp [ofMSurf, MSurf.oppositeEdge_eq_opp h.toShape hE', hk, bind, Except.bind, pure, Except.pure]

theorem ofMSurf_opp {s : MSurf L (Poly K)} {l : L} {e : ℕ} {c : Option (L × ℕ)}
    (h : s.oppositeEdge l e = .ok (c.map (fun c => (c.1, (c.2 : Int))))) : (ofMSurf s).opp l e = .ok c := by
  show (do match ← s.oppositeEdge l e with
    | none => return none
    | some c => return some (c.1, c.2.toNat)) = Except.ok c
  rw [h]
  cases c <;> rfl

theorem mod_two {a n : ℕ} (h : a < 2 * n) : a % n = if a < n then a else a - n := by
  split_ifs with h1
  · exact Nat.mod_eq_of_lt h1
  · rw [Nat.mod_eq_sub_mod (by omega), Nat.mod_eq_of_lt (by omega)]

end RSurf

namespace MSurf
open RSurf
variable {L K : Type} [LinearOrder L] [LabelNum L] [Field K] [LinearOrder K] [IsStrictOrderedRing K]

/-- Joining polygons removes two glued edges. -/
theorem retri_joinPolygons {s t : MSurf L (Poly K)} (h : Reachable s) (hm : s.mutable = true) (hv : ∀ l p, s.polygon l = .ok p → p.Valid)
    {p1 : L} {e1 : ℕ} (ht : joinPolygons p1 e1 s = .ok () t) :
    ∃ (p2 : L) (e2 : ℕ) (old : L × ℕ → L × ℕ), p1 ≠ p2 ∧ (∃ p, s.polygon p1 = .ok p) ∧ (∃ p, s.polygon p2 = .ok p) ∧
      (∀ l, (∃ p, t.polygon l = .ok p) ↔ (∃ p, s.polygon l = .ok p) ∧ l ≠ p2) ∧
      s.oppositeEdge p1 (e1 : Int) = .ok (some (p2, (e2 : Int))) ∧ s.oppositeEdge p2 (e2 : Int) = .ok (some (p1, (e1 : Int))) ∧
      Retri (ofMSurf s) (fun l => ∃ p, s.polygon l = .ok p) (ofMSurf t) (fun l => ∃ p, t.polygon l = .ok p) {(p1, e1), (p2, e2)} ∅ old := by
  obtain ⟨p2, e2, q1, q2, q, g, hne, ho, hp1, hp2, -, tp1, tp2, tpo, hq, -, -, -, -, hold⟩ := C28_join_polygons h hm p1 e1 ht
  obtain ⟨old, hdef⟩ : ∃ old : L × ℕ → L × ℕ, old = (fun x : L × ℕ => if x.1 ≠ p1 ∨ x.2 < e1 then x
          else if x.2 < e1 + (q2.length - 1) then (p2, (e2 + 1 + (x.2 - e1)) % q2.length)
          else (p1, x.2 + 2 - q2.length)) := ⟨_, rfl⟩
  replace hold := hold old (fun x => by rw [hdef])
  have hold1 : ∀ l i, l ≠ p1 ∨ i < e1 → old (l, i) = (l, i) := by
    intro l i hi; rw [hdef]; exact if_pos hi
  have hold2 : ∀ i, e1 ≤ i → i < e1 + (q2.length - 1) → old (p1, i) = (p2, (e2 + 1 + (i - e1)) % q2.length) := by
    intro i hi hi'
    rw [hdef]; dsimp only; rw [if_neg (by simp; omega), if_pos hi']
  have hold3 : ∀ i, e1 ≤ i → e1 + (q2.length - 1) ≤ i → old (p1, i) = (p1, i + 2 - q2.length) := by
    intro i hi hi'
    rw [hdef]; dsimp only; rw [if_neg (by simp; omega), if_neg (by omega)]
  obtain ⟨k, hk, hE2, hb, -, hE1⟩ := oppositeEdge_some h.ginv ho
  dsimp only at hk hE2 hb
  rw [Int.natCast_inj] at hk
  subst hk
  have ho2 : s.oppositeEdge p2 (e2 : Int) = .ok (some (p1, (e1 : Int))) := by rw [oppositeEdge_eq_opp h.ginv.toShape hE2, hb]
  have he1 : e1 < q1.length := by
    obtain ⟨p, hp, he⟩ := hE1
    rw [polygon_ok.1 hp1] at hp; injection hp with hp; subst hp; exact he
  have he2 : e2 < q2.length := by
    obtain ⟨p, hp, he⟩ := hE2
    rw [polygon_ok.1 hp2] at hp; injection hp with hp; subst hp; exact he
  have n1 := (hv p1 q1 hp1).len3
  have n2 := (hv p2 q2 hp2).len3
  have hlab : ∀ l, (∃ p, t.polygon l = .ok p) ↔ (∃ p, s.polygon l = .ok p) ∧ l ≠ p2 := by
    intro l
    by_cases h2 : l = p2
    · subst h2; rw [tp2]; simp
    · by_cases h1 : l = p1
      · subst h1; simp [tp1, hp1, hne]
      · rw [tpo l h1 h2]; simp [h2]
  have sS : ∀ l p, s.polygon l = .ok p → (ofMSurf s).sides l = p.length := fun l p hp => sides_eq (S := ofMSurf s) hp
  have sT : ∀ l p, t.polygon l = .ok p → (ofMSurf t).sides l = p.length := fun l p hp => sides_eq (S := ofMSurf t) hp
  have a1 : (ofMSurf s).opp p1 e1 = .ok (some (p2, e2)) := ofMSurf_opp (c := some (p2, e2)) ho
  have a2 : (ofMSurf s).opp p2 e2 = .ok (some (p1, e1)) := ofMSurf_opp (c := some (p1, e1)) ho2
  have nx1 : ∀ i, (ofMSurf s).nextF (p1, i) = (p1, (i + 1) % q1.length) := fun i => by unfold nextF; rw [sS _ _ hp1]
  have nx2 : ∀ i, (ofMSurf s).nextF (p2, i) = (p2, (i + 1) % q2.length) := fun i => by unfold nextF; rw [sS _ _ hp2]
  have nxt : ∀ i, (ofMSurf t).nextF (p1, i) = (p1, (i + 1) % q.length) := fun i => by unfold nextF; rw [sT _ _ tp1]
  have nxo : ∀ l i, l ≠ p1 → l ≠ p2 → (ofMSurf t).nextF (l, i) = (ofMSurf s).nextF (l, i) := fun l i h1 h2 => by
    have : (ofMSurf t).polygon l = (ofMSurf s).polygon l := tpo l h1 h2
    unfold nextF sides
    rw [this]
  have mem : ∀ l i, (l, i) ∈ ({(p1, e1), (p2, e2)} : Finset (L × ℕ)) ↔ (l = p1 ∧ i = e1) ∨ (l = p2 ∧ i = e2) := by
    intro l i; simp [Prod.ext_iff]
  -- the edges after the edges
  have sk1 : ∀ i, (ofMSurf s).skipNext {(p1, e1), (p2, e2)} (p1, i) =
      if (i + 1) % q1.length = e1 then (p2, (e2 + 1) % q2.length) else (p1, (i + 1) % q1.length) := by
    intro i
    unfold skipNext
    rw [nx1]
    by_cases hi : (i + 1) % q1.length = e1
    · rw [if_pos ((mem _ _).2 (.inl ⟨rfl, hi⟩)), if_pos hi, hi, oppF_eq (S := ofMSurf s) (d := (p1, e1)) a1, nx2]
    · rw [if_neg (fun h' => ((mem _ _).1 h').elim (fun h' => hi h'.2) (fun h' => hne h'.1)), if_neg hi]
  have sk2 : ∀ i, (ofMSurf s).skipNext {(p1, e1), (p2, e2)} (p2, i) =
      if (i + 1) % q2.length = e2 then (p1, (e1 + 1) % q1.length) else (p2, (i + 1) % q2.length) := by
    intro i
    unfold skipNext
    rw [nx2]
    by_cases hi : (i + 1) % q2.length = e2
    · rw [if_pos ((mem _ _).2 (.inr ⟨rfl, hi⟩)), if_pos hi, hi, oppF_eq (S := ofMSurf s) (d := (p2, e2)) a2, nx1]
    · rw [if_neg (fun h' => ((mem _ _).1 h').elim (fun h' => hne h'.1.symm) (fun h' => hi h'.2)), if_neg hi]
  have sko : ∀ l i, l ≠ p1 → l ≠ p2 → (ofMSurf s).skipNext {(p1, e1), (p2, e2)} (l, i) = (ofMSurf s).nextF (l, i) := by
    intro l i h1 h2
    unfold skipNext
    exact if_neg (fun h' => ((mem _ _).1 h').elim (fun h' => h1 h'.1) (fun h' => h2 h'.1))
  have cases : ∀ d, (ofMSurf t).IsDart (fun l => ∃ p, t.polygon l = .ok p) d →
      (∃ l i, d = (l, i) ∧ l ≠ p1 ∧ l ≠ p2 ∧ old d = (l, i) ∧ ∃ p, s.polygon l = .ok p ∧ i < p.length) ∨
      (∃ i, d = (p1, i) ∧ i < e1 ∧ old d = (p1, i)) ∨
      (∃ j, d = (p1, e1 + j) ∧ j < q2.length - 1 ∧ old d = (p2, if e2 + 1 + j < q2.length then e2 + 1 + j else e2 + 1 + j - q2.length)) ∨
      (∃ i, d = (p1, i) ∧ e1 + (q2.length - 1) ≤ i ∧ i < q.length ∧ old d = (p1, i + 2 - q2.length)) := by
    rintro ⟨l, i⟩ ⟨hl, p, hp, hi⟩
    dsimp only at hp hi hl
    by_cases h1 : l = p1
    · subst h1
      have : (ofMSurf t).polygon l = .ok q := tp1
      rw [hp] at this; injection this with this; subst this
      by_cases h2 : i < e1
      · exact .inr (.inl ⟨i, rfl, h2, hold1 _ _ (.inr h2)⟩)
      · by_cases h3 : i < e1 + (q2.length - 1)
        · refine .inr (.inr (.inl ⟨i - e1, by rw [Nat.add_sub_cancel' (by omega)], by omega, ?_⟩))
          rw [hold2 i (by omega) h3, mod_two (by omega)]
        · exact .inr (.inr (.inr ⟨i, rfl, by omega, hi, hold3 i (by omega) (by omega)⟩))
    · have h2 : l ≠ p2 := ((hlab l).1 hl).2
      refine .inl ⟨l, i, rfl, h1, h2, hold1 _ _ (.inl h1), p, ?_, hi⟩
      rw [← tpo l h1 h2]; exact hp
  refine ⟨p2, e2, old, hne, ⟨q1, hp1⟩, ⟨q2, hp2⟩, hlab, ho, ho2, ⟨?_, ?_, ?_⟩, ⟨?_, ?_, ?_⟩, ?_, ?_, ?_, ?_, ?_⟩
  · rintro ⟨l, i⟩ hz
    rcases (mem _ _).1 hz with ⟨rfl, rfl⟩ | ⟨rfl, rfl⟩
    · exact ⟨⟨_, hp1⟩, q1, hp1, he1⟩
    · exact ⟨⟨_, hp2⟩, q2, hp2, he2⟩
  · rintro ⟨l, i⟩ hz
    rcases (mem _ _).1 hz with ⟨rfl, rfl⟩ | ⟨rfl, rfl⟩
    · exact ⟨_, (mem _ _).2 (.inr ⟨rfl, rfl⟩), a1⟩
    · exact ⟨_, (mem _ _).2 (.inl ⟨rfl, rfl⟩), a2⟩
  · rintro ⟨l, i⟩ hz
    rcases (mem _ _).1 hz with ⟨rfl, rfl⟩ | ⟨rfl, rfl⟩
    · rw [nx1, mem, mod_two (by omega)]
      split_ifs <;> rintro (⟨-, h⟩ | ⟨h, -⟩) <;> first | exact hne h | omega
    · rw [nx2, mem, mod_two (by omega)]
      split_ifs <;> rintro (⟨h, -⟩ | ⟨-, h⟩) <;> first | exact hne h.symm | omega
  · intro z hz; exact absurd hz (Finset.notMem_empty _)
  · intro z hz; exact absurd hz (Finset.notMem_empty _)
  · intro z hz; exact absurd hz (Finset.notMem_empty _)
  · rintro d hd -
    rcases cases d hd with ⟨l, i, rfl, h1, h2, e, p, hp, hi⟩ | ⟨i, rfl, h1, e⟩ | ⟨j, rfl, h1, e⟩ | ⟨i, rfl, h1, h2, e⟩ <;> rw [e, mem]
    · exact ⟨⟨⟨p, hp⟩, p, hp, hi⟩, by tauto⟩
    · exact ⟨⟨⟨_, hp1⟩, _, hp1, by dsimp only; omega⟩, by rintro (⟨-, h⟩ | ⟨h, -⟩) <;> first | exact hne h | omega⟩
    · split_ifs
      · exact ⟨⟨⟨_, hp2⟩, _, hp2, by dsimp only; omega⟩, by rintro (⟨h, -⟩ | ⟨-, h⟩) <;> first | exact hne h.symm | omega⟩
      · exact ⟨⟨⟨_, hp2⟩, _, hp2, by dsimp only; omega⟩, by rintro (⟨h, -⟩ | ⟨-, h⟩) <;> first | exact hne h.symm | omega⟩
    · exact ⟨⟨⟨_, hp1⟩, _, hp1, by dsimp only; omega⟩, by rintro (⟨-, h⟩ | ⟨h, -⟩) <;> first | exact hne h | omega⟩
  · rintro d d' hd - hd' - hh
    rcases cases d hd with ⟨l, i, rfl, h1, h2, e, -⟩ | ⟨i, rfl, h1, e⟩ | ⟨j, rfl, h1, e⟩ | ⟨i, rfl, h1, h2, e⟩ <;>
    rcases cases d' hd' with ⟨l', i', rfl, h1', h2', e', -⟩ | ⟨i', rfl, h1', e'⟩ | ⟨j', rfl, h1', e'⟩ | ⟨i', rfl, h1', h2', e'⟩ <;>
    rw [e, e', Prod.mk.injEq] at hh <;> obtain ⟨hl, hh⟩ := hh <;>
    first
      | exact absurd hl.symm ‹_›
      | exact absurd hl ‹_›
      | exact absurd hl (Ne.symm hne)
      | (rw [Prod.mk.injEq]; exact ⟨hl, by first | omega | (split_ifs at hh <;> omega)⟩)
      | (rw [Prod.mk.injEq]; exact ⟨rfl, by first | omega | (split_ifs at hh <;> omega)⟩)
  · rintro ⟨l, i⟩ ⟨hl, p, hp, hi⟩ hX
    rw [mem] at hX
    dsimp only at hp hi hl
    by_cases h1 : l = p1
    · subst h1
      have : (ofMSurf s).polygon l = .ok q1 := hp1
      rw [hp] at this; injection this with this; subst this
      by_cases h2 : i < e1
      · exact ⟨(l, i), ⟨⟨_, tp1⟩, q, tp1, by dsimp only; omega⟩, Finset.notMem_empty _, hold1 _ _ (.inr h2)⟩
      · have : i ≠ e1 := fun h' => hX (.inl ⟨rfl, h'⟩)
        refine ⟨(l, i + q2.length - 2), ⟨⟨_, tp1⟩, q, tp1, by dsimp only; omega⟩, Finset.notMem_empty _, ?_⟩
        rw [hold3 _ (by omega) (by omega)]
        exact congrArg _ (by omega)
    · by_cases h2 : l = p2
      · subst h2
        have : (ofMSurf s).polygon l = .ok q2 := hp2
        rw [hp] at this; injection this with this; subst this
        have : i ≠ e2 := fun h' => hX (.inr ⟨rfl, h'⟩)
        by_cases h3 : i < e2
        · refine ⟨(p1, e1 + (i + p.length - (e2 + 1))), ⟨⟨_, tp1⟩, q, tp1, by dsimp only; omega⟩, Finset.notMem_empty _, ?_⟩
          rw [hold2 _ (by omega) (by omega), mod_two (by omega), if_neg (by omega)]
          exact congrArg _ (by omega)
        · refine ⟨(p1, e1 + (i - (e2 + 1))), ⟨⟨_, tp1⟩, q, tp1, by dsimp only; omega⟩, Finset.notMem_empty _, ?_⟩
          rw [hold2 _ (by omega) (by omega), mod_two (by omega), if_pos (by omega)]
          exact congrArg _ (by omega)
      · have htp : t.polygon l = .ok p := by rw [tpo l h1 h2]; exact hp
        exact ⟨(l, i), ⟨⟨_, htp⟩, p, htp, hi⟩, Finset.notMem_empty _, hold1 _ _ (.inl h1)⟩
  · rintro ⟨l, i⟩ ⟨hl, p, hp, hi⟩ -
    obtain ⟨c, c1, c2⟩ := hold l p i hp hi
    exact ⟨c, ofMSurf_opp c1, ofMSurf_opp c2⟩
  · rintro d hd -
    have hsk : ∀ d, (ofMSurf t).skipNext ∅ d = (ofMSurf t).nextF d := fun d => if_neg (Finset.notMem_empty _)
    rw [hsk]
    rcases cases d hd with ⟨l, i, rfl, h1, h2, e, p, hp, hi⟩ | ⟨i, rfl, h1, e⟩ | ⟨j, rfl, h1, e⟩ | ⟨i, rfl, h1, h2, e⟩ <;> rw [e]
    · rw [sko l i h1 h2, nxo l i h1 h2]
      exact hold1 _ _ (.inl h1)
    · rw [sk1, nxt, Nat.mod_eq_of_lt (by omega), Nat.mod_eq_of_lt (by omega)]
      split_ifs with hi
      · rw [hold2 _ (by omega) (by omega), hi, Nat.sub_self]
      · exact hold1 _ _ (.inr (by omega))
    · rw [sk2, nxt, mod_two (a := e1 + j + 1) (by omega)]
      obtain ⟨y, hy⟩ : ∃ y, y = if e2 + 1 + j < q2.length then e2 + 1 + j else e2 + 1 + j - q2.length := ⟨_, rfl⟩
      rw [← hy]
      have hy' : y < q2.length := by split_ifs at hy <;> omega
      rw [mod_two (a := y + 1) (by omega)]
      by_cases hj : j + 1 < q2.length - 1
      · rw [if_pos (by omega), hold2 _ (by omega) (by omega), mod_two (a := e2 + 1 + (e1 + j + 1 - e1)) (by omega)]
        rw [if_neg (c := (if y + 1 < q2.length then y + 1 else y + 1 - q2.length) = e2) (by split_ifs at hy ⊢ <;> omega)]
        refine congrArg _ ?_
        split_ifs at hy ⊢ <;> omega
      · rw [if_pos (c := (if y + 1 < q2.length then y + 1 else y + 1 - q2.length) = e2) (by split_ifs at hy ⊢ <;> omega), mod_two (a := e1 + 1) (by omega)]
        by_cases h3 : e1 + j + 1 < q.length
        · rw [if_pos h3, hold3 _ (by omega) (by omega), if_pos (by omega)]
          exact congrArg _ (by omega)
        · rw [if_neg h3, if_neg (by omega)]
          by_cases h4 : e1 = 0
          · omega
          · rw [hold1 _ _ (.inr (by omega))]
            exact congrArg _ (by omega)
    · rw [sk1, nxt, mod_two (a := i + 1) (by omega), mod_two (a := i + 2 - q2.length + 1) (by omega)]
      by_cases h3 : i + 1 < q.length
      · rw [if_pos h3, hold3 _ (by omega) (by omega), if_pos (c := i + 2 - q2.length + 1 < q1.length) (by omega), if_neg (by omega)]
        exact congrArg _ (by omega)
      · rw [if_neg h3, if_neg (c := i + 2 - q2.length + 1 < q1.length) (by omega)]
        by_cases h4 : e1 = 0
        · rw [hold2 _ (by omega) (by omega), if_pos (by omega)]
          exact congrArg _ (congrArg₂ _ (by omega) rfl)
        · rw [hold1 _ _ (.inr (by omega)), if_neg (by omega)]
          exact congrArg _ (by omega)

/-- Subdividing a polygon adds two glued edges. -/
theorem retri_subdividePolygon {s t : MSurf L (Poly K)} (h : Reachable s) (hm : s.mutable = true) (hv : ∀ l p, s.polygon l = .ok p → p.Valid)
    {p : L} {v1 v2 : ℕ} {newLabel : Option L} (ht : subdividePolygon p v1 v2 newLabel s = .ok () t) :
    ∃ (N : L) (old : L × ℕ → L × ℕ), (∃ q, s.polygon p = .ok q) ∧ p ≠ N ∧
      (∀ l, (∃ q, t.polygon l = .ok q) ↔ (∃ q, s.polygon l = .ok q) ∨ l = N) ∧ (¬ ∃ q, s.polygon N = .ok q) ∧
      t.oppositeEdge p 0 = .ok (some (N, 0)) ∧ t.oppositeEdge N 0 = .ok (some (p, 0)) ∧
      Retri (ofMSurf s) (fun l => ∃ p, s.polygon l = .ok p) (ofMSurf t) (fun l => ∃ p, t.polygon l = .ok p) ∅ {(p, 0), (N, 0)} old := by
  obtain ⟨N, q, q1, q2, hp, hN, -, tp, tN, tpo, hv1, hv2, len1, len2, n1, n2, -, -, -, -, -, ho, ho2, hold⟩ :=
    C27_subdivide_polygon h hm p v1 v2 newLabel ht
  have n := (hv p q hp).len3
  have hne : p ≠ N := by rintro rfl; rw [hp] at hN; cases hN
  have hvne : v1 ≠ v2 := by
    rintro rfl
    rw [Nat.add_sub_cancel_left, Nat.mod_self] at len1
    omega
  obtain ⟨a, ha⟩ : ∃ a, a = if v2 < v1 then v1 - v2 else v1 + q.length - v2 := ⟨_, rfl⟩
  have len1' : q1.length = 1 + a := by
    rw [len1, mod_two (by omega), ha]; split_ifs <;> omega
  have len2' : q2.length = 1 + (q.length - a) := by
    rw [len2, mod_two (by omega), ha]; split_ifs <;> omega
  clear len1 len2
  obtain ⟨old, hdef⟩ : ∃ old : L × ℕ → L × ℕ, old = (fun x : L × ℕ => if x.1 = p then (p, (v2 + (x.2 - 1)) % q.length)
          else if x.1 = N then (p, (v1 + (x.2 - 1)) % q.length) else x) := ⟨_, rfl⟩
  replace hold := hold old (fun x => by rw [hdef])
  have hold1 : ∀ i, old (p, i) = (p, (v2 + (i - 1)) % q.length) := by
    intro i; rw [hdef]; exact if_pos rfl
  have hold2 : ∀ i, old (N, i) = (p, (v1 + (i - 1)) % q.length) := by
    intro i; rw [hdef]; dsimp only; rw [if_neg hne.symm, if_pos rfl]
  have hold3 : ∀ l i, l ≠ p → l ≠ N → old (l, i) = (l, i) := by
    intro l i h1 h2; rw [hdef]; dsimp only; rw [if_neg h1, if_neg h2]
  have hlab : ∀ l, (∃ q, t.polygon l = .ok q) ↔ (∃ q, s.polygon l = .ok q) ∨ l = N := by
    intro l
    by_cases h2 : l = N
    · subst h2; simp [tN]
    · by_cases h1 : l = p
      · subst h1; simp [tp, hp]
      · rw [tpo l h1 h2]; simp [h2]
  have sS : ∀ l p, s.polygon l = .ok p → (ofMSurf s).sides l = p.length := fun l p hp => sides_eq (S := ofMSurf s) hp
  have sT : ∀ l p, t.polygon l = .ok p → (ofMSurf t).sides l = p.length := fun l p hp => sides_eq (S := ofMSurf t) hp
  have a1 : (ofMSurf t).opp p 0 = .ok (some (N, 0)) := ofMSurf_opp (c := some (N, 0)) ho
  have a2 : (ofMSurf t).opp N 0 = .ok (some (p, 0)) := ofMSurf_opp (c := some (p, 0)) ho2
  have nxs : ∀ i, (ofMSurf s).nextF (p, i) = (p, (i + 1) % q.length) := fun i => by unfold nextF; rw [sS _ _ hp]
  have nx1 : ∀ i, (ofMSurf t).nextF (p, i) = (p, (i + 1) % q1.length) := fun i => by unfold nextF; rw [sT _ _ tp]
  have nx2 : ∀ i, (ofMSurf t).nextF (N, i) = (N, (i + 1) % q2.length) := fun i => by unfold nextF; rw [sT _ _ tN]
  have nxo : ∀ l i, l ≠ p → l ≠ N → (ofMSurf t).nextF (l, i) = (ofMSurf s).nextF (l, i) := fun l i h1 h2 => by
    have : (ofMSurf t).polygon l = (ofMSurf s).polygon l := tpo l h1 h2
    unfold nextF sides
    rw [this]
  have mem : ∀ l i, (l, i) ∈ ({(p, 0), (N, 0)} : Finset (L × ℕ)) ↔ (l = p ∧ i = 0) ∨ (l = N ∧ i = 0) := by
    intro l i; simp [Prod.ext_iff]
  have sk1 : ∀ i, i < q1.length → (ofMSurf t).skipNext {(p, 0), (N, 0)} (p, i) = if i + 1 = q1.length then (N, 1) else (p, i + 1) := by
    intro i hi
    unfold skipNext
    rw [nx1]
    by_cases hi' : i + 1 = q1.length
    · rw [hi', Nat.mod_self, if_pos ((mem _ _).2 (.inl ⟨rfl, rfl⟩)), if_pos rfl, oppF_eq (S := ofMSurf t) (d := (p, 0)) a1, nx2,
        Nat.mod_eq_of_lt (by omega)]
    · rw [Nat.mod_eq_of_lt (by omega), if_neg (fun h' => ((mem _ _).1 h').elim (fun h' => by omega) (fun h' => by omega)), if_neg hi']
  have sk2 : ∀ i, i < q2.length → (ofMSurf t).skipNext {(p, 0), (N, 0)} (N, i) = if i + 1 = q2.length then (p, 1) else (N, i + 1) := by
    intro i hi
    unfold skipNext
    rw [nx2]
    by_cases hi' : i + 1 = q2.length
    · rw [hi', Nat.mod_self, if_pos ((mem _ _).2 (.inr ⟨rfl, rfl⟩)), if_pos rfl, oppF_eq (S := ofMSurf t) (d := (N, 0)) a2, nx1,
        Nat.mod_eq_of_lt (by omega)]
    · rw [Nat.mod_eq_of_lt (by omega), if_neg (fun h' => ((mem _ _).1 h').elim (fun h' => by omega) (fun h' => by omega)), if_neg hi']
  have sko : ∀ l i, l ≠ p → l ≠ N → (ofMSurf t).skipNext {(p, 0), (N, 0)} (l, i) = (ofMSurf t).nextF (l, i) := by
    intro l i h1 h2
    unfold skipNext
    exact if_neg (fun h' => ((mem _ _).1 h').elim (fun h' => h1 h'.1) (fun h' => h2 h'.1))
  have hsk : ∀ d, (ofMSurf s).skipNext ∅ d = (ofMSurf s).nextF d := fun d => if_neg (Finset.notMem_empty _)
  have cases : ∀ d, (ofMSurf t).IsDart (fun l => ∃ p, t.polygon l = .ok p) d → d ∉ ({(p, 0), (N, 0)} : Finset (L × ℕ)) →
      (∃ l i, d = (l, i) ∧ l ≠ p ∧ l ≠ N ∧ old d = (l, i) ∧ ∃ p, s.polygon l = .ok p ∧ i < p.length) ∨
      (∃ i, d = (p, i + 1) ∧ i < a ∧ old d = (p, if v2 + i < q.length then v2 + i else v2 + i - q.length)) ∨
      (∃ i, d = (N, i + 1) ∧ i < q.length - a ∧ old d = (p, if v1 + i < q.length then v1 + i else v1 + i - q.length)) := by
    rintro ⟨l, i⟩ ⟨hl, r, hr, hi⟩ hX
    rw [mem] at hX
    dsimp only at hr hi hl
    by_cases h1 : l = p
    · subst h1
      have : (ofMSurf t).polygon l = .ok q1 := tp
      rw [hr] at this; injection this with this; subst this
      have hi0 : i ≠ 0 := fun h' => hX (.inl ⟨rfl, h'⟩)
      refine .inr (.inl ⟨i - 1, by rw [Nat.sub_add_cancel (by omega)], by omega, ?_⟩)
      rw [hold1, mod_two (by split_ifs at ha <;> omega)]
    · by_cases h2 : l = N
      · subst h2
        have : (ofMSurf t).polygon l = .ok q2 := tN
        rw [hr] at this; injection this with this; subst this
        have hi0 : i ≠ 0 := fun h' => hX (.inr ⟨rfl, h'⟩)
        refine .inr (.inr ⟨i - 1, by rw [Nat.sub_add_cancel (by omega)], by omega, ?_⟩)
        rw [hold2, mod_two (by split_ifs at ha <;> omega)]
      · refine .inl ⟨l, i, rfl, h1, h2, hold3 _ _ h1 h2, r, ?_, hi⟩
        rw [← tpo l h1 h2]; exact hr
  refine ⟨N, old, ⟨q, hp⟩, hne, hlab, by rw [hN]; simp, ho, ho2, ⟨?_, ?_, ?_⟩, ⟨?_, ?_, ?_⟩, ?_, ?_, ?_, ?_, ?_⟩
  · intro z hz; exact absurd hz (Finset.notMem_empty _)
  · intro z hz; exact absurd hz (Finset.notMem_empty _)
  · intro z hz; exact absurd hz (Finset.notMem_empty _)
  · rintro ⟨l, i⟩ hz
    rcases (mem _ _).1 hz with ⟨rfl, rfl⟩ | ⟨rfl, rfl⟩
    · exact ⟨⟨_, tp⟩, q1, tp, by dsimp only; omega⟩
    · exact ⟨⟨_, tN⟩, q2, tN, by dsimp only; omega⟩
  · rintro ⟨l, i⟩ hz
    rcases (mem _ _).1 hz with ⟨rfl, rfl⟩ | ⟨rfl, rfl⟩
    · exact ⟨_, (mem _ _).2 (.inr ⟨rfl, rfl⟩), a1⟩
    · exact ⟨_, (mem _ _).2 (.inl ⟨rfl, rfl⟩), a2⟩
  · rintro ⟨l, i⟩ hz
    rcases (mem _ _).1 hz with ⟨rfl, rfl⟩ | ⟨rfl, rfl⟩
    · rw [nx1, mem, Nat.mod_eq_of_lt (by omega)]
      omega
    · rw [nx2, mem, Nat.mod_eq_of_lt (by omega)]
      omega
  · intro d hd hX
    rcases cases d hd hX with ⟨l, i, rfl, h1, h2, e, r, hr, hi⟩ | ⟨i, rfl, h1, e⟩ | ⟨i, rfl, h1, e⟩ <;> rw [e] <;>
      refine ⟨?_, Finset.notMem_empty _⟩
    · exact ⟨⟨r, hr⟩, r, hr, hi⟩
    · exact ⟨⟨_, hp⟩, _, hp, by dsimp only; split_ifs at ha ⊢ <;> omega⟩
    · exact ⟨⟨_, hp⟩, _, hp, by dsimp only; split_ifs at ha ⊢ <;> omega⟩
  · intro d d' hd hX hd' hX' hh
    rcases cases d hd hX with ⟨l, i, rfl, h1, h2, e, -⟩ | ⟨i, rfl, h1, e⟩ | ⟨i, rfl, h1, e⟩ <;>
    rcases cases d' hd' hX' with ⟨l', i', rfl, h1', h2', e', -⟩ | ⟨i', rfl, h1', e'⟩ | ⟨i', rfl, h1', e'⟩ <;>
    rw [e, e', Prod.mk.injEq] at hh <;> obtain ⟨hl, hh⟩ := hh <;>
    first
      | exact absurd hl.symm ‹_›
      | exact absurd hl ‹_›
      | (rw [Prod.mk.injEq]; exact ⟨hl, by omega⟩)
      | (rw [Prod.mk.injEq]; exact ⟨rfl, by (split_ifs at hh ha <;> omega)⟩)
      | (exfalso; split_ifs at hh ha <;> omega)
  · rintro ⟨l, i⟩ ⟨hl, r, hr, hi⟩ -
    dsimp only at hr hi hl
    by_cases h1 : l = p
    · subst h1
      have : (ofMSurf s).polygon l = .ok q := hp
      rw [hr] at this; injection this with this; subst this
      -- the distance from v2
      obtain ⟨k, hk⟩ : ∃ k, k = if v2 ≤ i then i - v2 else i + r.length - v2 := ⟨_, rfl⟩
      by_cases h2 : k < a
      · refine ⟨(l, k + 1), ⟨⟨_, tp⟩, q1, tp, by dsimp only; omega⟩, by rw [mem]; omega, ?_⟩
        rw [hold1, mod_two (by split_ifs at ha hk <;> omega)]
        exact congrArg _ (by split_ifs at ha hk ⊢ <;> omega)
      · refine ⟨(N, k - a + 1), ⟨⟨_, tN⟩, q2, tN, by dsimp only; split_ifs at ha hk <;> omega⟩, by rw [mem]; omega, ?_⟩
        rw [hold2, mod_two (by split_ifs at ha hk <;> omega)]
        exact congrArg _ (by split_ifs at ha hk ⊢ <;> omega)
    · have h2 : l ≠ N := by
        rintro rfl
        have : (ofMSurf s).polygon l = .error .keyError := hN
        rw [hr] at this; cases this
      have htp : t.polygon l = .ok r := by rw [tpo l h1 h2]; exact hr
      exact ⟨(l, i), ⟨⟨_, htp⟩, r, htp, hi⟩, by rw [mem]; tauto, hold3 _ _ h1 h2⟩
  · rintro ⟨l, i⟩ ⟨hl, r, hr, hi⟩ hX
    rw [mem] at hX
    obtain ⟨c, c1, c2⟩ := hold l r i hr hi (by rw [Ne, Prod.mk.injEq]; tauto) (by rw [Ne, Prod.mk.injEq]; tauto)
    exact ⟨c, ofMSurf_opp c1, ofMSurf_opp c2⟩
  · intro d hd hX
    rw [hsk]
    rcases cases d hd hX with ⟨l, i, rfl, h1, h2, e, r, hr, hi⟩ | ⟨i, rfl, h1, e⟩ | ⟨i, rfl, h1, e⟩ <;> rw [e]
    · rw [sko l i h1 h2, nxo l i h1 h2]
      exact hold3 _ _ h1 h2
    · rw [sk1 _ (by omega), nxs]
      obtain ⟨y, hy⟩ : ∃ y, y = if v2 + i < q.length then v2 + i else v2 + i - q.length := ⟨_, rfl⟩
      rw [← hy, mod_two (a := y + 1) (by split_ifs at hy ha <;> omega)]
      by_cases hi : i + 1 = a
      · rw [if_pos (by omega), hold2, Nat.mod_eq_of_lt (by omega)]
        exact congrArg _ (by split_ifs at ha hy ⊢ <;> omega)
      · rw [if_neg (by omega), hold1, mod_two (by split_ifs at ha <;> omega)]
        exact congrArg _ (by split_ifs at ha hy ⊢ <;> omega)
    · rw [sk2 _ (by omega), nxs]
      obtain ⟨y, hy⟩ : ∃ y, y = if v1 + i < q.length then v1 + i else v1 + i - q.length := ⟨_, rfl⟩
      rw [← hy, mod_two (a := y + 1) (by split_ifs at hy ha <;> omega)]
      by_cases hi : i + 1 = q.length - a
      · rw [if_pos (by omega), hold1, Nat.mod_eq_of_lt (by omega)]
        exact congrArg _ (by split_ifs at ha hy ⊢ <;> omega)
      · rw [if_neg (by omega), hold2, mod_two (by split_ifs at ha <;> omega)]
        exact congrArg _ (by split_ifs at ha hy ⊢ <;> omega)

omit [LabelNum L] in
/-- Flipping a diagonal removes two glued edges and adds two. -/
theorem retri_triangleFlip [LabelNum L] {s t : MSurf L (Poly K)} (h : Reachable s) (hm : s.mutable = true)
    {l0 : L} {d0 : ℕ} (ht : triangleFlip l0 d0 s = .ok () t) :
    ∃ (l1 : L) (d1 : ℕ) (old : L × ℕ → L × ℕ), old = flipOld l0 d0 l1 d1 ∧ (l0 = l1 → d0 = d1) ∧ d0 < 3 ∧ d1 < 3 ∧
      (ofMSurf s).sides l0 = 3 ∧ (ofMSurf s).sides l1 = 3 ∧ (∀ l, (ofMSurf t).sides l = (ofMSurf s).sides l) ∧
      (∀ l, (∃ q, t.polygon l = .ok q) ↔ (∃ q, s.polygon l = .ok q)) ∧
      s.oppositeEdge l0 d0 = .ok (some (l1, (d1 : Int))) ∧ s.oppositeEdge l1 d1 = .ok (some (l0, (d0 : Int))) ∧
      t.oppositeEdge l0 d0 = .ok (some (l1, (d1 : Int))) ∧ t.oppositeEdge l1 d1 = .ok (some (l0, (d0 : Int))) ∧
      Retri (ofMSurf s) (fun l => ∃ p, s.polygon l = .ok p) (ofMSurf t) (fun l => ∃ p, t.polygon l = .ok p) {(l0, d0), (l1, d1)}
        {(l0, d0), (l1, d1)} old := by
  obtain ⟨l1, d1, P0, P1, Q0, Q1, g, ho, -, hp0, hp1, n0, n1, hself, tp1, tp0', tpo, m0, m1, -, -, -, -, -, -, -, -, to0, to1, hold⟩ :=
    C26_triangle_flip h hm l0 d0 ht
  obtain ⟨k, hk, hE1, hb, -, hE0⟩ := oppositeEdge_some h.ginv ho
  dsimp only at hk hE1 hb
  rw [Int.natCast_inj] at hk
  subst hk
  have so1 : s.oppositeEdge l1 (d1 : Int) = .ok (some (l0, (d0 : Int))) := by rw [oppositeEdge_eq_opp h.ginv.toShape hE1, hb]
  have hd0 : d0 < 3 := by
    obtain ⟨p, hp, he⟩ := hE0
    rw [polygon_ok.1 hp0] at hp; injection hp with hp; subst hp; rw [← n0]; exact he
  have hd1 : d1 < 3 := by
    obtain ⟨p, hp, he⟩ := hE1
    rw [polygon_ok.1 hp1] at hp; injection hp with hp; subst hp; rw [← n1]; exact he
  obtain ⟨R0, tp0, m0'⟩ : ∃ R, t.polygon l0 = .ok R ∧ R.length = 3 := by
    by_cases hl : l0 = l1
    · exact ⟨Q1, by rw [hl]; exact tp1, m1⟩
    · exact ⟨Q0, tp0' hl, m0⟩
  have hlab : ∀ l, (∃ q, t.polygon l = .ok q) ↔ (∃ q, s.polygon l = .ok q) := by
    intro l
    by_cases h0 : l = l0
    · subst h0; simp [tp0, hp0]
    · by_cases h1 : l = l1
      · subst h1; simp [tp1, hp1]
      · rw [tpo l h0 h1]
  obtain ⟨old, hdef⟩ : ∃ old : L × ℕ → L × ℕ, old = (fun x : L × ℕ => if x = (l0, (d0 + 1) % 3) then (l0, (d0 + 2) % 3)
          else if x = (l0, (d0 + 2) % 3) then (l1, (d1 + 1) % 3)
          else if x = (l1, (d1 + 1) % 3) then (l1, (d1 + 2) % 3)
          else if x = (l1, (d1 + 2) % 3) then (l0, (d0 + 1) % 3) else x) := ⟨_, rfl⟩
  replace hold := hold old (fun x => by rw [hdef])
  have hold1 : old (l0, (d0 + 1) % 3) = (l0, (d0 + 2) % 3) := by rw [hdef]; exact if_pos rfl
  have hold2 : old (l0, (d0 + 2) % 3) = (l1, (d1 + 1) % 3) := by
    rw [hdef]; dsimp only; rw [if_neg (by rw [Prod.mk.injEq]; omega), if_pos rfl]
  have hold3 : l0 ≠ l1 → old (l1, (d1 + 1) % 3) = (l1, (d1 + 2) % 3) := by
    intro hl
    rw [hdef]; dsimp only
    rw [if_neg (by rw [Prod.mk.injEq]; exact fun h' => hl h'.1.symm), if_neg (by rw [Prod.mk.injEq]; exact fun h' => hl h'.1.symm), if_pos rfl]
  have hold4 : l0 ≠ l1 → old (l1, (d1 + 2) % 3) = (l0, (d0 + 1) % 3) := by
    intro hl
    rw [hdef]; dsimp only
    rw [if_neg (by rw [Prod.mk.injEq]; exact fun h' => hl h'.1.symm), if_neg (by rw [Prod.mk.injEq]; exact fun h' => hl h'.1.symm),
      if_neg (by rw [Prod.mk.injEq]; omega), if_pos rfl]
  have hold5 : ∀ l i, l ≠ l0 → l ≠ l1 → old (l, i) = (l, i) := by
    intro l i h0 h1
    rw [hdef]; dsimp only
    rw [if_neg (by rw [Prod.mk.injEq]; tauto), if_neg (by rw [Prod.mk.injEq]; tauto), if_neg (by rw [Prod.mk.injEq]; tauto),
      if_neg (by rw [Prod.mk.injEq]; tauto)]
  have mem : ∀ l i, (l, i) ∈ ({(l0, d0), (l1, d1)} : Finset (L × ℕ)) ↔ (l = l0 ∧ i = d0) ∨ (l = l1 ∧ i = d1) := by
    intro l i; simp [Prod.ext_iff]
  have sa0 : (ofMSurf s).opp l0 d0 = .ok (some (l1, d1)) := ofMSurf_opp (c := some (l1, d1)) ho
  have sa1 : (ofMSurf s).opp l1 d1 = .ok (some (l0, d0)) := ofMSurf_opp (c := some (l0, d0)) so1
  have ta0 : (ofMSurf t).opp l0 d0 = .ok (some (l1, d1)) := ofMSurf_opp (c := some (l1, d1)) to0
  have ta1 : (ofMSurf t).opp l1 d1 = .ok (some (l0, d0)) := ofMSurf_opp (c := some (l0, d0)) to1
  have ns0 : ∀ i, (ofMSurf s).nextF (l0, i) = (l0, (i + 1) % 3) := fun i => by
    unfold nextF; rw [sides_eq (S := ofMSurf s) hp0, n0]
  have ns1 : ∀ i, (ofMSurf s).nextF (l1, i) = (l1, (i + 1) % 3) := fun i => by
    unfold nextF; rw [sides_eq (S := ofMSurf s) hp1, n1]
  have nt0 : ∀ i, (ofMSurf t).nextF (l0, i) = (l0, (i + 1) % 3) := fun i => by
    unfold nextF; rw [sides_eq (S := ofMSurf t) tp0, m0']
  have nt1 : ∀ i, (ofMSurf t).nextF (l1, i) = (l1, (i + 1) % 3) := fun i => by
    unfold nextF; rw [sides_eq (S := ofMSurf t) tp1, m1]
  have nxo : ∀ l i, l ≠ l0 → l ≠ l1 → (ofMSurf t).nextF (l, i) = (ofMSurf s).nextF (l, i) := fun l i h1 h2 => by
    have : (ofMSurf t).polygon l = (ofMSurf s).polygon l := tpo l h1 h2
    unfold nextF sides
    rw [this]
  -- the edges around the quadrilateral, in a surface with these diagonals
  have skip : ∀ S : RSurf L K, S.opp l0 d0 = .ok (some (l1, d1)) → S.opp l1 d1 = .ok (some (l0, d0)) →
      (∀ i, S.nextF (l0, i) = (l0, (i + 1) % 3)) → (∀ i, S.nextF (l1, i) = (l1, (i + 1) % 3)) →
      S.skipNext {(l0, d0), (l1, d1)} (l0, (d0 + 1) % 3) = (l0, (d0 + 2) % 3) ∧
      S.skipNext {(l0, d0), (l1, d1)} (l0, (d0 + 2) % 3) = (l1, (d1 + 1) % 3) ∧
      S.skipNext {(l0, d0), (l1, d1)} (l1, (d1 + 1) % 3) = (l1, (d1 + 2) % 3) ∧
      S.skipNext {(l0, d0), (l1, d1)} (l1, (d1 + 2) % 3) = (l0, (d0 + 1) % 3) := by
    intro S o0 o1 x0 x1
    unfold skipNext
    simp only [x0, x1]
    have e0 : ((d0 + 1) % 3 + 1) % 3 = (d0 + 2) % 3 := by omega
    have e0' : ((d0 + 2) % 3 + 1) % 3 = d0 := by omega
    have e1 : ((d1 + 1) % 3 + 1) % 3 = (d1 + 2) % 3 := by omega
    have e1' : ((d1 + 2) % 3 + 1) % 3 = d1 := by omega
    rw [e0, e0', e1, e1']
    refine ⟨if_neg ?_, ?_, if_neg ?_, ?_⟩
    · rw [mem]; rintro (⟨-, h'⟩ | ⟨hl, h'⟩)
      · omega
      · have := hself hl; omega
    · rw [if_pos ((mem _ _).2 (.inl ⟨rfl, rfl⟩)), oppF_eq (d := (l0, d0)) o0, x1]
    · rw [mem]; rintro (⟨hl, h'⟩ | ⟨-, h'⟩)
      · have := hself hl.symm; omega
      · omega
    · rw [if_pos ((mem _ _).2 (.inr ⟨rfl, rfl⟩)), oppF_eq (d := (l1, d1)) o1, x0]
  have sko : ∀ (S : RSurf L K) l i, l ≠ l0 → l ≠ l1 → S.skipNext {(l0, d0), (l1, d1)} (l, i) = S.nextF (l, i) := by
    intro S l i h1 h2
    unfold skipNext
    exact if_neg (fun h' => ((mem _ _).1 h').elim (fun h' => h1 h'.1) (fun h' => h2 h'.1))
  obtain ⟨ss1, ss2, ss3, ss4⟩ := skip _ sa0 sa1 ns0 ns1
  obtain ⟨st1, st2, st3, st4⟩ := skip _ ta0 ta1 nt0 nt1
  have three : ∀ d i, d < 3 → i < 3 → i ≠ d → i = (d + 1) % 3 ∨ i = (d + 2) % 3 := by intro d i h1 h2 h3; omega
  -- the edges that are not diagonals
  have cases : ∀ (u : MSurf L (Poly K)) (R0 R1 : Poly K), u.polygon l0 = .ok R0 → u.polygon l1 = .ok R1 → R0.length = 3 → R1.length = 3 →
      ∀ d, (ofMSurf u).IsDart (fun l => ∃ p, u.polygon l = .ok p) d → d ∉ ({(l0, d0), (l1, d1)} : Finset (L × ℕ)) →
      (∃ l i, d = (l, i) ∧ l ≠ l0 ∧ l ≠ l1 ∧ ∃ p, u.polygon l = .ok p ∧ i < p.length) ∨ d = (l0, (d0 + 1) % 3) ∨ d = (l0, (d0 + 2) % 3) ∨
        (l0 ≠ l1 ∧ d = (l1, (d1 + 1) % 3)) ∨ (l0 ≠ l1 ∧ d = (l1, (d1 + 2) % 3)) := by
    rintro u R0 R1 u0 u1 r0 r1 ⟨l, i⟩ ⟨hl, p, hp, hi⟩ hX
    rw [mem] at hX
    dsimp only at hp hi hl
    by_cases h0 : l = l0
    · subst h0
      have : (ofMSurf u).polygon l = .ok R0 := u0
      rw [hp] at this; injection this with this; subst this
      rcases three d0 i hd0 (by omega) (fun h' => hX (.inl ⟨rfl, h'⟩)) with rfl | rfl
      · exact .inr (.inl rfl)
      · exact .inr (.inr (.inl rfl))
    · by_cases h1 : l = l1
      · subst h1
        have : (ofMSurf u).polygon l = .ok R1 := u1
        rw [hp] at this; injection this with this; subst this
        rcases three d1 i hd1 (by omega) (fun h' => hX (.inr ⟨rfl, h'⟩)) with rfl | rfl
        · exact .inr (.inr (.inr (.inl ⟨Ne.symm h0, rfl⟩)))
        · exact .inr (.inr (.inr (.inr ⟨Ne.symm h0, rfl⟩)))
      · exact .inl ⟨l, i, rfl, h0, h1, p, hp, hi⟩
  have dart0 : ∀ (u : MSurf L (Poly K)) (R0 : Poly K), u.polygon l0 = .ok R0 → R0.length = 3 → ∀ i, i = 1 ∨ i = 2 →
      (ofMSurf u).IsDart (fun l => ∃ p, u.polygon l = .ok p) (l0, (d0 + i) % 3) ∧ (l0, (d0 + i) % 3) ∉ ({(l0, d0), (l1, d1)} : Finset (L × ℕ)) := by
    intro u R0 u0 r0 i hi
    refine ⟨⟨⟨_, u0⟩, R0, u0, by dsimp only; omega⟩, ?_⟩
    rw [mem]; rintro (⟨-, h'⟩ | ⟨hl, h'⟩)
    · omega
    · have := hself hl; omega
  have dart1 : ∀ (u : MSurf L (Poly K)) (R1 : Poly K), u.polygon l1 = .ok R1 → R1.length = 3 → ∀ i, i = 1 ∨ i = 2 →
      (ofMSurf u).IsDart (fun l => ∃ p, u.polygon l = .ok p) (l1, (d1 + i) % 3) ∧ (l1, (d1 + i) % 3) ∉ ({(l0, d0), (l1, d1)} : Finset (L × ℕ)) := by
    intro u R1 u1 r1 i hi
    refine ⟨⟨⟨_, u1⟩, R1, u1, by dsimp only; omega⟩, ?_⟩
    rw [mem]; rintro (⟨hl, h'⟩ | ⟨-, h'⟩)
    · have := hself hl.symm; omega
    · omega
  have diag : ∀ (u : MSurf L (Poly K)) (R0 R1 : Poly K), u.polygon l0 = .ok R0 → u.polygon l1 = .ok R1 → R0.length = 3 → R1.length = 3 →
      (ofMSurf u).opp l0 d0 = .ok (some (l1, d1)) → (ofMSurf u).opp l1 d1 = .ok (some (l0, d0)) →
      (∀ i, (ofMSurf u).nextF (l0, i) = (l0, (i + 1) % 3)) → (∀ i, (ofMSurf u).nextF (l1, i) = (l1, (i + 1) % 3)) →
      (ofMSurf u).Diagonal (fun l => ∃ p, u.polygon l = .ok p) {(l0, d0), (l1, d1)} := by
    intro u R0 R1 u0 u1 r0 r1 o0 o1 x0 x1
    constructor
    · rintro ⟨l, i⟩ hz
      rcases (mem _ _).1 hz with ⟨rfl, rfl⟩ | ⟨rfl, rfl⟩
      · exact ⟨⟨_, u0⟩, R0, u0, by dsimp only; omega⟩
      · exact ⟨⟨_, u1⟩, R1, u1, by dsimp only; omega⟩
    · rintro ⟨l, i⟩ hz
      rcases (mem _ _).1 hz with ⟨rfl, rfl⟩ | ⟨rfl, rfl⟩
      · exact ⟨_, (mem _ _).2 (.inr ⟨rfl, rfl⟩), o0⟩
      · exact ⟨_, (mem _ _).2 (.inl ⟨rfl, rfl⟩), o1⟩
    · rintro ⟨l, i⟩ hz
      rcases (mem _ _).1 hz with ⟨rfl, rfl⟩ | ⟨rfl, rfl⟩
      · rw [x0]; exact (dart0 u R0 u0 r0 1 (.inl rfl)).2
      · rw [x1]; exact (dart1 u R1 u1 r1 1 (.inl rfl)).2
  have hsides : ∀ l, (ofMSurf t).sides l = (ofMSurf s).sides l := by
    intro l
    by_cases h0 : l = l0
    · subst h0; rw [sides_eq (S := ofMSurf s) hp0, sides_eq (S := ofMSurf t) tp0, n0, m0']
    · by_cases h1 : l = l1
      · subst h1; rw [sides_eq (S := ofMSurf s) hp1, sides_eq (S := ofMSurf t) tp1, n1, m1]
      · have : (ofMSurf t).polygon l = (ofMSurf s).polygon l := tpo l h0 h1
        unfold sides; rw [this]
  refine ⟨l1, d1, old, hdef, hself, hd0, hd1, by rw [sides_eq (S := ofMSurf s) hp0, n0], by rw [sides_eq (S := ofMSurf s) hp1, n1], hsides, hlab, ho, so1, to0, to1, diag s P0 P1 hp0 hp1 n0 n1 sa0 sa1 ns0 ns1, diag t R0 Q1 tp0 tp1 m0' m1 ta0 ta1 nt0 nt1,
    ?_, ?_, ?_, ?_, ?_⟩
  · intro d hd hX
    rcases cases t R0 Q1 tp0 tp1 m0' m1 d hd hX with ⟨l, i, rfl, h0, h1, p, hp, hi⟩ | rfl | rfl | ⟨hl, rfl⟩ | ⟨hl, rfl⟩
    · rw [hold5 l i h0 h1]
      have : s.polygon l = .ok p := by rw [← tpo l h0 h1]; exact hp
      exact ⟨⟨⟨_, this⟩, p, this, hi⟩, hX⟩
    · rw [hold1]; exact dart0 s P0 hp0 n0 2 (.inr rfl)
    · rw [hold2]; exact dart1 s P1 hp1 n1 1 (.inl rfl)
    · rw [hold3 hl]; exact dart1 s P1 hp1 n1 2 (.inr rfl)
    · rw [hold4 hl]; exact dart0 s P0 hp0 n0 1 (.inl rfl)
  · intro d d' hd hX hd' hX' hh
    have tc : ∀ d, (ofMSurf t).IsDart (fun l => ∃ p, t.polygon l = .ok p) d → d ∉ ({(l0, d0), (l1, d1)} : Finset (L × ℕ)) →
        (∃ l i, d = (l, i) ∧ old d = (l, i) ∧ l ≠ l0 ∧ l ≠ l1) ∨ (d = (l0, (d0 + 1) % 3) ∧ old d = (l0, (d0 + 2) % 3)) ∨
        (d = (l0, (d0 + 2) % 3) ∧ old d = (l1, (d1 + 1) % 3)) ∨ (d = (l1, (d1 + 1) % 3) ∧ old d = (l1, (d1 + 2) % 3) ∧ l0 ≠ l1) ∨
        (d = (l1, (d1 + 2) % 3) ∧ old d = (l0, (d0 + 1) % 3) ∧ l0 ≠ l1) := by
      intro d hd hX
      rcases cases t R0 Q1 tp0 tp1 m0' m1 d hd hX with ⟨l, i, rfl, h0, h1, p, hp, hi⟩ | rfl | rfl | ⟨hl, rfl⟩ | ⟨hl, rfl⟩
      · exact .inl ⟨l, i, rfl, hold5 l i h0 h1, h0, h1⟩
      · exact .inr (.inl ⟨rfl, hold1⟩)
      · exact .inr (.inr (.inl ⟨rfl, hold2⟩))
      · exact .inr (.inr (.inr (.inl ⟨rfl, hold3 hl, hl⟩)))
      · exact .inr (.inr (.inr (.inr ⟨rfl, hold4 hl, hl⟩)))
    rcases tc d hd hX with ⟨l, i, rfl, e, h0, h1⟩ | ⟨rfl, e⟩ | ⟨rfl, e⟩ | ⟨rfl, e, hl⟩ | ⟨rfl, e, hl⟩ <;>
    rcases tc d' hd' hX' with ⟨l', i', rfl, e', h0', h1'⟩ | ⟨rfl, e'⟩ | ⟨rfl, e'⟩ | ⟨rfl, e', hl'⟩ | ⟨rfl, e', hl'⟩ <;>
    replace hh := (e.symm.trans hh).trans e' <;> rw [Prod.mk.injEq] at hh <;> obtain ⟨hx, hh⟩ := hh <;>
    first
      | rfl
      | exact absurd hx ‹_›
      | exact absurd hx.symm ‹_›
      | (exfalso; have := hself hx; omega)
      | (exfalso; have := hself hx.symm; omega)
      | (rw [Prod.mk.injEq]; exact ⟨hx, hh⟩)
      | (exfalso; omega)
  · intro d hd hX
    rcases cases s P0 P1 hp0 hp1 n0 n1 d hd hX with ⟨l, i, rfl, h0, h1, p, hp, hi⟩ | rfl | rfl | ⟨hl, rfl⟩ | ⟨hl, rfl⟩
    · have : t.polygon l = .ok p := by rw [tpo l h0 h1]; exact hp
      exact ⟨(l, i), ⟨⟨_, this⟩, p, this, hi⟩, hX, hold5 l i h0 h1⟩
    · by_cases hl : l0 = l1
      · refine ⟨(l0, (d0 + 2) % 3), (dart0 t R0 tp0 m0' 2 (.inr rfl)).1, (dart0 t R0 tp0 m0' 2 (.inr rfl)).2, ?_⟩
        rw [hold2, ← hl, hself hl]
      · exact ⟨_, (dart1 t Q1 tp1 m1 2 (.inr rfl)).1, (dart1 t Q1 tp1 m1 2 (.inr rfl)).2, hold4 hl⟩
    · exact ⟨_, (dart0 t R0 tp0 m0' 1 (.inl rfl)).1, (dart0 t R0 tp0 m0' 1 (.inl rfl)).2, hold1⟩
    · exact ⟨_, (dart0 t R0 tp0 m0' 2 (.inr rfl)).1, (dart0 t R0 tp0 m0' 2 (.inr rfl)).2, hold2⟩
    · exact ⟨_, (dart1 t Q1 tp1 m1 1 (.inl rfl)).1, (dart1 t Q1 tp1 m1 1 (.inl rfl)).2, hold3 hl⟩
  · rintro ⟨l, i⟩ ⟨hl, r, hr, hi⟩ hX
    rw [mem] at hX
    obtain ⟨c, c1, c2⟩ := hold l r i hr hi (by rw [Ne, Prod.mk.injEq]; tauto) (by rw [Ne, Prod.mk.injEq]; tauto)
    exact ⟨c, ofMSurf_opp c1, ofMSurf_opp c2⟩
  · intro d hd hX
    rcases cases t R0 Q1 tp0 tp1 m0' m1 d hd hX with ⟨l, i, rfl, h0, h1, p, hp, hi⟩ | rfl | rfl | ⟨hl, rfl⟩ | ⟨hl, rfl⟩
    · rw [sko _ l i h0 h1, hold5 l i h0 h1, sko _ l i h0 h1, nxo l i h0 h1]
      exact hold5 _ _ h0 h1
    · rw [st1, hold1, hold2, ss2]
    · rw [st2, hold2, ss3]
      by_cases hl : l0 = l1
      · obtain rfl := hself hl
        rw [← hl, hold1]
      · rw [hold3 hl]
    · rw [st3, hold3 hl, hold4 hl, ss4]
    · rw [st4, hold4 hl, hold1, ss1]

/-- Two surfaces that agree up to diagonals have the same Euler characteristic. -/
theorem euler_of_retri {s t : MSurf L (Poly K)} (hs : (ofMSurf s).Bordered (fun l => ∃ p, s.polygon l = .ok p))
    (ht : (ofMSurf t).Bordered (fun l => ∃ p, t.polygon l = .ok p)) {XS XT : Finset (L × ℕ)} {old : L × ℕ → L × ℕ}
    (h : Retri (ofMSurf s) (fun l => ∃ p, s.polygon l = .ok p) (ofMSurf t) (fun l => ∃ p, t.polygon l = .ok p) XS XT old)
    {ls ls' : List L} (hn : ls.Nodup) (hls : ∀ l, l ∈ ls ↔ ∃ p, s.polygon l = .ok p)
    (hn' : ls'.Nodup) (hls' : ∀ l, l ∈ ls' ↔ ∃ p, t.polygon l = .ok p)
    (hF : XS.sum (ofMSurf s).eulerWeight + ls.length = XT.sum (ofMSurf t).eulerWeight + ls'.length) :
    ∃ (χ : ℤ) (N : ℕ), ∀ fuel, N ≤ fuel → (ofMSurf s).eulerCharacteristic fuel ls = .ok χ ∧ (ofMSurf t).eulerCharacteristic fuel ls' = .ok χ := by
  obtain ⟨es, he, -⟩ := edges_spec hs ls hn (fun l hl => (hls l).1 hl)
  obtain ⟨es', he', -⟩ := edges_spec ht ls' hn' (fun l hl => (hls' l).1 hl)
  refine ⟨_, es.length + es'.length + 1, fun fuel hf => ⟨C32_euler_characteristic hs hn hls he (by omega), ?_⟩⟩
  rw [← h.euler hs ht hn hls hn' hls' he he' (by omega) (by omega) hF]
  exact C32_euler_characteristic hs hn hls he (by omega)

omit [LabelNum L] in
theorem allPoly_iff {s : MSurf L (Poly K)} (h : s.GInv) : AllPoly Poly.Valid s ↔ ∀ l p, s.polygon l = .ok p → p.Valid := by
  constructor
  · intro hv l p hp
    exact hv (l, p) (Dict.mem_of_get _ _ _ (polygon_ok.1 hp))
  · rintro hv ⟨l, p⟩ hx
    exact hv l p (polygon_ok.2 (Dict.get_of_mem _ h.nodupP _ _ hx))

omit [LabelNum L] in
theorem valid_after {s t : MSurf L (Poly K)} {m : Act L (Poly K) Unit} (hs : s.GInv) (ht : t.GInv) (hm : Pres Poly.Valid m) (hr : m s = .ok () t)
    (hv : ∀ l p, s.polygon l = .ok p → p.Valid) : ∀ l p, t.polygon l = .ok p → p.Valid := by
  have := hm s ((allPoly_iff hs).2 hv)
  unfold wp at this
  rw [hr] at this
  exact (allPoly_iff ht).1 this

omit [LinearOrder L] [LabelNum L] in
theorem length_erase {ls ls' : List L} (hn : ls.Nodup) (hn' : ls'.Nodup) {x : L} (hx : x ∈ ls) (h : ∀ l, l ∈ ls' ↔ l ∈ ls ∧ l ≠ x) :
    ls.length = ls'.length + 1 := by
  have : ls.Perm (x :: ls') := by
    rw [List.perm_ext_iff_of_nodup hn (List.nodup_cons.2 ⟨fun hx' => ((h x).1 hx').2 rfl, hn'⟩)]
    intro l
    rw [List.mem_cons, h]
    by_cases hl : l = x
    · subst hl; simp [hx]
    · simp [hl]
  rw [this.length_eq, List.length_cons]

/-- **C32.** Joining two polygons along an edge does not change the Euler characteristic of a finite surface, possibly with boundary. -/
theorem C32_join_polygons {s t : MSurf L (Poly K)} (h : Reachable s) (hm : s.mutable = true) (hv : ∀ l p, s.polygon l = .ok p → p.Valid)
    (p1 : L) (e1 : ℕ) (ht : joinPolygons p1 e1 s = .ok () t) {ls ls' : List L} (hn : ls.Nodup) (hls : ∀ l, l ∈ ls ↔ ∃ p, s.polygon l = .ok p)
    (hn' : ls'.Nodup) (hls' : ∀ l, l ∈ ls' ↔ ∃ p, t.polygon l = .ok p) :
    ∃ (χ : ℤ) (N : ℕ), ∀ fuel, N ≤ fuel → (ofMSurf s).eulerCharacteristic fuel ls = .ok χ ∧ (ofMSurf t).eulerCharacteristic fuel ls' = .ok χ := by
  have htg : t.GInv := by
    have := keeps_joinPolygons (⟨h.ginv, hm, h.rootsOK⟩ : Good s) p1 e1
    unfold Keeps wp at this
    rw [ht] at this
    exact this.1
  have htv := valid_after h.ginv htg (pres_joinPolygons p1 e1) ht hv
  obtain ⟨p2, e2, old, hne, hp1, hp2, hlab, ho1, ho2, hR⟩ := retri_joinPolygons h hm hv ht
  refine euler_of_retri (bordered_ofMSurf h.ginv hv) (bordered_ofMSurf htg htv) hR hn hls hn' hls' ?_
  have hlen := length_erase hn hn' ((hls p2).2 hp2) (fun l => by rw [hls', hlab, hls])
  rw [sum_eulerWeight, Finset.sum_empty, Finset.card_pair (by rw [Ne, Prod.mk.injEq]; tauto), hlen]
  · push_cast; ring
  · rintro ⟨l, i⟩ hz
    simp only [Finset.mem_insert, Finset.mem_singleton, Prod.mk.injEq] at hz
    rcases hz with ⟨rfl, rfl⟩ | ⟨rfl, rfl⟩
    · exact ⟨(p2, e2), ofMSurf_opp (c := some (p2, e2)) ho1, by rw [Ne, Prod.mk.injEq]; exact fun h' => hne h'.1.symm⟩
    · exact ⟨(p1, e1), ofMSurf_opp (c := some (p1, e1)) ho2, by rw [Ne, Prod.mk.injEq]; exact fun h' => hne h'.1⟩

/-- **C32.** Subdividing a polygon along a diagonal does not change the Euler characteristic. -/
theorem C32_subdivide_polygon {s t : MSurf L (Poly K)} (h : Reachable s) (hm : s.mutable = true) (hv : ∀ l p, s.polygon l = .ok p → p.Valid)
    (p : L) (v1 v2 : ℕ) (newLabel : Option L) (ht : subdividePolygon p v1 v2 newLabel s = .ok () t) {ls ls' : List L}
    (hn : ls.Nodup) (hls : ∀ l, l ∈ ls ↔ ∃ p, s.polygon l = .ok p) (hn' : ls'.Nodup) (hls' : ∀ l, l ∈ ls' ↔ ∃ p, t.polygon l = .ok p) :
    ∃ (χ : ℤ) (N : ℕ), ∀ fuel, N ≤ fuel → (ofMSurf s).eulerCharacteristic fuel ls = .ok χ ∧ (ofMSurf t).eulerCharacteristic fuel ls' = .ok χ := by
  have htg : t.GInv := by
    have := keeps_subdividePolygon (⟨h.ginv, hm, h.rootsOK⟩ : Good s) p v1 v2 newLabel
    unfold Keeps wp at this
    rw [ht] at this
    exact this.1
  have htv := valid_after h.ginv htg (pres_subdividePolygon p v1 v2 newLabel) ht hv
  obtain ⟨N, old, hp, hne, hlab, hN, ho1, ho2, hR⟩ := retri_subdividePolygon h hm hv ht
  refine euler_of_retri (bordered_ofMSurf h.ginv hv) (bordered_ofMSurf htg htv) hR hn hls hn' hls' ?_
  have hlen := length_erase hn' hn ((hls' N).2 ((hlab N).2 (.inr rfl))) (fun l => by
    rw [hls', hlab, hls]
    constructor
    · intro hl; exact ⟨.inl hl, fun h' => hN (h' ▸ hl)⟩
    · rintro ⟨hl | hl, hl'⟩
      · exact hl
      · exact absurd hl hl')
  rw [sum_eulerWeight (X := {(p, 0), (N, 0)}), Finset.sum_empty, Finset.card_pair (by rw [Ne, Prod.mk.injEq]; tauto), hlen]
  · push_cast; ring
  · rintro ⟨l, i⟩ hz
    simp only [Finset.mem_insert, Finset.mem_singleton, Prod.mk.injEq] at hz
    rcases hz with ⟨rfl, rfl⟩ | ⟨rfl, rfl⟩
    · exact ⟨(N, 0), ofMSurf_opp (c := some (N, 0)) ho1, by rw [Ne, Prod.mk.injEq]; exact fun h' => hne h'.1.symm⟩
    · exact ⟨(p, 0), ofMSurf_opp (c := some (p, 0)) ho2, by rw [Ne, Prod.mk.injEq]; exact fun h' => hne h'.1⟩

/-- **C32.** Flipping the diagonal of two triangles does not change the Euler characteristic. -/
theorem C32_triangle_flip {s t : MSurf L (Poly K)} (h : Reachable s) (hm : s.mutable = true) (hv : ∀ l p, s.polygon l = .ok p → p.Valid)
    (l0 : L) (d0 : ℕ) (ht : triangleFlip l0 d0 s = .ok () t) {ls ls' : List L}
    (hn : ls.Nodup) (hls : ∀ l, l ∈ ls ↔ ∃ p, s.polygon l = .ok p) (hn' : ls'.Nodup) (hls' : ∀ l, l ∈ ls' ↔ ∃ p, t.polygon l = .ok p) :
    ∃ (χ : ℤ) (N : ℕ), ∀ fuel, N ≤ fuel → (ofMSurf s).eulerCharacteristic fuel ls = .ok χ ∧ (ofMSurf t).eulerCharacteristic fuel ls' = .ok χ := by
  have htg : t.GInv := by
    have := keeps_triangleFlip (⟨h.ginv, hm, h.rootsOK⟩ : Good s) l0 d0
    unfold Keeps wp at this
    rw [ht] at this
    exact this.1
  have htv := valid_after h.ginv htg (pres_triangleFlip l0 d0) ht hv
  obtain ⟨l1, d1, old, -, hself, -, -, -, -, -, hlab, ho1, ho2, to1, to2, hR⟩ := retri_triangleFlip h hm ht
  refine euler_of_retri (bordered_ofMSurf h.ginv hv) (bordered_ofMSurf htg htv) hR hn hls hn' hls' ?_
  have hlen : ls.length = ls'.length := by
    refine List.Perm.length_eq ?_
    rw [List.perm_ext_iff_of_nodup hn hn']
    intro l
    rw [hls, hls', hlab]
  rw [hlen]
  congr 1
  refine Finset.sum_congr rfl ?_
  rintro ⟨l, i⟩ hz
  have ho : (ofMSurf s).opp l i = (ofMSurf t).opp l i := by
    simp only [Finset.mem_insert, Finset.mem_singleton, Prod.mk.injEq] at hz
    rcases hz with ⟨rfl, rfl⟩ | ⟨rfl, rfl⟩
    · rw [ofMSurf_opp (c := some (l1, d1)) ho1, ofMSurf_opp (c := some (l1, d1)) to1]
    · rw [ofMSurf_opp (c := some (l0, d0)) ho2, ofMSurf_opp (c := some (l0, d0)) to2]
  unfold eulerWeight selfWeight RSurf.weight
  dsimp only
  rw [ho]

/-- A flip in the torus made from two triangles: its Euler characteristic is 0, so it is 0 afterwards. -/
example : ∃ t, triangleFlip 0 1 exTorus = .ok () t ∧ ∀ ls' : List ℕ, ls'.Nodup → (∀ l, l ∈ ls' ↔ ∃ p, t.polygon l = .ok p) →
    ∃ N, ∀ fuel, N ≤ fuel → (ofMSurf t).eulerCharacteristic fuel ls' = (ofMSurf exTorus).eulerCharacteristic fuel [0, 1] := by
  obtain ⟨t, ht⟩ := exTorus_flip
  refine ⟨t, ht, fun ls' hn' hls' => ?_⟩
  obtain ⟨χ, N, hχ⟩ := C32_triangle_flip exTorus_reachable (by decide +kernel)
    (fun l p hp => by obtain ⟨_, rfl⟩ := exTorus_polygon hp; exact Poly.valid_triangle (by decide +kernel)) 0 1 ht (ls := [0, 1]) (by decide)
    (fun l => ⟨fun hl => by
        simp only [List.mem_cons, List.not_mem_nil, or_false] at hl
        rcases hl with rfl | rfl <;> exact ⟨tri, by decide +kernel⟩,
      fun ⟨p, hp⟩ => by obtain ⟨rfl | rfl, _⟩ := exTorus_polygon hp <;> simp⟩) hn' hls'
  exact ⟨N, fun fuel hf => by rw [(hχ fuel hf).1, (hχ fuel hf).2]⟩

/-- Joining the two triangles of the torus. -/
example : ∃ t, joinPolygons 0 1 exTorus = .ok () t ∧ ∀ ls' : List ℕ, ls'.Nodup → (∀ l, l ∈ ls' ↔ ∃ p, t.polygon l = .ok p) →
    ∃ N, ∀ fuel, N ≤ fuel → (ofMSurf t).eulerCharacteristic fuel ls' = (ofMSurf exTorus).eulerCharacteristic fuel [0, 1] := by
  obtain ⟨t, ht⟩ : ∃ t, joinPolygons 0 1 exTorus = .ok () t :=
    C28_join_polygons_succeeds exTorus_reachable (by decide +kernel) 0 1 1 1 tri tri
      [(0, 0), (1, 0), (1, 1), (0, 1)] ⟨-1, 0, 1, 1, 1⟩ (by decide) (by decide +kernel) (by decide +kernel) (by decide +kernel)
      (by decide +kernel) (by decide +kernel) (by decide +kernel) (by decide +kernel) 0 (by decide +kernel) (by decide +kernel)
  refine ⟨t, ht, fun ls' hn' hls' => ?_⟩
  obtain ⟨χ, N, hχ⟩ := C32_join_polygons exTorus_reachable (by decide +kernel)
    (fun l p hp => by obtain ⟨_, rfl⟩ := exTorus_polygon hp; exact Poly.valid_triangle (by decide +kernel)) 0 1 ht (ls := [0, 1]) (by decide)
    (fun l => ⟨fun hl => by
        simp only [List.mem_cons, List.not_mem_nil, or_false] at hl
        rcases hl with rfl | rfl <;> exact ⟨tri, by decide +kernel⟩,
      fun ⟨p, hp⟩ => by obtain ⟨rfl | rfl, _⟩ := exTorus_polygon hp <;> simp⟩) hn' hls'
  exact ⟨N, fun fuel hf => by rw [(hχ fuel hf).1, (hχ fuel hf).2]⟩

/-- The square torus can be subdivided. -/
example : ∃ t, subdividePolygon 0 3 1 (some 7) (runOps exSquareOps empty) = .ok () t ∧
    ∀ l p, (runOps exSquareOps empty).polygon l = .ok p → p.Valid := by
  obtain ⟨t, ht⟩ : ∃ t, subdividePolygon 0 3 1 (some 7) (runOps exSquareOps empty) = .ok () t :=
    C27_subdivide_polygon_succeeds exSquare_reachable (by decide +kernel) 0 3 1 (some 7) [(0, 0), (1, 0), (1, 1), (0, 1)]
      (by decide +kernel) (by decide) (by decide) [(0, 1), (1, 0), (1, 1)] [(1, 0), (0, 1), (0, 0)] (by decide +kernel)
      (by decide +kernel) (by decide +kernel) (fun l hl => by injection hl with hl; subst hl; decide +kernel)
      (by decide +kernel)
  refine ⟨t, ht, fun l p hp => ?_⟩
  have h1 : (runOps exSquareOps empty).polygons = [(0, [((0 : ℚ), (0 : ℚ)), (1, 0), (1, 1), (0, 1)])] := by decide +kernel
  rw [polygon_ok, h1] at hp
  have h2 := Dict.mem_of_get _ _ _ hp
  simp only [List.mem_cons, List.not_mem_nil, or_false, Prod.mk.injEq] at h2
  rw [h2.2]
  exact ((Poly.ofVertices_iff [((0 : ℚ), (0 : ℚ)), (1, 0), (1, 1), (0, 1)] [((0 : ℚ), (0 : ℚ)), (1, 0), (1, 1), (0, 1)]).1 (by decide +kernel)).2

end MSurf
end Flat
