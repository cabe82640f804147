import Verif.Lemmas.LazyTriangulate
import Verif.Props.Roots
import Mathlib.Data.Nat.Pairing
import Mathlib.Order.Lattice

/-!
# C56: lazy triangulations
-/

namespace Flat
namespace RSurf
variable {L K : Type} [LinearOrder L] [LabelNum L] [TupleLabel L] [Field K] [LinearOrder K] [IsStrictOrderedRing K]
open MSurf

theorem triImage_unselected {S : RSurf L K} {sel : L → Bool} {l : L} {p : Poly K} (hp : S.polygon l = .ok p) (hs : sel l = false) :
    ∃ t, S.triImage sel l = .ok (t, (List.range p.length).map (fun (e : ℕ) => (e, (l, (e : Int))))) ∧ t.polygons.keys = [num 0] := by
  have h : ∃ t, MSurf.addPolygon p none (MSurf.empty : MSurf L (Poly K)) = .ok (num 0) t ∧ t.polygons.keys = [num 0] := by
    refine ⟨⟨[(num 0, p)], [(num 0, List.replicate (nv p) none)], [], true, 0⟩, ?_, rfl⟩
    rfl
  obtain ⟨t, ht, hk⟩ := h
  refine ⟨t, ?_, hk⟩
  simp only [triImage, hp, hs, bind, Except.bind, ht]
  rfl

theorem triImage_selected {S : RSurf L K} {sel : L → Bool} {l : L} {p : Poly K} (hp : S.polygon l = .ok p) (hs : sel l = true) :
    S.triImage sel l = MSurf.triangulateAt p l := by
  simp only [triImage, hp, hs, bind, Except.bind]
  rfl

/-- The labels of the triangulation: a label of the surface keeps its polygon if it is not to be triangulated, or is a
triangle; otherwise the triangles are labelled `(label, 0)`, `(label, 1)`, ... -/
def TriLabel (S : RSurf L K) (valid : L → Prop) (sel : L → Bool) (x l : L) : Prop :=
  valid l ∧ ∃ p, S.polygon l = .ok p ∧
    (x = l ∧ (sel l = false ∨ p.length = 3) ∨ sel l = true ∧ 3 < p.length ∧ ∃ k, k + 2 < p.length ∧ x = tag l k)

theorem refLabel_iff {S : RSurf L K} {valid : L → Prop} {has sel : L → Bool} (hS : S.Closed valid) (hhas : ∀ l, has l = true ↔ valid l)
    (htag : ∀ l k, valid l → ¬ valid (tag l k)) {x l : L} :
    S.refLabel has sel x = .ok l ↔ TriLabel S valid sel x l := by
  have htuple : ∀ l' k, x = tag l' k → has l' = true → ∃ i p, S.triImage sel l' = .ok i ∧ S.polygon l' = .ok p ∧
      (x ∈ i.1.polygons.keys ↔ sel l' = true ∧ 3 < p.length ∧ ∃ k, k + 2 < p.length ∧ x = tag l' k) := by
    intro l' k hx hl'
    obtain ⟨p, hp, hv⟩ := hS.poly l' ((hhas l').1 hl')
    cases hs : sel l' with
    | false =>
      obtain ⟨t, ht, hk⟩ := triImage_unselected hp hs
      refine ⟨_, p, ht, hp, ?_⟩
      rw [hk]
      simp only [List.mem_singleton, Bool.false_eq_true, false_and, iff_false]
      intro h0
      have := (TupleLabel.untag_iff x l' k).2 hx
      rw [h0, TupleLabel.untag_num] at this
      simp at this
    | true =>
      obtain ⟨t, outer, ht, -, -, hk, -⟩ := triangulateAt_spec hv l'
      refine ⟨_, p, (triImage_selected hp hs).trans ht, hp, ?_⟩
      rw [hk]
      constructor
      · rintro (⟨-, e⟩ | ⟨h3, h⟩)
        · exfalso
          refine htag l' k ((hhas l').1 hl') ?_
          rw [← hx, e]
          exact (hhas l').1 hl'
        · exact ⟨rfl, h3, h⟩
      · rintro ⟨-, h3, h⟩
        exact Or.inr ⟨h3, h⟩
  have hT : ∀ l, (match untag x with
      | none => throw Err.keyError
      | some (l, _) =>
        if ¬ has l then throw Err.keyError
        else do
          let i ← S.triImage sel l
          if x ∉ i.1.polygons.keys then throw Err.keyError
          else return l : Except Err L) = .ok l ↔ valid l ∧ ∃ p, S.polygon l = .ok p ∧ sel l = true ∧ 3 < p.length ∧ ∃ k, k + 2 < p.length ∧ x = tag l k := by
    intro l
    cases hu : untag x with
    | none =>
      simp only
      constructor
      · intro h; cases h
      · rintro ⟨-, p, -, -, -, k, -, h⟩
        rw [(TupleLabel.untag_iff x l k).2 h] at hu
        simp at hu
    | some y =>
      obtain ⟨l', k⟩ := y
      simp only
      have hx := (TupleLabel.untag_iff x l' k).1 hu
      by_cases hl' : has l' = true
      · obtain ⟨i, p, hi, hp, hk⟩ := htuple l' k hx hl'
        simp only [hl', not_true, if_false, hi, bind, Except.bind]
        by_cases hm : x ∈ i.1.polygons.keys
        · simp only [hm, not_true, if_false]
          have hm' := hk.1 hm
          constructor
          · intro h
            cases h
            exact ⟨(hhas _).1 hl', p, hp, hm'⟩
          · rintro ⟨-, p', -, -, -, k', -, h⟩
            rw [hx] at h
            rw [(tag_inj h).1]
            rfl
        · simp only [hm, not_false_iff, if_true]
          constructor
          · intro h; cases h
          · rintro ⟨-, p', hp', h1, h2, k', h3, h4⟩
            exfalso
            have e : l' = l := by rw [hx] at h4; exact (tag_inj h4).1
            subst e
            rw [hp] at hp'
            cases hp'
            exact hm (hk.2 ⟨h1, h2, k', h3, h4⟩)
      · simp only [hl', not_false_iff, if_true, Bool.false_eq_true]
        constructor
        · intro h; cases h
        · rintro ⟨hv, p', -, -, -, k', -, h⟩
          exfalso
          have e : l' = l := by rw [hx] at h; exact (tag_inj h).1
          subst e
          exact hl' ((hhas _).2 hv)
  unfold refLabel TriLabel
  by_cases hx : has x = true
  · have hvx := (hhas x).1 hx
    obtain ⟨p, hp, hv⟩ := hS.poly x hvx
    have hno : ∀ l k, valid l → x ≠ tag l k := fun l k h e => htag l k h (e ▸ hvx)
    simp only [hx, if_true]
    cases hs : sel x with
    | false =>
      simp only [Bool.false_eq_true, not_false_iff, if_true]
      constructor
      · intro h
        cases h
        exact ⟨hvx, p, hp, Or.inl ⟨rfl, Or.inl hs⟩⟩
      · rintro ⟨hl, p', hp', ⟨rfl, -⟩ | ⟨-, -, k, -, e⟩⟩
        · rfl
        · exact absurd e (hno l k hl)
    | true =>
      simp only [not_true, if_false, hp, bind, Except.bind]
      by_cases h3 : p.length = 3
      · simp only [h3, if_true]
        constructor
        · intro h
          cases h
          exact ⟨hvx, p, hp, Or.inl ⟨rfl, Or.inr h3⟩⟩
        · rintro ⟨hl, p', hp', ⟨rfl, -⟩ | ⟨-, -, k, -, e⟩⟩
          · rfl
          · exact absurd e (hno l k hl)
      · simp only [h3, if_false]
        refine (hT l).trans ?_
        constructor
        · rintro ⟨h1, p', h2, h3⟩
          exact ⟨h1, p', h2, Or.inr h3⟩
        · rintro ⟨h1, p', h2, ⟨rfl, h | h⟩ | h⟩
          · rw [hs] at h; cases h
          · rw [hp] at h2; cases h2; exact absurd h h3
          · exact ⟨h1, p', h2, h⟩
  · simp only [hx, if_false, Bool.false_eq_true]
    refine (hT l).trans ?_
    constructor
    · rintro ⟨h1, p', h2, h3⟩
      exact ⟨h1, p', h2, Or.inr h3⟩
    · rintro ⟨h1, p', h2, ⟨rfl, -⟩ | h⟩
      · exact absurd ((hhas _).2 h1) hx
      · exact ⟨h1, p', h2, h⟩

theorem lazyTriangulated_polygon {S : RSurf L K} {has sel : L → Bool} {x l : L} (hr : S.refLabel has sel x = .ok l) :
    (S.lazyTriangulated has sel).polygon x = if sel l = false then S.polygon l else
      (S.triImage sel l).bind (fun i => i.1.polygon x) := by
  simp only [lazyTriangulated, hr, bind, Except.bind]
  cases sel l <;> rfl

/-- The pieces of the polygon `l`. -/
theorem image_spec {S : RSurf L K} {valid : L → Prop} {has sel : L → Bool} (hS : S.Closed valid) (hhas : ∀ l, has l = true ↔ valid l)
    (htag : ∀ l k, valid l → ¬ valid (tag l k)) {l : L} (hl : valid l) {p : Poly K} (hp : S.polygon l = .ok p) :
    ∃ t outer piece, S.triImage sel l = .ok (t, outer) ∧ Pieces p piece (fun x (j : ℕ) => t.oppositeEdge x j) outer ∧
      (∀ x q, piece x = some q ↔ S.refLabel has sel x = .ok l ∧ (S.lazyTriangulated has sel).polygon x = .ok q) ∧
      (sel l = true → ∀ x q, piece x = some q → q.length = 3) ∧
      (∀ q : Vec K, (p.pointPosition q = .outside ↔ ∀ x r, piece x = some r → r.pointPosition q = .outside) ∧
        ∀ x x' r r', x ≠ x' → piece x = some r → piece x' = some r' → r.pointPosition q = .interior → r'.pointPosition q = .outside) := by
  obtain ⟨p', hp', hv⟩ := hS.poly l hl
  rw [hp] at hp'
  cases hp'
  cases hs : sel l with
  | false =>
    obtain ⟨t, ht, -⟩ := triImage_unselected hp hs
    have hpc : ∀ x q, (if x = l then some p else none) = some q ↔ x = l ∧ p = q := by
      intro x q
      split_ifs with h <;> simp [h]
    have hkeys : Dict.keys ((List.range p.length).map (fun (e : ℕ) => (e, (l, (e : Int)))) : Dict ℕ (L × Int)) = List.range p.length := by
      unfold Dict.keys
      rw [List.map_map]
      exact (List.map_congr_left fun _ _ => rfl).trans (List.map_id _)
    have hget : ∀ e x, Dict.get ((List.range p.length).map (fun (e : ℕ) => (e, (l, (e : Int)))) : Dict ℕ (L × Int)) e = some x ↔
        e < p.length ∧ x = (l, (e : Int)) := by
      intro e x
      constructor
      · intro h
        have := Dict.mem_of_get _ _ _ h
        rw [List.mem_map] at this
        obtain ⟨e', he', h'⟩ := this
        simp only [Prod.mk.injEq] at h'
        obtain ⟨rfl, rfl⟩ := h'
        exact ⟨List.mem_range.1 he', rfl⟩
      · rintro ⟨he, rfl⟩
        refine Dict.get_of_mem _ ?_ _ _ ?_
        · rw [hkeys]; exact List.nodup_range
        · exact List.mem_map.2 ⟨e, List.mem_range.2 he, rfl⟩
    refine ⟨t, _, fun x => if x = l then some p else none, ht, ⟨?_, ?_, ?_, ?_, ?_, ?_⟩, ?_, ?_, ?_⟩
    · rw [hkeys]; exact List.nodup_range
    · intro e; rw [hkeys, List.mem_range]
    · intro e x k h
      obtain ⟨he, h⟩ := (hget _ _).1 h
      simp only [Prod.mk.injEq] at h
      obtain ⟨rfl, rfl⟩ := h
      exact ⟨e, p, rfl, by simp, he, rfl, rfl⟩
    · intro e e' x h h'
      obtain ⟨-, rfl⟩ := (hget _ _).1 h
      obtain ⟨-, h⟩ := (hget _ _).1 h'
      simp only [Prod.mk.injEq, Nat.cast_inj, true_and] at h
      exact h
    · intro x q h
      obtain ⟨-, rfl⟩ := (hpc _ _).1 h
      exact hv
    · intro x q j h hj hno
      obtain ⟨rfl, rfl⟩ := (hpc _ _).1 h
      exact absurd ((hget j _).2 ⟨hj, rfl⟩) (hno j)
    · intro x q
      rw [hpc, refLabel_iff hS hhas htag]
      constructor
      · rintro ⟨rfl, rfl⟩
        have h1 : TriLabel S valid sel x x := ⟨hl, p, hp, Or.inl ⟨rfl, Or.inl hs⟩⟩
        refine ⟨h1, ?_⟩
        rw [lazyTriangulated_polygon ((refLabel_iff hS hhas htag).2 h1), if_pos hs, hp]
      · rintro ⟨h1, h2⟩
        rw [lazyTriangulated_polygon ((refLabel_iff hS hhas htag).2 h1), if_pos hs, hp] at h2
        cases h2
        obtain ⟨-, p', -, ⟨e, -⟩ | ⟨e, -⟩⟩ := h1
        · exact ⟨e, rfl⟩
        · rw [hs] at e; cases e
    · intro h; cases h
    · intro q
      constructor
      · constructor
        · intro h x r hx
          obtain ⟨-, rfl⟩ := (hpc _ _).1 hx
          exact h
        · intro h
          exact h l p ((hpc _ _).2 ⟨rfl, rfl⟩)
      · intro x x' r r' hne hx hx'
        obtain ⟨e, -⟩ := (hpc _ _).1 hx
        obtain ⟨e', -⟩ := (hpc _ _).1 hx'
        exact absurd (e.trans e'.symm) hne
  | true =>
    obtain ⟨t, outer, ht, hP, h3, hk, hpos⟩ := triangulateAt_spec hv l
    have himg := (triImage_selected hp hs).trans ht
    refine ⟨t, outer, t.polygons.get, himg, hP, ?_, fun _ => h3, hpos⟩
    intro x q
    have hr : TriLabel S valid sel x l ↔ x ∈ t.polygons.keys := by
      rw [hk]
      constructor
      · rintro ⟨-, p', hp', h⟩
        rw [hp] at hp'
        cases hp'
        rcases h with ⟨rfl, h | h⟩ | ⟨-, h1, h2⟩
        · rw [hs] at h; cases h
        · exact Or.inl ⟨h, rfl⟩
        · exact Or.inr ⟨h1, h2⟩
      · rintro (⟨h1, h2⟩ | ⟨h1, h2⟩)
        · exact ⟨hl, p, hp, Or.inl ⟨h2, Or.inr h1⟩⟩
        · exact ⟨hl, p, hp, Or.inr ⟨hs, h1, h2⟩⟩
    constructor
    · intro hx
      have h1 : S.refLabel has sel x = .ok l := (refLabel_iff hS hhas htag).2 (hr.2 (by rw [Dict.mem_keys_iff, hx]; rfl))
      refine ⟨h1, ?_⟩
      rw [lazyTriangulated_polygon h1, if_neg (by rw [hs]; simp), himg]
      exact MSurf.polygon_ok.2 hx
    · rintro ⟨h1, h2⟩
      rw [lazyTriangulated_polygon h1, if_neg (by rw [hs]; simp), himg] at h2
      exact MSurf.polygon_ok.1 h2

theorem lazy_opp_outer {S : RSurf L K} {has sel : L → Bool} {l l' x x' : L} {e e' j j' : ℕ} {p : Poly K}
    {t t' : MSurf L (Poly K)} {outer outer' : Dict ℕ (L × Int)} {piece : L → Option (Poly K)} {inner}
    (hr : S.refLabel has sel x = .ok l) (hi : S.triImage sel l = .ok (t, outer)) (hP : Pieces p piece inner outer)
    (ho : outer.get e = some (x, (j : Int))) (hopp : S.opp l e = .ok (some (l', e')))
    (hi' : S.triImage sel l' = .ok (t', outer')) (ho' : outer'.get e' = some (x', (j' : Int))) :
    (S.lazyTriangulated has sel).opp x j = .ok (some (x', j')) := by
  have hf : ∃ y, List.find? (fun y => decide (y.2 = (x, (j : Int)))) outer = some y ∧ y.1 = e := by
    have hm := Dict.mem_of_get _ _ _ ho
    cases hf : List.find? (fun y => decide (y.2 = (x, (j : Int)))) outer with
    | none =>
      have := List.find?_eq_none.1 hf _ hm
      simp at this
    | some y =>
      refine ⟨y, rfl, ?_⟩
      have h1 := List.mem_of_find?_eq_some hf
      have h2 := List.find?_some hf
      simp only [decide_eq_true_eq] at h2
      have h3 := Dict.get_of_mem outer hP.nodup y.1 y.2 h1
      rw [h2] at h3
      exact hP.inj _ _ _ h3 ho
  obtain ⟨y, hf, rfl⟩ := hf
  simp only [lazyTriangulated, hr, hi, bind, Except.bind, hf, opp!_ok hopp, hi', ho']
  rfl

theorem lazy_opp_inner {S : RSurf L K} {has sel : L → Bool} {l x x' : L} {j j' : ℕ} {p : Poly K}
    {t : MSurf L (Poly K)} {outer : Dict ℕ (L × Int)} {piece : L → Option (Poly K)} {inner}
    (hr : S.refLabel has sel x = .ok l) (hi : S.triImage sel l = .ok (t, outer)) (hP : Pieces p piece inner outer)
    (hno : ∀ e, outer.get e ≠ some (x, (j : Int))) (ho : t.oppositeEdge x j = .ok (some (x', (j' : Int)))) :
    (S.lazyTriangulated has sel).opp x j = .ok (some (x', j')) := by
  have hf : List.find? (fun y => decide (y.2 = (x, (j : Int)))) outer = none := by
    refine List.find?_eq_none.2 fun y hy h => ?_
    simp only [decide_eq_true_eq] at h
    refine hno y.1 ?_
    rw [← h]
    exact Dict.get_of_mem outer hP.nodup y.1 y.2 hy
  simp only [lazyTriangulated, hr, hi, bind, Except.bind, hf, ho]
  rfl

/-- The gluing of the triangulation in terms of the images of edges. -/
theorem lazy_gluing {S : RSurf L K} {valid : L → Prop} {has sel : L → Bool} (hS : S.Closed valid) (hhas : ∀ l, has l = true ↔ valid l)
    (htag : ∀ l k, valid l → ¬ valid (tag l k)) : ∃ rep : L → ℕ → L × ℕ,
    (∀ l p e, valid l → S.polygon l = .ok p → e < p.length →
      S.refLabel has sel (rep l e).1 = .ok l ∧
      (∃ q, (S.lazyTriangulated has sel).polygon (rep l e).1 = .ok q ∧ (rep l e).2 < q.length ∧
        q.vertex (rep l e).2 = p.vertex e ∧ q.vertex ((rep l e).2 + 1) = p.vertex (e + 1)) ∧
      (∀ e' < p.length, rep l e' = rep l e → e' = e) ∧
      ∀ l' e', S.opp l e = .ok (some (l', e')) →
        (S.lazyTriangulated has sel).opp (rep l e).1 (rep l e).2 = .ok (some (rep l' e'))) ∧
    (∀ l p e, valid l → S.polygon l = .ok p → e < p.length → ∃ i, S.triImage sel l = .ok i ∧ i.2.get e = some ((rep l e).1, ((rep l e).2 : Int))) ∧
    (∀ x l q p j, S.refLabel has sel x = .ok l → (S.lazyTriangulated has sel).polygon x = .ok q → j < q.length → S.polygon l = .ok p →
      (∀ e < p.length, rep l e ≠ (x, j)) →
      ∃ x' j' q', (S.lazyTriangulated has sel).opp x j = .ok (some (x', j')) ∧ S.refLabel has sel x' = .ok l ∧
        (S.lazyTriangulated has sel).polygon x' = .ok q' ∧ j' < q'.length ∧ (∀ e < p.length, rep l e ≠ (x', j')) ∧
        (S.lazyTriangulated has sel).opp x' j' = .ok (some (x, j)) ∧
        q'.vertex j' = q.vertex (j + 1) ∧ q'.vertex (j' + 1) = q.vertex j) := by
  classical
  have hex : ∀ l e, ∃ r : L × ℕ, ∀ p, valid l → S.polygon l = .ok p → e < p.length → ∃ t outer piece, S.triImage sel l = .ok (t, outer) ∧
      Pieces p piece (fun x (j : ℕ) => t.oppositeEdge x j) outer ∧
      (∀ x q, piece x = some q ↔ S.refLabel has sel x = .ok l ∧ (S.lazyTriangulated has sel).polygon x = .ok q) ∧
      outer.get e = some (r.1, (r.2 : Int)) := by
    intro l e
    by_cases h : ∃ p, valid l ∧ S.polygon l = .ok p ∧ e < p.length
    · obtain ⟨p, hl, hp, he⟩ := h
      obtain ⟨t, outer, piece, h1, h2, h3, -⟩ := image_spec (sel := sel) hS hhas htag hl hp
      have hk := (h2.keys e).2 he
      rw [Dict.mem_keys_iff, Option.isSome_iff_exists] at hk
      obtain ⟨⟨x, k⟩, hx⟩ := hk
      obtain ⟨j, q, rfl, -⟩ := h2.outer_edge e x k hx
      refine ⟨(x, j), fun p' _ hp' _ => ?_⟩
      rw [hp] at hp'
      cases hp'
      exact ⟨t, outer, piece, h1, h2, h3, hx⟩
    · exact ⟨(l, 0), fun p h1 h2 h3 => absurd ⟨p, h1, h2, h3⟩ h⟩
  choose rep hrep using hex
  refine ⟨rep, ?_, ?_, ?_⟩
  · intro l p e hl hp he
    obtain ⟨t, outer, piece, h1, h2, h3, h4⟩ := hrep l e p hl hp he
    obtain ⟨j, q, hj, hq, hjq, v1, v2⟩ := h2.outer_edge e _ _ h4
    have hj : (rep l e).2 = j := by exact_mod_cast hj
    subst hj
    obtain ⟨r1, r2⟩ := (h3 _ _).1 hq
    refine ⟨r1, ⟨q, r2, hjq, v1, v2⟩, ?_, ?_⟩
    · intro e' he' hee
      obtain ⟨t', outer', piece', h1', h2', h3', h4'⟩ := hrep l e' p hl hp he'
      rw [h1] at h1'
      cases h1'
      rw [hee] at h4'
      exact h2.inj _ _ _ h4' h4
    · intro l' e' hopp
      obtain ⟨l2, e2, p2, k1, k2, k3, k4, -⟩ := hS.glue l p e hl hp he
      rw [hopp] at k1
      cases k1
      obtain ⟨t', outer', piece', h1', h2', h3', h4'⟩ := hrep l' e' p2 k2 k3 k4
      exact lazy_opp_outer r1 h1 h2 h4 hopp h1' h4'
  · intro l p e hl hp he
    obtain ⟨t, outer, piece, h1, h2, h3, h4⟩ := hrep l e p hl hp he
    exact ⟨_, h1, h4⟩
  · intro x l q p j hr hq hj hp hno
    have hl : valid l := ((refLabel_iff hS hhas htag).1 hr).1
    obtain ⟨t, outer, piece, h1, h2, h3, -⟩ := image_spec (sel := sel) hS hhas htag hl hp
    have hiff : ∀ x (j : ℕ), (∀ e, outer.get e ≠ some (x, (j : Int))) ↔ ∀ e < p.length, rep l e ≠ (x, j) := by
      intro x j
      constructor
      · intro h e he hh
        obtain ⟨t', outer', piece', h1', h2', h3', h4'⟩ := hrep l e p hl hp he
        rw [h1] at h1'
        cases h1'
        rw [hh] at h4'
        exact h e h4'
      · intro h e hh
        have he : e < p.length := (h2.keys e).1 (by rw [Dict.mem_keys_iff, hh]; rfl)
        obtain ⟨t', outer', piece', h1', h2', h3', h4'⟩ := hrep l e p hl hp he
        rw [h1] at h1'
        cases h1'
        rw [h4'] at hh
        simp only [Option.some.injEq, Prod.mk.injEq, Nat.cast_inj] at hh
        exact h e he (Prod.ext hh.1 hh.2)
    obtain ⟨x', j', q', o1, p1, j1, n1, o2, v1, v2⟩ := h2.inner_edge x q j ((h3 _ _).2 ⟨hr, hq⟩) hj ((hiff x j).2 hno)
    obtain ⟨r1, r2⟩ := (h3 _ _).1 p1
    exact ⟨x', j', q', lazy_opp_inner hr h1 h2 ((hiff x j).2 hno) o1, r1, r2, j1, (hiff x' j').1 n1,
      lazy_opp_inner r1 h1 h2 n1 o2, v1, v2⟩

/-- **C56.** The edges of the polygons are edges of the triangulation, glued like in the surface; all other edges of the
triangulation are inside of a polygon, where the triangles on their sides fit together. -/
theorem C56_gluing {S : RSurf L K} {valid : L → Prop} {has sel : L → Bool} (hS : S.Closed valid) (hhas : ∀ l, has l = true ↔ valid l)
    (htag : ∀ l k, valid l → ¬ valid (tag l k)) : ∃ rep : L → ℕ → L × ℕ,
    (∀ l p e, valid l → S.polygon l = .ok p → e < p.length →
      S.refLabel has sel (rep l e).1 = .ok l ∧
      (∃ q, (S.lazyTriangulated has sel).polygon (rep l e).1 = .ok q ∧ (rep l e).2 < q.length ∧
        q.vertex (rep l e).2 = p.vertex e ∧ q.vertex ((rep l e).2 + 1) = p.vertex (e + 1)) ∧
      (∀ e' < p.length, rep l e' = rep l e → e' = e) ∧
      ∀ l' e', S.opp l e = .ok (some (l', e')) →
        (S.lazyTriangulated has sel).opp (rep l e).1 (rep l e).2 = .ok (some (rep l' e'))) ∧
    (∀ x l q p j, S.refLabel has sel x = .ok l → (S.lazyTriangulated has sel).polygon x = .ok q → j < q.length → S.polygon l = .ok p →
      (∀ e < p.length, rep l e ≠ (x, j)) →
      ∃ x' j' q', (S.lazyTriangulated has sel).opp x j = .ok (some (x', j')) ∧ S.refLabel has sel x' = .ok l ∧
        (S.lazyTriangulated has sel).polygon x' = .ok q' ∧ j' < q'.length ∧ (∀ e < p.length, rep l e ≠ (x', j')) ∧
        (S.lazyTriangulated has sel).opp x' j' = .ok (some (x, j)) ∧
        q'.vertex j' = q.vertex (j + 1) ∧ q'.vertex (j' + 1) = q.vertex j) := by
  obtain ⟨rep, h1, -, h2⟩ := lazy_gluing (sel := sel) hS hhas htag
  exact ⟨rep, h1, h2⟩

/-- **C56.** The triangulation is a closed surface: `opposite_edge` is an involution of the edges of its polygons. -/
theorem C56_closed {S : RSurf L K} {valid : L → Prop} {has sel : L → Bool} (hS : S.Closed valid) (hhas : ∀ l, has l = true ↔ valid l)
    (htag : ∀ l k, valid l → ¬ valid (tag l k)) :
    (S.lazyTriangulated has sel).Closed (fun x => ∃ l, S.refLabel has sel x = .ok l) := by
  obtain ⟨rep, h1, h2⟩ := C56_gluing (sel := sel) hS hhas htag
  have hval : ∀ {x l}, S.refLabel has sel x = .ok l → valid l := fun h => ((refLabel_iff hS hhas htag).1 h).1
  constructor
  · rintro x ⟨l, hr⟩
    obtain ⟨p, hp, hv⟩ := hS.poly l (hval hr)
    obtain ⟨t, outer, piece, i1, i2, i3, i4, -⟩ := image_spec (sel := sel) hS hhas htag (hval hr) hp
    cases hs : sel l with
    | false => exact ⟨p, by rw [lazyTriangulated_polygon hr, if_pos hs, hp], hv⟩
    | true =>
      obtain ⟨t', outer', ht, hP, -, hk, -⟩ := triangulateAt_spec hv l
      have : x ∈ t'.polygons.keys := by
        rw [hk]
        obtain ⟨-, p', hp', h⟩ := (refLabel_iff hS hhas htag).1 hr
        rw [hp] at hp'
        cases hp'
        rcases h with ⟨rfl, h | h⟩ | ⟨-, h1, h2⟩
        · rw [hs] at h; cases h
        · exact Or.inl ⟨h, rfl⟩
        · exact Or.inr ⟨h1, h2⟩
      rw [Dict.mem_keys_iff, Option.isSome_iff_exists] at this
      obtain ⟨q, hq⟩ := this
      refine ⟨q, ?_, hP.valid x q hq⟩
      rw [lazyTriangulated_polygon hr, if_neg (by rw [hs]; simp), triImage_selected hp hs, ht]
      exact MSurf.polygon_ok.2 hq
  · rintro x q j ⟨l, hr⟩ hq hj
    obtain ⟨p, hp, hv⟩ := hS.poly l (hval hr)
    by_cases hh : ∃ e < p.length, rep l e = (x, j)
    · obtain ⟨e, he, hre⟩ := hh
      obtain ⟨l', e', p', k1, k2, k3, k4, k5⟩ := hS.glue l p e (hval hr) hp he
      obtain ⟨-, -, -, o1⟩ := h1 l p e (hval hr) hp he
      obtain ⟨r1, ⟨q', hq', hj', -⟩, -, o2⟩ := h1 l' p' e' k2 k3 k4
      have a1 := o1 l' e' k1
      have a2 := o2 l e k5
      rw [hre] at a1 a2
      exact ⟨_, _, q', a1, ⟨l', r1⟩, hq', hj', a2⟩
    · push Not at hh
      obtain ⟨x', j', q', a1, a2, a3, a4, -, a5, -⟩ := h2 x l q p j hr hq hj hp hh
      exact ⟨x', j', q', a1, ⟨l, a2⟩, a3, a4, a5⟩

/-- **C56.** The polygons of the triangulation that come from a polygon cover exactly that polygon, without overlaps, and are
triangles if the polygon was to be triangulated. -/
theorem C56_cover {S : RSurf L K} {valid : L → Prop} {has sel : L → Bool} (hS : S.Closed valid) (hhas : ∀ l, has l = true ↔ valid l)
    (htag : ∀ l k, valid l → ¬ valid (tag l k)) {l : L} (hl : valid l) {p : Poly K} (hp : S.polygon l = .ok p) :
    (sel l = true → ∀ x r, S.refLabel has sel x = .ok l → (S.lazyTriangulated has sel).polygon x = .ok r → r.length = 3) ∧
    ∀ q : Vec K, (p.pointPosition q = .outside ↔ ∀ x r, S.refLabel has sel x = .ok l →
        (S.lazyTriangulated has sel).polygon x = .ok r → r.pointPosition q = .outside) ∧
      ∀ x x' r r', x ≠ x' → S.refLabel has sel x = .ok l → (S.lazyTriangulated has sel).polygon x = .ok r →
        S.refLabel has sel x' = .ok l → (S.lazyTriangulated has sel).polygon x' = .ok r' →
        r.pointPosition q = .interior → r'.pointPosition q = .outside := by
  obtain ⟨t, outer, piece, -, -, h3, h4, h5⟩ := image_spec (sel := sel) hS hhas htag hl hp
  refine ⟨fun hs x r h1 h2 => h4 hs x r ((h3 _ _).2 ⟨h1, h2⟩), fun q => ⟨?_, ?_⟩⟩
  · rw [(h5 q).1]
    exact ⟨fun h x r h1 h2 => h x r ((h3 _ _).2 ⟨h1, h2⟩), fun h x r hx => h x r ((h3 _ _).1 hx).1 ((h3 _ _).1 hx).2⟩
  · intro x x' r r' hne h1 h2 h1' h2'
    exact (h5 q).2 x x' r r' hne ((h3 _ _).2 ⟨h1, h2⟩) ((h3 _ _).2 ⟨h1', h2'⟩)

theorem refLabel_error {S : RSurf L K} {valid : L → Prop} {has sel : L → Bool} (hS : S.Closed valid) (hhas : ∀ l, has l = true ↔ valid l)
    {x : L} {e : Err} (h : S.refLabel has sel x = .error e) : e = .keyError := by
  have hT : ∀ e, (match untag x with
      | none => throw Err.keyError
      | some (l, _) =>
        if ¬ has l then throw Err.keyError
        else do
          let i ← S.triImage sel l
          if x ∉ i.1.polygons.keys then throw Err.keyError
          else return l : Except Err L) = .error e → e = .keyError := by
    intro e
    cases hu : untag x with
    | none => intro h; cases h; rfl
    | some y =>
      obtain ⟨l', k⟩ := y
      simp only
      by_cases hl' : has l' = true
      · obtain ⟨p, hp, hv⟩ := hS.poly l' ((hhas l').1 hl')
        obtain ⟨i, hi⟩ : ∃ i, S.triImage sel l' = .ok i := by
          cases hs : sel l' with
          | false =>
            obtain ⟨t, ht, -⟩ := triImage_unselected hp hs
            exact ⟨_, ht⟩
          | true =>
            obtain ⟨t, outer, ht, -⟩ := triangulateAt_spec hv l'
            exact ⟨_, (triImage_selected hp hs).trans ht⟩
        simp only [hl', not_true, if_false, hi, bind, Except.bind]
        split_ifs
        · intro h; cases h
        · intro h; cases h; rfl
      · simp only [hl', not_false_iff, if_true, Bool.false_eq_true]
        intro h; cases h; rfl
  unfold refLabel at h
  by_cases hx : has x = true
  · obtain ⟨p, hp, hv⟩ := hS.poly x ((hhas x).1 hx)
    simp only [hx, if_true] at h
    cases hs : sel x with
    | false =>
      simp only [hs, Bool.false_eq_true, not_false_iff, if_true] at h
      cases h
    | true =>
      simp only [hs, not_true, if_false, hp, bind, Except.bind] at h
      by_cases h3 : p.length = 3
      · simp only [h3, if_true] at h
        cases h
      · simp only [h3, if_false] at h
        exact hT e h
  · simp only [hx, if_false, Bool.false_eq_true] at h
    exact hT e h

/-- **C56.** Membership in `labels()` of the triangulation is decided without raising. -/
theorem C56_labels {S : RSurf L K} {valid : L → Prop} {has sel : L → Bool} (hS : S.Closed valid) (hhas : ∀ l, has l = true ↔ valid l)
    (htag : ∀ l k, valid l → ¬ valid (tag l k)) (x : L) :
    ∃ b, S.triContains has sel x = .ok b ∧ (b = true ↔ ∃ l, TriLabel S valid sel x l) := by
  unfold triContains
  cases hr : S.refLabel has sel x with
  | ok l => exact ⟨true, rfl, fun _ => ⟨l, (refLabel_iff hS hhas htag).1 hr⟩, fun _ => rfl⟩
  | error e =>
    have he : e = .keyError := refLabel_error hS hhas hr
    subst he
    refine ⟨false, rfl, ⟨fun h => (by cases h), fun ⟨l, hl⟩ => ?_⟩⟩
    rw [(refLabel_iff hS hhas htag).2 hl] at hr
    cases hr

/-- `roots()` returns the label 0 for each root that is not triangulated. -/
theorem triRoot_unselected {S : RSurf L K} {sel : L → Bool} {l : L} {p : Poly K} (hp : S.polygon l = .ok p) (hs : sel l = false) :
    S.triRoot sel l = .ok (num 0) := by
  have h0 : Reachable (MSurf.empty : MSurf L (Poly K)) := .empty
  have h1 := Reachable.step _ (.addPolygon p none) h0 rfl trivial (by simp)
  obtain ⟨rs, r1, -, r3, r4⟩ := C21_one_root_per_component h1
  have hst : stateOf (Op.run (.addPolygon p none : Op L K) MSurf.empty) =
      ⟨[(num 0, p)], [(num 0, List.replicate (nv p) none)], [], true, 0⟩ := rfl
  rw [hst] at r1 r3 r4
  have hlab : ∀ x, IsLabel (⟨[(num 0, p)], [(num 0, List.replicate (nv p) none)], [], true, 0⟩ : MSurf L (Poly K)) x ↔ x = num 0 := by
    intro x
    rw [isLabel_iff]
    simp [Dict.keys]
  obtain ⟨r, ⟨hr, -⟩, -⟩ := r4 (num 0) ((hlab _).2 rfl)
  obtain ⟨x, xs, rfl⟩ : ∃ x xs, rs = x :: xs := by
    cases rs with
    | nil => simp at hr
    | cons x xs => exact ⟨x, xs, rfl⟩
  have hx := (hlab x).1 (r3 x (by simp))
  subst hx
  have ha : MSurf.addPolygon p none (MSurf.empty : MSurf L (Poly K)) = .ok (num 0) ⟨[(num 0, p)], [(num 0, List.replicate (nv p) none)], [], true, 0⟩ := rfl
  simp only [triRoot, triImage, hp, hs, bind, Except.bind, ha]
  simp only [pure, Except.pure, Bool.false_eq_true, not_false_iff, if_true, r1]

end RSurf

/-! ### Examples -/

/-- Labels that are integers or tuples of a label and an integer. -/
structure TLabel where
  code : ℕ
deriving DecidableEq

instance : LinearOrder TLabel := LinearOrder.lift' TLabel.code (fun a b h => by cases a; cases b; simp_all)

instance : LabelNum TLabel := ⟨fun n => ⟨2 * n⟩, fun a b h => by simpa using h⟩

instance : TupleLabel TLabel where
  tag l k := ⟨2 * Nat.pair l.code k + 1⟩
  untag x := if x.code % 2 = 1 then some (⟨(Nat.unpair (x.code / 2)).1⟩, (Nat.unpair (x.code / 2)).2) else none
  untag_iff x l k := by
    obtain ⟨x⟩ := x
    obtain ⟨l⟩ := l
    simp only [TLabel.mk.injEq]
    constructor
    · intro h
      split_ifs at h with h1
      simp only [Option.some.injEq, Prod.mk.injEq, TLabel.mk.injEq] at h
      have := Nat.pair_unpair (x / 2)
      rw [h.1, h.2] at this
      omega
    · rintro rfl
      have e1 : (2 * Nat.pair l k + 1) / 2 = Nat.pair l k := by omega
      rw [if_pos (by omega), e1, Nat.unpair_pair]
  untag_num n := by
    simp [num]

namespace RSurf

/-- A torus made from a square with label 0. -/
def exSquare : RSurf TLabel ℚ where
  polygon l := if l = num 0 then .ok [(0, 0), (1, 0), (1, 1), (0, 1)] else .error .keyError
  opp l e := if l = num 0 ∧ e < 4 then .ok (some (num 0, (e + 2) % 4)) else .error .keyError

theorem exSquare_closed : exSquare.Closed (fun l => l = num 0) := by
  constructor
  · rintro l rfl
    exact ⟨_, rfl, (Poly.check_iff _ (by decide)).1 (by decide +kernel)⟩
  · rintro l p e rfl hp he
    have hp' : p = [(0, 0), (1, 0), (1, 1), (0, 1)] := by
      simp only [exSquare, if_pos] at hp
      cases hp
      rfl
    subst hp'
    have he : e < 4 := he
    refine ⟨num 0, (e + 2) % 4, [(0, 0), (1, 0), (1, 1), (0, 1)], by simp [exSquare, he], rfl, rfl, Nat.mod_lt _ (by norm_num), ?_⟩
    have h2 : (e + 2) % 4 < 4 := Nat.mod_lt _ (by norm_num)
    simp only [exSquare, h2, and_self, if_true]
    congr 3
    omega

example : exSquare.Closed (fun l => l = num 0) ∧ (∀ l, decide (l = (num 0 : TLabel)) = true ↔ l = num 0) ∧
    (∀ (l : TLabel) k, l = num 0 → ¬ tag l k = num 0) :=
  ⟨exSquare_closed, by simp, by
    rintro l k rfl h
    have := TupleLabel.untag_num (L := TLabel) 0
    rw [← h, (TupleLabel.untag_iff _ _ _).2 rfl] at this
    simp at this⟩

/-- A torus made from a square with label 0, and another one made from triangles with labels `(0, 0)` and 1. -/
def exCollision : RSurf TLabel ℚ where
  polygon l :=
    if l = num 0 then .ok [(0, 0), (1, 0), (1, 1), (0, 1)]
    else if l = tag (num 0) 0 ∨ l = num 1 then .ok [(0, 0), (1, 0), (0, 1)]
    else .error .keyError
  opp l e :=
    if l = num 0 ∧ e < 4 then .ok (some (num 0, (e + 2) % 4))
    else if l = tag (num 0) 0 ∧ e < 3 then .ok (some (num 1, e))
    else if l = num 1 ∧ e < 3 then .ok (some (tag (num 0) 0, e))
    else .error .keyError

/-- If there is a label `(label, n)` in the surface, the triangulation confuses it with a triangle of the polygon `label`:
it is not a surface. -/
theorem C56_collision_violation : ∃ (S : RSurf TLabel ℚ) (valid : TLabel → Prop) (has : TLabel → Bool), S.Closed valid ∧
    (∀ l, has l = true ↔ valid l) ∧
    ¬ (S.lazyTriangulated has (fun _ => true)).Closed (fun x => ∃ l, S.refLabel has (fun _ => true) x = .ok l) := by
  refine ⟨exCollision, fun l => l = num 0 ∨ l = tag (num 0) 0 ∨ l = num 1, fun l => decide (l = num 0 ∨ l = tag (num 0) 0 ∨ l = num 1),
    ⟨?_, ?_⟩, by simp, ?_⟩
  · rintro l (rfl | rfl | rfl)
    · exact ⟨_, rfl, (Poly.check_iff _ (by decide)).1 (by decide +kernel)⟩
    · exact ⟨_, rfl, Poly.valid_triangle (by decide +kernel)⟩
    · exact ⟨_, rfl, Poly.valid_triangle (by decide +kernel)⟩
  · rintro l p e (rfl | rfl | rfl) hp he
    · have hp' : p = [(0, 0), (1, 0), (1, 1), (0, 1)] := by
        have : exCollision.polygon (num 0) = .ok [(0, 0), (1, 0), (1, 1), (0, 1)] := rfl
        rw [hp] at this
        exact Except.ok.inj this
      subst hp'
      have he : e < 4 := he
      interval_cases e
      · exact ⟨num 0, 2, _, rfl, Or.inl rfl, rfl, by decide, rfl⟩
      · exact ⟨num 0, 3, _, rfl, Or.inl rfl, rfl, by decide, rfl⟩
      · exact ⟨num 0, 0, _, rfl, Or.inl rfl, rfl, by decide, rfl⟩
      · exact ⟨num 0, 1, _, rfl, Or.inl rfl, rfl, by decide, rfl⟩
    · have hp' : p = [(0, 0), (1, 0), (0, 1)] := by
        have : exCollision.polygon (tag (num 0) 0) = .ok [(0, 0), (1, 0), (0, 1)] := rfl
        rw [hp] at this
        exact Except.ok.inj this
      subst hp'
      have he : e < 3 := he
      interval_cases e
      · exact ⟨num 1, 0, _, rfl, Or.inr (Or.inr rfl), rfl, by decide, rfl⟩
      · exact ⟨num 1, 1, _, rfl, Or.inr (Or.inr rfl), rfl, by decide, rfl⟩
      · exact ⟨num 1, 2, _, rfl, Or.inr (Or.inr rfl), rfl, by decide, rfl⟩
    · have hp' : p = [(0, 0), (1, 0), (0, 1)] := by
        have : exCollision.polygon (num 1) = .ok [(0, 0), (1, 0), (0, 1)] := rfl
        rw [hp] at this
        exact Except.ok.inj this
      subst hp'
      have he : e < 3 := he
      interval_cases e
      · exact ⟨tag (num 0) 0, 0, _, rfl, Or.inr (Or.inl rfl), rfl, by decide, rfl⟩
      · exact ⟨tag (num 0) 0, 1, _, rfl, Or.inr (Or.inl rfl), rfl, by decide, rfl⟩
      · exact ⟨tag (num 0) 0, 2, _, rfl, Or.inr (Or.inl rfl), rfl, by decide, rfl⟩
  · intro h
    have hp : ∃ q, (exCollision.lazyTriangulated (fun l => decide (l = num 0 ∨ l = tag (num 0) 0 ∨ l = num 1)) (fun _ => true)).polygon
        (tag (num 0) 1) = .ok q ∧ 0 < q.length := ⟨[(0, 0), (1, 1), (0, 1)], by decide +kernel, by decide⟩
    obtain ⟨q, hq, h0⟩ := hp
    obtain ⟨l', e', p', g1, -, -, -, g2⟩ := h.glue (tag (num 0) 1) q 0 ⟨num 0, by decide +kernel⟩ hq h0
    have k1 : (exCollision.lazyTriangulated (fun l => decide (l = num 0 ∨ l = tag (num 0) 0 ∨ l = num 1)) (fun _ => true)).opp
        (tag (num 0) 1) 0 = .ok (some (tag (num 0) 0, 2)) := by decide +kernel
    have k2 : (exCollision.lazyTriangulated (fun l => decide (l = num 0 ∨ l = tag (num 0) 0 ∨ l = num 1)) (fun _ => true)).opp
        (tag (num 0) 0) 2 = .ok (some (num 1, 2)) := by decide +kernel
    rw [k1] at g1
    cases g1
    rw [k2] at g2
    revert g2
    decide +kernel

/-- A torus made from a square with label 1. -/
def exOne : RSurf TLabel ℚ where
  polygon l := if l = num 1 then .ok [(0, 0), (1, 0), (1, 1), (0, 1)] else .error .keyError
  opp l e := if l = num 1 ∧ e < 4 then .ok (some (num 1, (e + 2) % 4)) else .error .keyError

/-- If a root is not to be triangulated then `roots()` need not be labels of the surface. -/
theorem C56_root_violation : ∃ (S : RSurf TLabel ℚ) (valid : TLabel → Prop) (has sel : TLabel → Bool) (r x : TLabel), S.Closed valid ∧
    (∀ l, has l = true ↔ valid l) ∧ (∀ l k, valid l → ¬ valid (tag l k)) ∧ valid r ∧ S.triRoot sel r = .ok x ∧
    S.triContains has sel x = .ok false := by
  refine ⟨exOne, fun l => l = num 1, fun l => decide (l = num 1), fun _ => false, num 1, num 0, ⟨?_, ?_⟩, by simp, ?_, rfl, ?_, ?_⟩
  · rintro l rfl
    exact ⟨_, rfl, (Poly.check_iff _ (by decide)).1 (by decide +kernel)⟩
  · rintro l p e rfl hp he
    have hp' : p = [(0, 0), (1, 0), (1, 1), (0, 1)] := by
      simp only [exOne, if_pos] at hp
      cases hp
      rfl
    subst hp'
    have he : e < 4 := he
    refine ⟨num 1, (e + 2) % 4, [(0, 0), (1, 0), (1, 1), (0, 1)], by simp [exOne, he], rfl, rfl, Nat.mod_lt _ (by norm_num), ?_⟩
    have h2 : (e + 2) % 4 < 4 := Nat.mod_lt _ (by norm_num)
    simp only [exOne, h2, and_self, if_true]
    congr 3
    omega
  · rintro l k rfl h
    have := TupleLabel.untag_num (L := TLabel) 1
    rw [← h, (TupleLabel.untag_iff _ _ _).2 rfl] at this
    simp at this
  · exact triRoot_unselected (p := [(0, 0), (1, 0), (1, 1), (0, 1)]) rfl rfl
  · decide +kernel

end RSurf
end Flat
