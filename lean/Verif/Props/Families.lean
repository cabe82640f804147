import Verif.Model.Families
import Verif.Lemmas.Triangles
import Mathlib.Tactic.IntervalCases

/-!
# C35, C55: surfaces given by formulas
-/

namespace Flat
namespace Surf
variable {L K : Type} [Field K] [LinearOrder K] [IsStrictOrderedRing K]

/-- Every label has a polygon, and the gluings are an involution on the edges of the polygons. -/
def Glued (S : Surf L K) (valid : L → Prop) : Prop :=
  ∀ l, valid l → ∃ p, S.polygon l = .ok p ∧ ∀ e, e < p.length → ∃ l' e' p', S.opp l e = .ok (l', e') ∧ valid l' ∧
    S.polygon l' = .ok p' ∧ e' < p'.length ∧ S.opp l' e' = .ok (l, e)

/-- Glued edges are translates of each other, with opposite orientation. -/
def Translational (S : Surf L K) (valid : L → Prop) : Prop :=
  ∀ l e l' e' p p', valid l → S.polygon l = .ok p → e < p.length → S.opp l e = .ok (l', e') → S.polygon l' = .ok p' →
    p'.edge e' = - p.edge e

/-- Glued edges are parallel: a multiple of each other. -/
def Dilational (S : Surf L K) (valid : L → Prop) : Prop :=
  ∀ l e l' e' p p', valid l → S.polygon l = .ok p → e < p.length → S.opp l e = .ok (l', e') → S.polygon l' = .ok p' →
    ∃ c : K, c ≠ 0 ∧ p'.edge e' = c • p.edge e

/-- Every polygon can be reached from the root by crossing edges. -/
def ConnectedFrom (S : Surf L K) (valid : L → Prop) (root : L) : Prop :=
  ∀ l, valid l → Relation.ReflTransGen (fun a b => ∃ p e e', S.polygon a = .ok p ∧ e < p.length ∧ S.opp a e = .ok (b, e')) root l

/-! ### Chamanara -/

theorem chamanaraPolygon_ok {α : K} (h0 : 0 < α) (h1 : α < 1) :
    ∃ x, x = 1 / (1 - α) ∧ 1 < x ∧ chamanaraPolygon α = .ok [(0, 0), (1, 0), (1 - x, x), (1 - x, x - 1)] := by
  have hd : 0 < 1 - α := by linarith
  refine ⟨1 / (1 - α), rfl, ?_, ?_⟩
  · rw [lt_div_iff₀ hd]; linarith
  · have hx : 1 < 1 / (1 - α) := by rw [lt_div_iff₀ hd]; linarith
    unfold chamanaraPolygon
    rw [if_neg hd.ne']
    dsimp only
    generalize 1 / (1 - α) = x at hx
    have hv : Poly.partialSums (0 : Vec K) [(1, 0), (-x, x), (0, -1), (x - 1, 1 - x)] =
        [(0, 0), (1, 0), (1 - x, x), (1 - x, x - 1), (0, 0)] := by
      simp only [Poly.partialSums, List.cons.injEq, Prod.mk.injEq, Prod.mk_add_mk, Prod.fst_add, Prod.snd_add, and_true]
      refine ⟨rfl, ?_, ?_, ?_, ?_⟩ <;> ext <;> simp <;> ring
    have hval : Poly.Valid [((0 : K), (0 : K)), (1, 0), (1 - x, x), (1 - x, x - 1)] := by
      apply Poly.valid_quad
      refine ⟨?_, ?_, ?_, ?_⟩ <;> simp only [ccw, Prod.mk_sub_mk] <;> nlinarith
    have hc := ((Poly.ofVertices_iff _ _).2 ⟨rfl, hval⟩)
    unfold Poly.ofEdges
    rw [if_neg (by simp), hv]
    simp only [List.getLast?_cons_cons, List.getLast?_singleton, List.dropLast_cons₂, List.dropLast_singleton]
    rw [if_neg (by simp)]
    unfold Poly.ofVertices at hc
    rw [if_neg (by simp)] at hc
    exact hc

theorem chamanaraOpp_lt (p : ℤ) (e : ℕ) (he : e < 4) : (chamanaraOpp p e).2 < 4 := by
  unfold chamanaraOpp
  split_ifs <;> dsimp only <;> omega

theorem chamanaraOpp_invol (p : ℤ) (e : ℕ) (he : e < 4) : chamanaraOpp (chamanaraOpp p e).1 (chamanaraOpp p e).2 = (p, e) := by
  interval_cases e
  · simp [chamanaraOpp]
  · unfold chamanaraOpp
    by_cases h1 : p < 0
    · simp [h1]
      try omega
    · by_cases h2 : 1 < p
      · simp [h1, h2]
        try omega
      · have h1' : ¬ (1 - p < 0) := by omega
        have h2' : ¬ (1 < 1 - p) := by omega
        simp [h1, h2, h1', h2']
  · simp [chamanaraOpp]
  · unfold chamanaraOpp
    by_cases h1 : p ≤ 0
    · have : p - 1 < 0 := by omega
      simp [h1, this]
    · have h2 : ¬ (p + 1 < 0) := by omega
      have h3 : 1 < p + 1 := by omega
      simp [h1, h2, h3]

/-- **C35**. The Chamanara surface for `0 < α < 1`: all edges are glued in pairs, glued edges are parallel, and all polygons
are connected to the root. -/
theorem C35_chamanara {α : K} (h0 : 0 < α) (h1 : α < 1) : (chamanara α).Glued (fun _ => True) ∧
    (chamanara α).Dilational (fun _ => True) ∧ (chamanara α).ConnectedFrom (fun _ => True) 0 := by
  obtain ⟨x, hx, hx1, hp⟩ := chamanaraPolygon_ok h0 h1
  refine ⟨?_, ?_, ?_⟩
  · intro l _
    refine ⟨_, hp, fun e he => ?_⟩
    have he' : e < 4 := he
    exact ⟨(chamanaraOpp l e).1, (chamanaraOpp l e).2, _, rfl, trivial, hp, chamanaraOpp_lt l e he',
      by show Except.ok (chamanaraOpp _ _) = _; rw [chamanaraOpp_invol l e he']⟩
  · intro l e l' e' p p' _ hP he ho hP'
    have hP2 : chamanaraPolygon α = .ok p := hP
    have hP3 : chamanaraPolygon α = .ok p' := hP'
    rw [hp] at hP2 hP3
    injection hP2 with hP2; injection hP3 with hP3
    subst hP2; subst hP3
    have he' : e < 4 := he
    have ho' : chamanaraOpp l e = (l', e') := by injection ho
    have key : ∀ c : K, c ≠ 0 → Poly.edge [((0 : K), (0 : K)), (1, 0), (1 - x, x), (1 - x, x - 1)] e' =
        c • Poly.edge [((0 : K), (0 : K)), (1, 0), (1 - x, x), (1 - x, x - 1)] e →
        ∃ c : K, c ≠ 0 ∧ Poly.edge [((0 : K), (0 : K)), (1, 0), (1 - x, x), (1 - x, x - 1)] e' =
        c • Poly.edge [((0 : K), (0 : K)), (1, 0), (1 - x, x), (1 - x, x - 1)] e := fun c h1 h2 => ⟨c, h1, h2⟩
    have E1 : Poly.edge [((0 : K), (0 : K)), (1, 0), (1 - x, x), (1 - x, x - 1)] 1 = (-x, x) := by
      simp [Poly.edge, Poly.vertex]
    have E3 : Poly.edge [((0 : K), (0 : K)), (1, 0), (1 - x, x), (1 - x, x - 1)] 3 = (x - 1, 1 - x) := by
      simp [Poly.edge, Poly.vertex]
    have hxm : x - 1 ≠ 0 := by linarith
    have hx0 : x ≠ 0 := by linarith
    have k13 : ∃ c : K, c ≠ 0 ∧ ((-x, x) : Vec K) = c • ((x - 1, 1 - x) : Vec K) := by
      refine ⟨-(x / (x - 1)), neg_ne_zero.2 (div_ne_zero hx0 hxm), ?_⟩
      ext <;> simp <;> field_simp
      ring
    have k31 : ∃ c : K, c ≠ 0 ∧ ((x - 1, 1 - x) : Vec K) = c • ((-x, x) : Vec K) := by
      refine ⟨-((x - 1) / x), neg_ne_zero.2 (div_ne_zero hxm hx0), ?_⟩
      ext <;> simp <;> field_simp
      ring
    interval_cases e
    · obtain rfl : e' = 0 := by have := congrArg Prod.snd ho'; simpa [chamanaraOpp] using this.symm
      exact key 1 one_ne_zero (by rw [one_smul])
    · have he1 : e' = 1 ∨ e' = 3 := by
        have := congrArg Prod.snd ho'
        unfold chamanaraOpp at this
        simp at this
        split_ifs at this <;> simp at this <;> omega
      rcases he1 with rfl | rfl
      · exact key 1 one_ne_zero (by rw [one_smul])
      · rw [E1, E3]; exact k31
    · obtain rfl : e' = 2 := by have := congrArg Prod.snd ho'; simpa [chamanaraOpp] using this.symm
      exact key 1 one_ne_zero (by rw [one_smul])
    · obtain rfl : e' = 1 := by
        have := congrArg Prod.snd ho'
        unfold chamanaraOpp at this
        simp at this
        split_ifs at this <;> simp at this <;> omega
      rw [E1, E3]; exact k13
  · intro l _
    have step : ∀ (a : ℤ) (e : ℕ), e < 4 → ∃ p e1 e', (chamanara α).polygon a = .ok p ∧ e1 < p.length ∧
        (chamanara α).opp a e1 = .ok ((chamanaraOpp a e).1, e') := fun a e he =>
      ⟨_, e, (chamanaraOpp a e).2, hp, he, rfl⟩
    have neg : ∀ n : ℕ, Relation.ReflTransGen (fun a b => ∃ p e e', (chamanara α).polygon a = .ok p ∧ e < p.length ∧
        (chamanara α).opp a e = .ok (b, e')) 0 (-(n : ℤ)) := by
      intro n
      induction n with
      | zero => exact .refl
      | succ n ih =>
        refine ih.tail ?_
        have := step (-(n : ℤ)) 3 (by omega)
        have e : (chamanaraOpp (-(n : ℤ)) 3).1 = -((n + 1 : ℕ) : ℤ) := by
          simp [chamanaraOpp]; ring
        rwa [e] at this
    have pos : ∀ n : ℕ, Relation.ReflTransGen (fun a b => ∃ p e e', (chamanara α).polygon a = .ok p ∧ e < p.length ∧
        (chamanara α).opp a e = .ok (b, e')) 0 ((n : ℤ) + 1) := by
      intro n
      induction n with
      | zero =>
        refine .single ?_
        have := step 0 0 (by omega)
        simpa [chamanaraOpp] using this
      | succ n ih =>
        refine ih.tail ?_
        have := step ((n : ℤ) + 1) 3 (by omega)
        have e : (chamanaraOpp ((n : ℤ) + 1) 3).1 = ((n + 1 : ℕ) : ℤ) + 1 := by
          have : ¬ ((n : ℤ) + 1 ≤ 0) := by omega
          simp [chamanaraOpp, this]
        rwa [e] at this
    by_cases hl : l ≤ 0
    · have := neg l.natAbs
      rwa [show -((l.natAbs : ℕ) : ℤ) = l by omega] at this
    · have := pos (l.toNat - 1)
      rwa [show ((l.toNat - 1 : ℕ) : ℤ) + 1 = l by omega] at this

example : (chamanara (1 / 2 : ℚ)).Glued (fun _ => True) := (C35_chamanara (by norm_num) (by norm_num)).1

/-! ### Rectangles -/

/-- The vertices of a rectangle. -/
def rect (w h : K) : Poly K := [(0, 0), (w, 0), (w, h), (0, h)]

theorem rectangle_ok {w h : K} (hw : 0 < w) (hh : 0 < h) : rectangle w h = .ok (rect w h) := by
  unfold rectangle rect
  rw [if_neg (not_le.2 hw), if_neg (not_le.2 hh)]
  simp only [Poly.partialSums, List.dropLast_cons₂, List.dropLast_singleton]
  congr 1
  simp only [List.cons.injEq, and_true]
  refine ⟨rfl, ?_, ?_, ?_⟩ <;> ext <;> simp

omit [LinearOrder K] [IsStrictOrderedRing K] in
theorem rect_edge (w h : K) : Poly.edge (rect w h) 0 = (w, 0) ∧ Poly.edge (rect w h) 1 = (0, h) ∧
    Poly.edge (rect w h) 2 = (-w, 0) ∧ Poly.edge (rect w h) 3 = (0, -h) := by
  simp [Poly.edge, Poly.vertex, rect]

theorem rect_ofEdges {w h : K} (hw : 0 < w) (hh : 0 < h) : Poly.ofEdges [(w, 0), (0, h), (-w, 0), (0, -h)] = .ok (rect w h) := by
  have hv : Poly.partialSums (0 : Vec K) [(w, 0), (0, h), (-w, 0), (0, -h)] = [(0, 0), (w, 0), (w, h), (0, h), (0, 0)] := by
    simp only [Poly.partialSums, List.cons.injEq, and_true]
    refine ⟨rfl, ?_, ?_, ?_, ?_⟩ <;> ext <;> simp
  have hval : Poly.Valid [((0 : K), (0 : K)), (w, 0), (w, h), (0, h)] := by
    apply Poly.valid_quad
    have := mul_pos hw hh
    refine ⟨?_, ?_, ?_, ?_⟩ <;> simp only [ccw, Prod.mk_sub_mk] <;> nlinarith
  have hc := ((Poly.ofVertices_iff _ _).2 ⟨rfl, hval⟩)
  unfold Poly.ofEdges
  rw [if_neg (by simp), hv]
  simp only [List.getLast?_cons_cons, List.getLast?_singleton, List.dropLast_cons₂, List.dropLast_singleton]
  rw [if_neg (by simp)]
  unfold Poly.ofVertices at hc
  rw [if_neg (by simp)] at hc
  exact hc

/-! ### The E-infinity surface -/

theorem eWeights_pos {l : K} (h1 : 1 < l) (hl : 0 ≤ l ^ 3 - 5 * l ^ 2 + 4 * l - 1) (n : ℕ) :
    0 < eBlack l n ∧ 0 < eWhite l n ∧ eWhite l n * eWhite l n ≤ l * eBlack l n * (eWhite l n - eBlack l n) := by
  have h4 : 4 < l := by
    by_contra hn
    have h5 : 0 ≤ l * (l - 1) := mul_nonneg (by linarith) (by linarith)
    have := mul_nonneg h5 (show 0 ≤ 4 - l by linarith)
    nlinarith
  induction n with
  | zero =>
    simp only [eBlack, eWhite]
    refine ⟨by linarith, by nlinarith, ?_⟩
    nlinarith
  | succ n ih =>
    obtain ⟨hb, hw, hq⟩ := ih
    rw [eWhite, eBlack]
    set b := eBlack l n
    set w := eWhite l n
    have hlb : 0 < l * b := mul_pos (by linarith) hb
    have hww : 0 < w * w := mul_pos hw hw
    have hwb : 0 < w - b := by
      by_contra hn
      have := mul_nonneg hlb.le (sub_nonneg.2 (not_lt.1 (fun h => hn h) |> fun h => by linarith : w - b ≤ 0))
      nlinarith
    have hw' : 0 < l * (w - b) - w := by
      by_contra hn
      have := mul_nonneg hb.le (show 0 ≤ w - l * (w - b) by linarith)
      have := mul_pos hw hwb
      nlinarith
    refine ⟨hwb, hw', ?_⟩
    nlinarith

theorem getBlack_pos {l : K} (h1 : 1 < l) (hl : 0 ≤ l ^ 3 - 5 * l ^ 2 + 4 * l - 1) (n : ℤ) : 0 < getBlack l n := by
  unfold getBlack
  split_ifs
  · exact one_pos
  · linarith
  · exact (eWeights_pos h1 hl _).1
  · exact (eWeights_pos h1 hl _).1

theorem getWhite_pos {l : K} (h1 : 1 < l) (hl : 0 ≤ l ^ 3 - 5 * l ^ 2 + 4 * l - 1) (n : ℤ) : 0 < getWhite l n := by
  unfold getWhite
  split_ifs
  · linarith
  · linarith
  · exact (eWeights_pos h1 hl _).2.1
  · exact (eWeights_pos h1 hl _).2.1

/-- The gluing of the E-infinity surface in two cases. -/
theorem eInfinityOpp_cases (p : ℤ) (e : ℕ) (he : e < 4) :
    (p = 0 ∨ p = 1 ∨ p = -1 ∨ p = 2) ∨ (p ≤ -2 ∨ 3 ≤ p) ∧
      eInfinityOpp p e = if e % 2 ≠ 0 then (-p, (e + 2) % 4) else (1 - p, (e + 2) % 4) := by
  by_cases h : p = 0 ∨ p = 1 ∨ p = -1 ∨ p = 2
  · exact Or.inl h
  · right
    push Not at h
    obtain ⟨h0, h1, h2, h3⟩ := h
    refine ⟨by omega, ?_⟩
    unfold eInfinityOpp
    simp only [h0, h1, h2, h3, false_and, if_false]
    split_ifs <;> rfl

theorem eInfinityOpp_spec (p : ℤ) (e : ℕ) (he : e < 4) :
    eInfinityOpp (eInfinityOpp p e).1 (eInfinityOpp p e).2 = (p, e) ∧ (eInfinityOpp p e).2 = (e + 2) % 4 := by
  rcases eInfinityOpp_cases p e he with (rfl | rfl | rfl | rfl) | ⟨h, h'⟩
  · interval_cases e <;> decide
  · interval_cases e <;> decide
  · interval_cases e <;> decide
  · interval_cases e <;> decide
  · rw [h']
    by_cases ho : e % 2 ≠ 0
    · rw [if_pos ho]
      refine ⟨?_, rfl⟩
      rcases eInfinityOpp_cases (-p) ((e + 2) % 4) (by omega) with h2 | ⟨-, h2⟩
      · have : p = -2 := by omega
        subst this
        interval_cases e <;> first | decide | omega
      · dsimp only
        rw [h2, if_pos (by omega)]
        ext <;> dsimp only <;> omega
    · rw [if_neg ho]
      refine ⟨?_, rfl⟩
      rcases eInfinityOpp_cases (1 - p) ((e + 2) % 4) (by omega) with h2 | ⟨-, h2⟩
      · omega
      · dsimp only
        rw [h2, if_neg (by omega)]
        ext <;> dsimp only <;> omega

omit [LinearOrder K] [IsStrictOrderedRing K] in
theorem getBlack_eq (l : K) (p : ℤ) (e : ℕ) (he : e = 0 ∨ e = 2) : getBlack l (eInfinityOpp p e).1 = getBlack l p := by
  rcases eInfinityOpp_cases p e (by omega) with (rfl | rfl | rfl | rfl) | ⟨h, h'⟩
  · rcases he with rfl | rfl <;> simp [eInfinityOpp]
  · rcases he with rfl | rfl <;> simp [eInfinityOpp, getBlack, eBlack]
  · rcases he with rfl | rfl <;> simp [eInfinityOpp, getBlack, eBlack]
  · rcases he with rfl | rfl <;> simp [eInfinityOpp, getBlack, eBlack]
  · rw [h', if_neg (by omega)]
    dsimp only
    unfold getBlack
    rcases h with h | h
    · rw [if_neg (by omega), if_neg (by omega), if_pos (by omega), if_neg (by omega), if_neg (by omega), if_neg (by omega)]
    · rw [if_neg (by omega), if_neg (by omega), if_neg (by omega), if_neg (by omega), if_neg (by omega), if_pos (by omega)]
      congr 2; omega

omit [LinearOrder K] [IsStrictOrderedRing K] in
theorem getWhite_eq (l : K) (p : ℤ) (e : ℕ) (he : e = 1 ∨ e = 3) : getWhite l (eInfinityOpp p e).1 = getWhite l p := by
  rcases eInfinityOpp_cases p e (by omega) with (rfl | rfl | rfl | rfl) | ⟨h, h'⟩
  · rcases he with rfl | rfl <;> simp [eInfinityOpp, getWhite]
  · rcases he with rfl | rfl <;> simp [eInfinityOpp, getWhite]
  · rcases he with rfl | rfl <;> simp [eInfinityOpp]
  · rcases he with rfl | rfl <;> simp [eInfinityOpp, getWhite]
  · rw [h', if_pos (by omega)]
    dsimp only
    unfold getWhite
    rcases h with h | h
    · rw [if_neg (by omega), if_neg (by omega), if_pos (by omega), if_neg (by omega), if_neg (by omega), if_neg (by omega)]
    · rw [if_neg (by omega), if_neg (by omega), if_neg (by omega), if_neg (by omega), if_neg (by omega), if_pos (by omega)]
      congr 2; omega

/-- **C35**. The E-infinity surface for the default parameter, the largest root of `x³ - 5x² + 4x - 1`, and for all larger
ones: all polygons exist, all edges are glued in pairs by translations, all polygons are connected to the root. -/
theorem C35_e_infinity {l : K} (h1 : 1 < l) (hl : 0 ≤ l ^ 3 - 5 * l ^ 2 + 4 * l - 1) : (eInfinity l).Glued (fun _ => True) ∧
    (eInfinity l).Translational (fun _ => True) ∧ (eInfinity l).ConnectedFrom (fun _ => True) 0 := by
  have hp : ∀ n, (eInfinity l).polygon n = .ok (rect (2 * getBlack l n) (getWhite l n)) := fun n =>
    rectangle_ok (mul_pos two_pos (getBlack_pos h1 hl n)) (getWhite_pos h1 hl n)
  refine ⟨?_, ?_, ?_⟩
  · intro n _
    refine ⟨_, hp n, fun e he => ?_⟩
    have he' : e < 4 := he
    obtain ⟨k1, k2⟩ := eInfinityOpp_spec n e he'
    refine ⟨(eInfinityOpp n e).1, (eInfinityOpp n e).2, _, rfl, trivial, hp _, ?_, ?_⟩
    · show _ < 4
      rw [k2]; omega
    · show Except.ok (eInfinityOpp _ _) = _
      rw [k1]
  · intro n e n' e' p p' _ hP he ho hP'
    rw [hp] at hP hP'
    injection hP with hP; injection hP' with hP'
    subst hP; subst hP'
    have he' : e < 4 := he
    have ho' : eInfinityOpp n e = (n', e') := by injection ho
    have k2 := (eInfinityOpp_spec n e he').2
    rw [ho'] at k2
    dsimp only at k2
    obtain rfl : n' = (eInfinityOpp n e).1 := by rw [ho']
    obtain ⟨r0, r1, r2, r3⟩ := rect_edge (2 * getBlack l n) (getWhite l n)
    obtain ⟨s0, s1, s2, s3⟩ := rect_edge (2 * getBlack l (eInfinityOpp n e).1) (getWhite l (eInfinityOpp n e).1)
    subst k2
    interval_cases e
    · rw [s2, r0, getBlack_eq l n 0 (Or.inl rfl)]; simp
    · rw [s3, r1, getWhite_eq l n 1 (Or.inl rfl)]; simp
    · rw [s0, r2, getBlack_eq l n 2 (Or.inr rfl)]; simp
    · rw [s1, r3, getWhite_eq l n 3 (Or.inr rfl)]; simp
  · intro n _
    have step : ∀ (a b : ℤ) (e : ℕ), e < 4 → (eInfinityOpp a e).1 = b → ∃ p e1 e', (eInfinity l).polygon a = .ok p ∧ e1 < p.length ∧
        (eInfinity l).opp a e1 = .ok (b, e') := fun a b e he hb =>
      ⟨_, e, (eInfinityOpp a e).2, hp a, he, by rw [← hb]; rfl⟩
    have c1 : Relation.ReflTransGen (fun a b => ∃ p e e', (eInfinity l).polygon a = .ok p ∧ e < p.length ∧
        (eInfinity l).opp a e = .ok (b, e')) 0 1 := Relation.ReflTransGen.single (step 0 1 1 (by omega) (by decide))
    have cm1 := c1.tail (step 1 (-1) 0 (by omega) (by decide))
    have c2 := c1.tail (step 1 2 2 (by omega) (by decide))
    have all : ∀ k : ℕ, Relation.ReflTransGen (fun a b => ∃ p e e', (eInfinity l).polygon a = .ok p ∧ e < p.length ∧
        (eInfinity l).opp a e = .ok (b, e')) 0 ((k : ℤ) + 2) ∧
        Relation.ReflTransGen (fun a b => ∃ p e e', (eInfinity l).polygon a = .ok p ∧ e < p.length ∧
        (eInfinity l).opp a e = .ok (b, e')) 0 (-((k : ℤ) + 2)) := by
      intro k
      induction k with
      | zero =>
        refine ⟨by simpa using c2, ?_⟩
        have := c2.tail (step 2 (-2) 1 (by omega) (by decide))
        simpa using this
      | succ k ih =>
        have h3 : Relation.ReflTransGen (fun a b => ∃ p e e', (eInfinity l).polygon a = .ok p ∧ e < p.length ∧
            (eInfinity l).opp a e = .ok (b, e')) 0 (((k + 1 : ℕ) : ℤ) + 2) := by
          refine ih.2.tail (step _ _ 0 (by omega) ?_)
          rcases eInfinityOpp_cases (-((k : ℤ) + 2)) 0 (by omega) with h | ⟨-, h⟩
          · omega
          · rw [h]; simp; ring
        refine ⟨h3, h3.tail (step _ _ 1 (by omega) ?_)⟩
        rcases eInfinityOpp_cases (((k + 1 : ℕ) : ℤ) + 2) 1 (by omega) with h | ⟨-, h⟩
        · omega
        · rw [h]; simp
    rcases (show n = 0 ∨ n = 1 ∨ n = -1 ∨ 2 ≤ n ∨ n ≤ -2 by omega) with rfl | rfl | rfl | h | h
    · exact .refl
    · exact c1
    · exact cm1
    · have := (all (n.toNat - 2)).1
      rwa [show ((n.toNat - 2 : ℕ) : ℤ) + 2 = n by omega] at this
    · have := (all ((-n).toNat - 2)).2
      rwa [show -((((-n).toNat - 2 : ℕ) : ℤ) + 2) = n by omega] at this

example : (eInfinity (5 : ℚ)).Glued (fun _ => True) := (C35_e_infinity (by norm_num) (by norm_num)).1

/-- For smaller parameters some rectangles do not exist. -/
example : (eInfinity (4 : ℚ)).polygon 5 = .error .valueError := by
  simp [eInfinity, rectangle, getBlack, getWhite, eBlack, eWhite]
  norm_num

/-! ### The T-fractal -/

theorem tFractal_polygon {w r h1 h2 : K} (hw : 0 < w) (hr : 0 < r) (hh1 : 0 < h1) (hh2 : 0 < h2) (u : List Letter) (i : ℕ)
    (hi : i < 4) : (tFractal w r h1 h2).polygon (u, i) = .ok (rect (1 / r ^ u.length * (if i = 0 ∨ i = 2 then w else w / r))
      (1 / r ^ u.length * (if i = 0 then h1 else h2))) := by
  have hc : 0 < 1 / r ^ u.length := by positivity
  have hb : tFractalBase w r h1 h2 i = .ok (rect (if i = 0 ∨ i = 2 then w else w / r) (if i = 0 then h1 else h2)) := by
    unfold tFractalBase
    interval_cases i
    · simp [rect_ofEdges hw hh1]
    · simp [rect_ofEdges (div_pos hw hr) hh2]
    · simp [rect_ofEdges hw hh2]
    · simp [rect_ofEdges (div_pos hw hr) hh2]
  show (tFractalBase w r h1 h2 i >>= _) = _
  rw [hb]
  simp only [bind, Except.bind]
  have hd : (⟨1 / r ^ u.length, 0, 0, 1 / r ^ u.length⟩ : Mat2 K).det = 1 / r ^ u.length * (1 / r ^ u.length) := by
    simp [Mat2.det]
  have hm : Poly.mul ⟨1 / r ^ u.length, 0, 0, 1 / r ^ u.length⟩
      (rect (if i = 0 ∨ i = 2 then w else w / r) (if i = 0 then h1 else h2)) =
      some (rect (1 / r ^ u.length * (if i = 0 ∨ i = 2 then w else w / r)) (1 / r ^ u.length * (if i = 0 then h1 else h2))) := by
    unfold Poly.mul
    rw [hd, if_neg (mul_pos hc hc).ne', if_neg (not_lt.2 (mul_pos hc hc).le)]
    simp [rect, Mat2.mulVec]
  rw [hm]
  rfl

/-- **C35**. The T-fractal surface with positive parameters. -/
theorem C35_t_fractal {w r h1 h2 : K} (hw : 0 < w) (hr : 0 < r) (hh1 : 0 < h1) (hh2 : 0 < h2) :
    (tFractal w r h1 h2).Glued (fun l => l.2 < 4) ∧ (tFractal w r h1 h2).Translational (fun l => l.2 < 4) ∧
    (tFractal w r h1 h2).ConnectedFrom (fun l => l.2 < 4) ([], 0) := by
  have hp := tFractal_polygon hw hr hh1 hh2
  have ho : (tFractal w r h1 h2).opp = tFractalOpp := rfl
  have hr0 : r ≠ 0 := hr.ne'
  refine ⟨?_, ?_, ?_⟩
  · rintro ⟨u, i⟩ hi
    dsimp only at hi
    refine ⟨_, hp u i hi, fun e he => ?_⟩
    have he' : e < 4 := he
    rw [ho]
    suffices h : ∃ u' i' e', tFractalOpp (u, i) e = .ok ((u', i'), e') ∧ i' < 4 ∧ e' < 4 ∧ tFractalOpp (u', i') e' = .ok ((u, i), e) by
      obtain ⟨u', i', e', k1, k2, k3, k4⟩ := h
      exact ⟨(u', i'), e', _, k1, k2, hp u' i' k2, k3, k4⟩
    rcases List.eq_nil_or_concat u with rfl | ⟨v, a, rfl⟩
    · interval_cases i <;> interval_cases e <;> simp [tFractalOpp, tFractalLabel, bind, Except.bind, pure, Except.pure]
    · cases a <;> interval_cases i <;> interval_cases e <;>
        simp [tFractalOpp, tFractalLabel, bind, Except.bind, pure, Except.pure]
  · rintro ⟨u, i⟩ e ⟨u', i'⟩ e' p p' hi hP he hopp hP'
    dsimp only at hi
    rw [hp u i hi] at hP
    injection hP with hP
    subst hP
    have he' : e < 4 := he
    rw [ho] at hopp
    rcases List.eq_nil_or_concat u with rfl | ⟨v, a, rfl⟩
    · interval_cases i <;> interval_cases e <;>
        simp [tFractalOpp, tFractalLabel, bind, Except.bind, pure, Except.pure] at hopp <;>
        (obtain ⟨⟨rfl, rfl⟩, rfl⟩ := hopp
         rw [hp _ _ (by norm_num)] at hP'
         injection hP' with hP'
         subst hP'
         simp [Poly.edge, Poly.vertex, rect]
         try field_simp
         try ring)
    · cases a <;> interval_cases i <;> interval_cases e <;>
        simp [tFractalOpp, tFractalLabel, bind, Except.bind, pure, Except.pure] at hopp <;>
        (obtain ⟨⟨rfl, rfl⟩, rfl⟩ := hopp
         rw [hp _ _ (by norm_num)] at hP'
         injection hP' with hP'
         subst hP'
         simp [Poly.edge, Poly.vertex, rect]
         try field_simp
         try ring)
  · have step : ∀ (a b : List Letter × ℕ) (e : ℕ), a.2 < 4 → e < 4 → (∃ e', tFractalOpp a e = .ok (b, e')) →
        ∃ p e1 e', (tFractal w r h1 h2).polygon a = .ok p ∧ e1 < p.length ∧ (tFractal w r h1 h2).opp a e1 = .ok (b, e') :=
      fun a b e ha he hb => ⟨_, e, hb.choose, hp a.1 a.2 ha, he, hb.choose_spec⟩
    have row : ∀ u, Relation.ReflTransGen (fun a b => ∃ p e e', (tFractal w r h1 h2).polygon a = .ok p ∧ e < p.length ∧
        (tFractal w r h1 h2).opp a e = .ok (b, e')) ([], 0) (u, 0) → ∀ i < 4,
        Relation.ReflTransGen (fun a b => ∃ p e e', (tFractal w r h1 h2).polygon a = .ok p ∧ e < p.length ∧
        (tFractal w r h1 h2).opp a e = .ok (b, e')) ([], 0) (u, i) := by
      intro u h i hi
      have h2 := h.tail (step (u, 0) (u, 2) 2 (by norm_num) (by norm_num) ⟨0, by simp [tFractalOpp, tFractalLabel, bind, Except.bind, pure, Except.pure]⟩)
      interval_cases i
      · exact h
      · exact h2.tail (step (u, 2) (u, 1) 3 (by norm_num) (by norm_num) ⟨1, by simp [tFractalOpp, tFractalLabel, bind, Except.bind, pure, Except.pure]⟩)
      · exact h2
      · exact h2.tail (step (u, 2) (u, 3) 1 (by norm_num) (by norm_num) ⟨3, by simp [tFractalOpp, tFractalLabel, bind, Except.bind, pure, Except.pure]⟩)
    rintro ⟨u, i⟩ hi
    refine row u ?_ i hi
    clear hi
    induction u using List.reverseRecOn with
    | nil => exact .refl
    | append_singleton v a ih =>
      cases a
      · exact (row v ih 1 (by norm_num)).tail (step (v, 1) _ 2 (by norm_num) (by norm_num)
          ⟨0, by simp [tFractalOpp, tFractalLabel, bind, Except.bind, pure, Except.pure]⟩)
      · exact (row v ih 3 (by norm_num)).tail (step (v, 3) _ 2 (by norm_num) (by norm_num)
          ⟨0, by simp [tFractalOpp, tFractalLabel, bind, Except.bind, pure, Except.pure]⟩)

example : (tFractal (1 : ℚ) 2 1 1).ConnectedFrom (fun l => l.2 < 4) ([], 0) :=
  (C35_t_fractal (by norm_num) (by norm_num) (by norm_num) (by norm_num)).2.2

/-! ### Origamis -/

/-- **C35**. An origami whose four maps are two pairs of inverse maps: unit squares glued in pairs by translations. -/
theorem C35_origami {r u rr uu : L → L} (h1 : ∀ x, rr (r x) = x) (h2 : ∀ x, r (rr x) = x) (h3 : ∀ x, uu (u x) = x)
    (h4 : ∀ x, u (uu x) = x) : (origami (K := K) r u rr uu).Glued (fun _ => True) ∧
    (origami (K := K) r u rr uu).Translational (fun _ => True) := by
  refine ⟨fun l _ => ⟨_, rfl, fun e he => ?_⟩, ?_⟩
  · have he' : e < 4 := he
    interval_cases e
    · exact ⟨_, 2, _, rfl, trivial, rfl, by simp [square], by simp [origami, origamiOpp, h4]⟩
    · exact ⟨_, 3, _, rfl, trivial, rfl, by simp [square], by simp [origami, origamiOpp, h1]⟩
    · exact ⟨_, 0, _, rfl, trivial, rfl, by simp [square], by simp [origami, origamiOpp, h3]⟩
    · exact ⟨_, 1, _, rfl, trivial, rfl, by simp [square], by simp [origami, origamiOpp, h2]⟩
  · rintro l e l' e' p p' _ hP he ho hP'
    obtain rfl : square = p := by injection hP
    obtain rfl : square = p' := by injection hP'
    have he' : e < 4 := he
    interval_cases e <;> (
      simp [origami, origamiOpp] at ho
      obtain ⟨-, rfl⟩ := ho
      simp [Poly.edge, Poly.vertex, square])

/-- **C35**. The same for subclasses of `AbstractOrigami`. -/
theorem C35_abstract_origami {down right up left : L → L} (h1 : ∀ x, left (right x) = x) (h2 : ∀ x, right (left x) = x)
    (h3 : ∀ x, down (up x) = x) (h4 : ∀ x, up (down x) = x) :
    (abstractOrigami (K := K) down right up left).Glued (fun _ => True) ∧
    (abstractOrigami (K := K) down right up left).Translational (fun _ => True) := by
  have : abstractOrigami (K := K) down right up left = origami right up left down := by
    unfold abstractOrigami origami
    congr 1
    funext p e
    unfold abstractOrigamiOpp origamiOpp
    match e with
    | 0 => rfl
    | 1 => rfl
    | 2 => rfl
    | 3 => rfl
    | e + 4 => rw [if_neg (by omega), if_neg (by omega), if_neg (by omega), if_neg (by omega)]; rfl
  rw [this]
  exact C35_origami h1 h2 h3 h4

example : (origami (K := ℚ) (L := ℤ) (· + 1) (· + 2) (· - 1) (· - 2)).Glued (fun _ => True) :=
  (C35_origami (by simp) (by simp) (by simp) (by simp)).1

/-- **C35**. The infinite staircase: all squares are glued in pairs by translations, and connected to the root 0. -/
theorem C35_staircase : (staircase (K := K)).Glued (fun _ => True) ∧ (staircase (K := K)).Translational (fun _ => True) ∧
    (staircase (K := K)).ConnectedFrom (fun _ => True) 0 := by
  have hv : ∀ x, stairVertical (stairVertical x) = x := by
    intro x; unfold stairVertical; split_ifs <;> omega
  have hh : ∀ x, stairHorizontal (stairHorizontal x) = x := by
    intro x; unfold stairHorizontal; split_ifs <;> omega
  obtain ⟨g, t⟩ := C35_origami (K := K) hv hv hh hh
  refine ⟨g, t, ?_⟩
  have fwd : ∀ x : ℤ, ∃ p e e', (staircase (K := K)).polygon x = .ok p ∧ e < p.length ∧ (staircase (K := K)).opp x e = .ok (x + 1, e') := by
    intro x
    by_cases h : x % 2 ≠ 0
    · exact ⟨_, 1, 3, rfl, by simp [square], by simp [staircase, origami, origamiOpp, stairVertical, h]⟩
    · exact ⟨_, 2, 0, rfl, by simp [square], by simp [staircase, origami, origamiOpp, stairHorizontal, h]⟩
  have bwd : ∀ x : ℤ, ∃ p e e', (staircase (K := K)).polygon x = .ok p ∧ e < p.length ∧ (staircase (K := K)).opp x e = .ok (x - 1, e') := by
    intro x
    by_cases h : x % 2 ≠ 0
    · exact ⟨_, 2, 0, rfl, by simp [square], by simp [staircase, origami, origamiOpp, stairHorizontal, h]⟩
    · exact ⟨_, 1, 3, rfl, by simp [square], by simp [staircase, origami, origamiOpp, stairVertical, h]⟩
  intro n _
  induction n using Int.induction_on with
  | zero => exact .refl
  | succ n ih => exact ih.tail (fwd _)
  | pred n ih => exact ih.tail (bwd _)

end Surf

/-! ### C55: the group of the Mega-Wollmilchsau -/

/-- All four components are integers. -/
def Quat.Integral (x : Quat) : Prop := x.a.den = 1 ∧ x.b.den = 1 ∧ x.c.den = 1 ∧ x.d.den = 1

namespace MegaElt

/-- An element as it arises from the generators: integral components and a unit quaternion. -/
def WF (x : MegaElt) : Prop := x.i.den = 1 ∧ x.r.Integral ∧ x.q.Integral ∧ x.q.norm = 1

/-- The rational number is an integer. -/
def IsZ (x : ℚ) : Prop := ∃ n : ℤ, x = n

theorem isZ_iff (x : ℚ) : x.den = 1 ↔ IsZ x := by
  constructor
  · intro h; exact ⟨x.num, (Rat.coe_int_num_of_den_eq_one h).symm⟩
  · rintro ⟨n, rfl⟩; exact Rat.den_intCast n

theorem IsZ.add {x y : ℚ} : IsZ x → IsZ y → IsZ (x + y) := by
  rintro ⟨a, rfl⟩ ⟨b, rfl⟩; exact ⟨a + b, by push_cast; rfl⟩

theorem IsZ.sub {x y : ℚ} : IsZ x → IsZ y → IsZ (x - y) := by
  rintro ⟨a, rfl⟩ ⟨b, rfl⟩; exact ⟨a - b, by push_cast; rfl⟩

theorem IsZ.mul {x y : ℚ} : IsZ x → IsZ y → IsZ (x * y) := by
  rintro ⟨a, rfl⟩ ⟨b, rfl⟩; exact ⟨a * b, by push_cast; rfl⟩

theorem IsZ.neg {x : ℚ} : IsZ x → IsZ (-x) := by
  rintro ⟨a, rfl⟩; exact ⟨-a, by push_cast; rfl⟩

theorem integral_iff (x : Quat) : x.Integral ↔ IsZ x.a ∧ IsZ x.b ∧ IsZ x.c ∧ IsZ x.d := by
  unfold Quat.Integral; simp only [isZ_iff]

theorem integral_mul {x y : Quat} (hx : x.Integral) (hy : y.Integral) : (x.mul y).Integral := by
  rw [integral_iff] at *
  obtain ⟨a, b, c, d⟩ := hx
  obtain ⟨a', b', c', d'⟩ := hy
  exact ⟨((a.mul a').sub (b.mul b') |>.sub (c.mul c')).sub (d.mul d'), ((a.mul b').add (b.mul a') |>.add (c.mul d')).sub (d.mul c'),
    ((a.mul c').sub (b.mul d') |>.add (c.mul a')).add (d.mul b'), ((a.mul d').add (b.mul c') |>.sub (c.mul b')).add (d.mul a')⟩

theorem integral_add {x y : Quat} (hx : x.Integral) (hy : y.Integral) : (x.add y).Integral := by
  rw [integral_iff] at *
  exact ⟨hx.1.add hy.1, hx.2.1.add hy.2.1, hx.2.2.1.add hy.2.2.1, hx.2.2.2.add hy.2.2.2⟩

theorem integral_neg {x : Quat} (hx : x.Integral) : x.neg.Integral := by
  rw [integral_iff] at *
  exact ⟨hx.1.neg, hx.2.1.neg, hx.2.2.1.neg, hx.2.2.2.neg⟩

theorem isZ_wedge {x y : Quat} (hx : x.Integral) (hy : y.Integral) : IsZ (wedge x y) := by
  rw [integral_iff] at *
  obtain ⟨a, b, c, d⟩ := hx
  obtain ⟨a', b', c', d'⟩ := hy
  exact ((a.neg.mul d').add (b.mul c') |>.sub (c.mul b')).add (d.mul a')

theorem norm_mul (x y : Quat) : (x.mul y).norm = x.norm * y.norm := by
  simp only [Quat.norm, Quat.mul]; ring

/-- The conjugate. -/
def conj (x : Quat) : Quat := ⟨x.a, -x.b, -x.c, -x.d⟩

theorem inv_unit {x : Quat} (h : x.norm = 1) : x.inv = .ok (conj x) := by
  unfold Quat.inv conj
  rw [h, if_neg one_ne_zero]
  simp

/-- The product of elements. -/
def prod (x m : MegaElt) : MegaElt :=
  ⟨x.i + m.i + wedge x.r (x.q.mul m.r), x.r.add (x.q.mul m.r), x.q.mul m.q⟩

/-- The inverse of an element with a unit quaternion. -/
def inverse (x : MegaElt) : MegaElt :=
  ⟨-(x.i + wedge ((conj x.q).mul x.r).neg ((conj x.q).mul x.r)), ((conj x.q).mul x.r).neg, conj x.q⟩

theorem prod_wf {x y : MegaElt} (hx : x.WF) (hy : y.WF) : (prod x y).WF := by
  obtain ⟨h1, h2, h3, h4⟩ := hx
  obtain ⟨k1, k2, k3, k4⟩ := hy
  have hq := integral_mul h3 k2
  refine ⟨?_, integral_add h2 hq, integral_mul h3 k3, ?_⟩
  · rw [isZ_iff] at *
    exact (h1.add k1).add (isZ_wedge h2 hq)
  · show (x.q.mul y.q).norm = 1
    rw [norm_mul, h4, k4, one_mul]

theorem inverse_wf {x : MegaElt} (hx : x.WF) : (inverse x).WF := by
  obtain ⟨h1, h2, h3, h4⟩ := hx
  have hc : (conj x.q).Integral := by
    rw [integral_iff] at *
    exact ⟨h3.1, h3.2.1.neg, h3.2.2.1.neg, h3.2.2.2.neg⟩
  have hq := integral_mul hc h2
  refine ⟨?_, integral_neg hq, hc, ?_⟩
  · rw [isZ_iff] at *
    exact (h1.add (isZ_wedge (integral_neg hq) hq)).neg
  · rw [← h4]
    simp only [inverse, conj, Quat.norm]; ring

theorem mul_eq {x y : MegaElt} (hx : x.WF) (hy : y.WF) : x.mul y = .ok (prod x y) := by
  have := (prod_wf hx hy).1
  unfold mul make
  rw [if_neg (by rw [not_not]; exact this)]
  rfl

theorem invert_eq {x : MegaElt} (hx : x.WF) : x.invert = .ok (inverse x) := by
  have := (inverse_wf hx).1
  unfold invert
  rw [inv_unit hx.2.2.2]
  show make _ _ _ = _
  unfold make
  rw [if_neg (by rw [not_not]; exact this)]
  rfl

theorem one_wf : one.WF := by unfold WF Quat.Integral; decide +kernel
theorem genA_wf : genA.WF := by unfold WF Quat.Integral; decide +kernel
theorem genB_wf : genB.WF := by unfold WF Quat.Integral; decide +kernel

theorem prod_assoc {x : MegaElt} (hx : x.WF) (y z : MegaElt) : prod (prod x y) z = prod x (prod y z) := by
  have h := hx.2.2.2
  simp only [Quat.norm] at h
  ext <;> simp only [prod, Quat.mul, Quat.add, wedge]
  · linear_combination (y.r.a * (y.q.a * z.r.d + y.q.b * z.r.c - y.q.c * z.r.b + y.q.d * z.r.a)
      - y.r.b * (y.q.a * z.r.c - y.q.b * z.r.d + y.q.c * z.r.a + y.q.d * z.r.b)
      + y.r.c * (y.q.a * z.r.b + y.q.b * z.r.a + y.q.c * z.r.d - y.q.d * z.r.c)
      - y.r.d * (y.q.a * z.r.a - y.q.b * z.r.b - y.q.c * z.r.c - y.q.d * z.r.d)) * (-h)
  all_goals ring

theorem one_prod (x : MegaElt) : prod one x = x := by
  ext <;> simp [prod, one, Quat.mul, Quat.add, wedge]

theorem prod_one (x : MegaElt) : prod x one = x := by
  ext <;> simp [prod, one, Quat.mul, Quat.add, wedge]

theorem prod_inverse {x : MegaElt} (hx : x.WF) : prod x (inverse x) = one := by
  have h := hx.2.2.2
  obtain ⟨i, ⟨ra, rb, rc, rd⟩, ⟨qa, qb, qc, qd⟩⟩ := x
  simp only [Quat.norm] at h
  ext <;> simp only [prod, inverse, conj, one, Quat.mul, Quat.add, Quat.neg, wedge]
  · ring
  · linear_combination -ra * h
  · linear_combination -rb * h
  · linear_combination -rc * h
  · linear_combination -rd * h
  · linear_combination h
  all_goals ring

theorem inverse_prod {x : MegaElt} (hx : x.WF) : prod (inverse x) x = one := by
  have h := hx.2.2.2
  obtain ⟨i, ⟨ra, rb, rc, rd⟩, ⟨qa, qb, qc, qd⟩⟩ := x
  simp only [Quat.norm] at h
  ext <;> simp only [prod, inverse, conj, one, Quat.mul, Quat.add, Quat.neg, wedge]
  all_goals first | linear_combination h | ring

/-- **C55**. On the elements with integral components and a unit quaternion, which contain the generators, the operations `*` and
`~` always succeed and are those of a group. -/
theorem C55_group : one.WF ∧ genA.WF ∧ genB.WF ∧
    (∀ x y : MegaElt, x.WF → y.WF → ∃ z : MegaElt, x.mul y = .ok z ∧ z.WF) ∧
    (∀ x : MegaElt, x.WF → ∃ y : MegaElt, x.invert = .ok y ∧ y.WF ∧ x.mul y = .ok one ∧ y.mul x = .ok one) ∧
    (∀ x : MegaElt, x.WF → x.mul one = .ok x ∧ one.mul x = .ok x) ∧
    (∀ x y z : MegaElt, x.WF → y.WF → z.WF → (do let w ← x.mul y; w.mul z) = (do let w ← y.mul z; x.mul w)) := by
  refine ⟨one_wf, genA_wf, genB_wf, fun x y hx hy => ⟨_, mul_eq hx hy, prod_wf hx hy⟩,
    fun x hx => ⟨_, invert_eq hx, inverse_wf hx, ?_, ?_⟩, fun x hx => ⟨?_, ?_⟩, fun x y z hx hy hz => ?_⟩
  · rw [mul_eq hx (inverse_wf hx), prod_inverse hx]
  · rw [mul_eq (inverse_wf hx) hx, inverse_prod hx]
  · rw [mul_eq hx one_wf, prod_one]
  · rw [mul_eq one_wf hx, one_prod]
  · rw [mul_eq hx hy, mul_eq hy hz]
    simp only [bind, Except.bind]
    rw [mul_eq (prod_wf hx hy) hz, mul_eq hx (prod_wf hy hz), prod_assoc hx]

/-- **C55**. The gluings of the Mega-Wollmilchsau are an involution, and go from an edge to the opposite edge of a square. -/
theorem C55_gluings {x : MegaElt} (hx : x.WF) {e : ℕ} (he : e < 4) :
    ∃ y, x.opposite e = .ok (y, (e + 2) % 4) ∧ y.WF ∧ y.opposite ((e + 2) % 4) = .ok (x, e) := by
  have key : ∀ g h : MegaElt, g.WF → h.WF → prod h g = one → prod h (prod g x) = x := by
    intro g h _ hh hgh
    rw [← prod_assoc hh, hgh, one_prod]
  have iA := inverse_wf genA_wf
  have iB := inverse_wf genB_wf
  unfold opposite
  simp only [invert_eq genA_wf, invert_eq genB_wf, bind, Except.bind, pure, Except.pure]
  interval_cases e
  · refine ⟨prod (inverse genB) x, ?_, prod_wf iB hx, ?_⟩
    · simp [mul_eq iB hx]
    · simp [mul_eq genB_wf (prod_wf iB hx), key _ _ iB genB_wf (prod_inverse genB_wf)]
  · refine ⟨prod genA x, ?_, prod_wf genA_wf hx, ?_⟩
    · simp [mul_eq genA_wf hx]
    · simp [mul_eq iA (prod_wf genA_wf hx), key _ _ genA_wf iA (inverse_prod genA_wf)]
  · refine ⟨prod genB x, ?_, prod_wf genB_wf hx, ?_⟩
    · simp [mul_eq genB_wf hx]
    · simp [mul_eq iB (prod_wf genB_wf hx), key _ _ genB_wf iB (inverse_prod genB_wf)]
  · refine ⟨prod (inverse genA) x, ?_, prod_wf iA hx, ?_⟩
    · simp [mul_eq iA hx]
    · simp [mul_eq genA_wf (prod_wf iA hx), key _ _ iA genA_wf (prod_inverse genA_wf)]

/-- The `n`-th power, computed with `*`. -/
def power (x : MegaElt) : ℕ → Except Err MegaElt
  | 0 => .ok one
  | n + 1 => do (← power x n).mul x

/-- The commutator of the generators, `a * b / a / b`. -/
def commutator : Except Err MegaElt := do
  let ab ← genA.mul genB
  let aba ← ab.div genA
  aba.div genB

/-- **C55**. The relations between the generators: fourth powers of `a, b, ab, a/b, aab, aa/b` are trivial. -/
theorem C55_relations : genA.power 4 = .ok one ∧ genB.power 4 = .ok one ∧
    (do (← genA.mul genB).power 4) = .ok one ∧ (do (← genA.div genB).power 4) = .ok one ∧
    (do (← (← genA.mul genA).mul genB).power 4) = .ok one ∧ (do (← (← genA.mul genA).div genB).power 4) = .ok one := by
  decide +kernel

theorem commutator_eq : commutator = .ok ⟨1, ⟨2, 1, 1, 0⟩, ⟨-1, 0, 0, 0⟩⟩ := by decide +kernel

theorem commutator_power (k : ℕ) : power ⟨1, ⟨2, 1, 1, 0⟩, ⟨-1, 0, 0, 0⟩⟩ (2 * k) = .ok ⟨2 * k, ⟨0, 0, 0, 0⟩, ⟨1, 0, 0, 0⟩⟩ ∧
    power ⟨1, ⟨2, 1, 1, 0⟩, ⟨-1, 0, 0, 0⟩⟩ (2 * k + 1) = .ok ⟨2 * k + 1, ⟨2, 1, 1, 0⟩, ⟨-1, 0, 0, 0⟩⟩ := by
  have hc : WF ⟨1, ⟨2, 1, 1, 0⟩, ⟨-1, 0, 0, 0⟩⟩ := by unfold WF Quat.Integral; decide +kernel
  have hz : ∀ n : ℕ, WF ⟨2 * n, ⟨0, 0, 0, 0⟩, ⟨1, 0, 0, 0⟩⟩ := fun n =>
    ⟨(isZ_iff _).2 ⟨2 * n, by push_cast; rfl⟩, by simp [Quat.Integral], by simp [Quat.Integral], by simp [Quat.norm]⟩
  have hw : ∀ n : ℕ, WF ⟨2 * n + 1, ⟨2, 1, 1, 0⟩, ⟨-1, 0, 0, 0⟩⟩ := fun n =>
    ⟨(isZ_iff _).2 ⟨2 * n + 1, by push_cast; rfl⟩, by simp [Quat.Integral], by simp [Quat.Integral], by simp [Quat.norm]⟩
  have odd : ∀ n : ℕ, power ⟨1, ⟨2, 1, 1, 0⟩, ⟨-1, 0, 0, 0⟩⟩ (2 * n) = .ok ⟨2 * n, ⟨0, 0, 0, 0⟩, ⟨1, 0, 0, 0⟩⟩ →
      power ⟨1, ⟨2, 1, 1, 0⟩, ⟨-1, 0, 0, 0⟩⟩ (2 * n + 1) = .ok ⟨2 * n + 1, ⟨2, 1, 1, 0⟩, ⟨-1, 0, 0, 0⟩⟩ := by
    intro n h
    rw [power, h]
    show mul _ _ = _
    rw [mul_eq (hz n) hc]
    congr 1
    ext <;> simp [prod, Quat.mul, Quat.add, wedge]
  induction k with
  | zero => exact ⟨by simp [power, one], odd 0 (by simp [power, one])⟩
  | succ k ih =>
    have h : power ⟨1, ⟨2, 1, 1, 0⟩, ⟨-1, 0, 0, 0⟩⟩ (2 * (k + 1)) =
        .ok ⟨2 * ((k + 1 : ℕ) : ℚ), ⟨0, 0, 0, 0⟩, ⟨1, 0, 0, 0⟩⟩ := by
      rw [show 2 * (k + 1) = 2 * k + 1 + 1 by ring, power, ih.2]
      show mul _ _ = _
      rw [mul_eq (hw k) hc]
      congr 1
      ext <;> simp [prod, Quat.mul, Quat.add, wedge] <;> norm_num
      ring
    exact ⟨h, odd (k + 1) h⟩

/-- **C55**. The commutator of the generators has infinite order, so the group, and the surface, are infinite. -/
theorem C55_infinite : ∃ c, commutator = .ok c ∧ ∀ n, 0 < n → c.power n ≠ .ok one := by
  refine ⟨_, commutator_eq, fun n hn h => ?_⟩
  rcases Nat.even_or_odd' n with ⟨k, rfl | rfl⟩
  · rw [(commutator_power k).1] at h
    injection h with h
    have := congrArg MegaElt.i h
    simp only [one] at this
    have : (k : ℚ) = 0 := by linarith
    have : k = 0 := by exact_mod_cast this
    omega
  · rw [(commutator_power k).2] at h
    injection h with h
    have := congrArg (fun x => x.q.a) h
    simp only [one] at this
    norm_num at this

end MegaElt
end Flat
