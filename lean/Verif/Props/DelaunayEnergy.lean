import Verif.Props.Delaunay
import Mathlib.Logic.Relation
import Mathlib.Algebra.BigOperators.Group.Finset.Basic
import Mathlib.Algebra.Order.BigOperators.Group.Finset
import Mathlib.Tactic.FieldSimp

/-!
# C30: Delaunay flips cannot cycle

The sum over all triangles of (sum of the squared side lengths) / area is invariant under similarities of the individual
triangles and decreases with each Delaunay flip.
-/

namespace Flat
namespace MSurf
open Finset
variable {L K : Type} [LinearOrder L] [Field K] [LinearOrder K] [IsStrictOrderedRing K]

/-- Sum of the squared sides over twice the area of the triangle with two consecutive sides `u`, `v`. -/
def triE (u v : Vec K) : K := (normSq u + normSq v + normSq (u + v)) / ccw u v

/-- The same for a polygon (only used for triangles). -/
def polyE (p : Poly K) : K := (normSq (p.edge 0) + normSq (p.edge 1) + normSq (p.edge 2)) / (2 * p.area)

/-- The energy of a triangulated surface. -/
def energy (s : MSurf L (Poly K)) : K :=
  ∑ l ∈ s.polygons.keys.toFinset, ((s.polygons.get l).map polyE).getD 0

omit [LinearOrder L] in
theorem normSq_neg (u : Vec K) : normSq (-u) = normSq u := by
  simp only [normSq, Prod.fst_neg, Prod.snd_neg]; ring

theorem polyE_three (p : Poly K) (h : p.length = 3) (d : ℕ) : polyE p = triE (p.edge (d + 1)) (p.edge (d + 2)) := by
  unfold polyE triE
  rw [area_of_length_three p h d, ← normSq_neg (p.edge (d + 1) + p.edge (d + 2)), ← edge_succ_three p h d]
  congr 1
  rcases (show d % 3 = 0 ∨ d % 3 = 1 ∨ d % 3 = 2 by omega) with k | k | k
  · rw [Poly.edge_congr p (i := d) (j := 0) (by rw [h]; omega), Poly.edge_congr p (i := d + 1) (j := 1) (by rw [h]; omega),
      Poly.edge_congr p (i := d + 2) (j := 2) (by rw [h]; omega)]
    ring
  · rw [Poly.edge_congr p (i := d) (j := 1) (by rw [h]; omega), Poly.edge_congr p (i := d + 1) (j := 2) (by rw [h]; omega),
      Poly.edge_congr p (i := d + 2) (j := 0) (by rw [h]; omega)]
    ring
  · rw [Poly.edge_congr p (i := d) (j := 2) (by rw [h]; omega), Poly.edge_congr p (i := d + 1) (j := 0) (by rw [h]; omega),
      Poly.edge_congr p (i := d + 2) (j := 1) (by rw [h]; omega)]

theorem triE_scale {g : Similarity K} (hg : g.sign = 1) (hr : 0 < g.a * g.a + g.b * g.b) (u v : Vec K) :
    triE (g.derivative.mulVec u) (g.derivative.mulVec v) = triE u v := by
  unfold triE
  have h1 : normSq (g.derivative.mulVec u) + normSq (g.derivative.mulVec v) + normSq (g.derivative.mulVec u + g.derivative.mulVec v) =
      (g.a * g.a + g.b * g.b) * (normSq u + normSq v + normSq (u + v)) := by
    simp only [normSq, Mat2.mulVec, Similarity.derivative, hg, Int.cast_one, Prod.fst_add, Prod.snd_add]; ring
  have h2 : ccw (g.derivative.mulVec u) (g.derivative.mulVec v) = (g.a * g.a + g.b * g.b) * ccw u v := by
    simp only [ccw, Mat2.mulVec, Similarity.derivative, hg, Int.cast_one]; ring
  rw [h1, h2, mul_div_mul_left _ _ hr.ne']

/-- The main inequality. -/
theorem triE_flip {a b c d : Vec K} (h : Poly.Turns a b c d) (hs : a + b = -(c + d)) (hN : delN a b c d < 0) :
    triE d a + triE b c < triE c d + triE a b := by
  obtain ⟨h1, h2, h3, h4⟩ := h
  have x1 := congrArg Prod.fst hs
  have x2 := congrArg Prod.snd hs
  simp only [Prod.fst_add, Prod.snd_add, Prod.fst_neg, Prod.snd_neg] at x1 x2
  have key : (triE c d + triE a b - (triE d a + triE b c)) * (ccw c d * ccw a b * ccw d a * ccw b c) =
      - delN a b c d * (ccw c d * ccw c d + ccw a b * ccw a b + ccw d a * ccw d a + ccw b c * ccw b c) := by
    unfold triE
    have e : ∀ n1 n2 n3 n4 : K, (n1 / ccw c d + n2 / ccw a b - (n3 / ccw d a + n4 / ccw b c)) * (ccw c d * ccw a b * ccw d a * ccw b c) =
        n1 * (ccw a b * ccw d a * ccw b c) + n2 * (ccw c d * ccw d a * ccw b c) - n3 * (ccw c d * ccw a b * ccw b c)
          - n4 * (ccw c d * ccw a b * ccw d a) := by
      intro n1 n2 n3 n4
      have := h1.ne'; have := h2.ne'; have := h3.ne'; have := h4.ne'
      field_simp
      ring
    rw [e]
    obtain ⟨b1, b2⟩ := b
    dsimp only at x1 x2
    obtain rfl : b1 = -(c.1 + d.1) - a.1 := by linear_combination x1
    obtain rfl : b2 = -(c.2 + d.2) - a.2 := by linear_combination x2
    simp only [ccw, delN, dot, normSq, Prod.fst_add, Prod.snd_add]
    ring
  have hpos : 0 < ccw c d * ccw a b * ccw d a * ccw b c := by positivity
  have hsq : 0 < ccw c d * ccw c d + ccw a b * ccw a b + ccw d a * ccw d a + ccw b c * ccw b c := by positivity
  have hr : 0 < - delN a b c d * (ccw c d * ccw c d + ccw a b * ccw a b + ccw d a * ccw d a + ccw b c * ccw b c) :=
    mul_pos (neg_pos.2 hN) hsq
  rw [← key] at hr
  have := (pos_iff_pos_of_mul_pos hr).2 hpos
  linarith

variable [LabelNum L]

/-- One Delaunay flip: some edge that needs a flip is flipped. -/
def DelaunayFlip (s t : MSurf L (Poly K)) : Prop :=
  ∃ l e, s.delaunayEdgeNeedsFlip l e = .ok true ∧ triangleFlip l e s = .ok () t

/-- **C30**. A Delaunay flip of a triangulated surface gives a triangulated surface of less energy. -/
theorem C30_flip_decreases_energy {s t : MSurf L (Poly K)} (hs : Good s) (ht : Triangulated s) (hf : DelaunayFlip s t) :
    Good t ∧ Triangulated t ∧ energy t < energy s := by
  obtain ⟨l1, e1, hflip, hrun⟩ := hf
  obtain ⟨l2, e2, P1, P2, Q1, Q2, a, b, c, d, r, hg, ho, ho', hp1, hp2, hq1, hq2, h1, h2, k1, k2, hd, hoth, hturn, hsum, hc, hd', hr,
    ⟨g, hsign, hgr, hga, hgb⟩, q21, q22, hQ⟩ := flip_sides hs hrun
  subst hgr
  obtain ⟨-, a1⟩ := ht _ _ (polygon_ok.2 hp1)
  obtain ⟨-, a2⟩ := ht _ _ (polygon_ok.2 hp2)
  rw [needsFlip_eq hs.1 hp1 hp2 h1 h2 ho (edge_ne_zero_of_area h1 a1 _) (edge_ne_zero_of_area h2 a2 _)] at hflip
  injection hflip with hflip
  rw [decide_eq_true_eq] at hflip
  have hN := mul_neg_of_pos_of_neg hr hflip
  rw [← delN_scale hsign, hga, hgb, hc, hd'] at hN
  have hE := triE_flip hturn hsum hN
  have A1 := area_of_length_three Q1 k1 e1
  have A2 := area_of_length_three Q2 k2 e2
  obtain ⟨t1, t2, t3, t4⟩ := hturn
  have aQ2 : 0 < Q2.area := by rw [q21, q22] at A2; linarith
  have aQ1 : 0 < Q1.area := by
    rcases hQ with ⟨x1, x2⟩ | ⟨-, -, -, x1, x2⟩ <;> rw [x1, x2] at A1 <;> linarith
  have hkeys : t.polygons.keys.toFinset = s.polygons.keys.toFinset := by
    ext l
    rw [List.mem_toFinset, List.mem_toFinset, Dict.mem_keys_iff, Dict.mem_keys_iff]
    by_cases m1 : l = l1
    · rw [m1, hp1, hq1]; simp
    by_cases m2 : l = l2
    · rw [m2, hp2, hq2]; simp
    rw [hoth l m1 m2]
  refine ⟨hg, ?_, ?_⟩
  · intro l P hP
    rw [polygon_ok] at hP
    by_cases m1 : l = l1
    · rw [m1, hq1] at hP; injection hP with hP; subst hP; exact ⟨k1, aQ1⟩
    by_cases m2 : l = l2
    · rw [m2, hq2] at hP; injection hP with hP; subst hP; exact ⟨k2, aQ2⟩
    rw [hoth l m1 m2] at hP
    exact ht l P (polygon_ok.2 hP)
  · have m1 : l1 ∈ s.polygons.keys.toFinset := by rw [List.mem_toFinset, Dict.mem_keys_iff, hp1]; rfl
    have m2 : l2 ∈ s.polygons.keys.toFinset := by rw [List.mem_toFinset, Dict.mem_keys_iff, hp2]; rfl
    have eP1 : polyE P1 = triE c d := by rw [polyE_three P1 h1 e1, hc, hd']
    have eP2 : polyE P2 = triE a b := by rw [polyE_three P2 h2 e2, ← hga, ← hgb, triE_scale hsign hr]
    have eQ2 : polyE Q2 = triE b c := by rw [polyE_three Q2 k2 e2, q21, q22]
    unfold energy
    rw [hkeys, ← Finset.add_sum_erase _ _ m1, ← Finset.add_sum_erase _ _ m1]
    by_cases hl : l1 = l2
    · subst hl
      obtain rfl : P1 = P2 := by rw [hp1] at hp2; injection hp2
      obtain rfl : Q1 = Q2 := by rw [hq1] at hq2; injection hq2
      rw [hp1, hq1]
      have hx : ∑ l ∈ s.polygons.keys.toFinset.erase l1, ((t.polygons.get l).map polyE).getD 0 =
          ∑ l ∈ s.polygons.keys.toFinset.erase l1, ((s.polygons.get l).map polyE).getD 0 := by
        refine Finset.sum_congr rfl fun l hl => ?_
        have := Finset.ne_of_mem_erase hl
        rw [hoth l this this]
      rw [hx]
      simp only [Option.map_some, Option.getD_some]
      have hda : triE d a = triE b c := by
        obtain rfl := hd rfl
        have hz : P1.edge e1 ≠ 0 := edge_ne_zero_of_area h1 a1 _
        have hgm : g.derivative.mulVec (P1.edge e1) = (-1 : K) • P1.edge e1 := by
          have : g.derivative.mulVec (P1.edge e1) = -(a + b) := by
            rw [edge_succ_three P1 h1 e1, ← hga, ← hgb]
            ext <;> simp only [Mat2.mulVec, Prod.fst_add, Prod.snd_add, Prod.fst_neg, Prod.snd_neg] <;> ring
          rw [this, hsum, edge_succ_three P1 h1 e1, hc, hd']
          simp
        have hfix := rotScale_fixes hsign hz (-1) hgm
        rw [hfix, hc] at hga
        rw [hfix, hd'] at hgb
        simp only [neg_smul, one_smul] at hga hgb
        rw [← hga, ← hgb]
        unfold triE
        simp only [normSq, ccw, Prod.fst_neg, Prod.snd_neg, Prod.fst_add, Prod.snd_add]
        congr 1 <;> ring
      have : triE c d = triE a b := by rw [← eP1, ← eP2]
      rw [eQ2, eP1]
      linarith
    · have m2' : l2 ∈ s.polygons.keys.toFinset.erase l1 := Finset.mem_erase.2 ⟨Ne.symm hl, m2⟩
      rw [← Finset.add_sum_erase _ _ m2', ← Finset.add_sum_erase _ _ m2', hp1, hp2, hq1, hq2]
      have hx : ∑ l ∈ (s.polygons.keys.toFinset.erase l1).erase l2, ((t.polygons.get l).map polyE).getD 0 =
          ∑ l ∈ (s.polygons.keys.toFinset.erase l1).erase l2, ((s.polygons.get l).map polyE).getD 0 := by
        refine Finset.sum_congr rfl fun l hl => ?_
        rw [hoth l (Finset.ne_of_mem_erase (Finset.mem_of_mem_erase hl)) (Finset.ne_of_mem_erase hl)]
      rw [hx]
      simp only [Option.map_some, Option.getD_some]
      have eQ1 : polyE Q1 = triE d a := by
        rcases hQ with ⟨x1, x2⟩ | ⟨x, -⟩
        · rw [polyE_three Q1 k1 e1, x1, x2]
        · exact absurd x hl
      rw [eQ1, eQ2, eP1, eP2]
      linarith

theorem chain_energy {s t : MSurf L (Poly K)} (hs : Good s) (ht : Triangulated s) (hc : Relation.TransGen DelaunayFlip s t) :
    Good t ∧ Triangulated t ∧ energy t < energy s := by
  induction hc with
  | single h => exact C30_flip_decreases_energy hs ht h
  | tail _ h ih =>
    obtain ⟨i1, i2, i3⟩ := ih
    obtain ⟨j1, j2, j3⟩ := C30_flip_decreases_energy i1 i2 h
    exact ⟨j1, j2, j3.trans i3⟩

/-- The energy only depends on the shapes of the triangles. -/
theorem energy_eq {s t : MSurf L (Poly K)} (hs : Triangulated s) (σ : Equiv.Perm L)
    (h : ∀ l, match s.polygon l with
      | .ok p => ∃ (g : Similarity K) (q : Poly K), g.WF ∧ g.sign = 1 ∧ t.polygon (σ l) = .ok q ∧ q = p.map g.call
      | .error _ => ∀ q, t.polygon (σ l) ≠ .ok q) : energy t = energy s := by
  unfold energy
  symm
  refine Finset.sum_bij (fun l _ => σ l) ?_ (fun _ _ _ _ h => σ.injective h) ?_ ?_
  · intro l hl
    rw [List.mem_toFinset, Dict.mem_keys_iff, Option.isSome_iff_exists] at hl
    obtain ⟨p, hp⟩ := hl
    have := h l
    rw [polygon_ok.2 hp] at this
    obtain ⟨g, q, -, -, hq, -⟩ := this
    rw [List.mem_toFinset, Dict.mem_keys_iff, polygon_ok.1 hq]; rfl
  · intro l hl
    rw [List.mem_toFinset, Dict.mem_keys_iff, Option.isSome_iff_exists] at hl
    obtain ⟨q, hq⟩ := hl
    refine ⟨σ.symm l, ?_, by simp⟩
    have := h (σ.symm l)
    rw [Equiv.apply_symm_apply] at this
    rw [List.mem_toFinset, Dict.mem_keys_iff]
    cases hp : s.polygon (σ.symm l) with
    | ok p => rw [polygon_ok.1 hp]; rfl
    | error x => rw [hp] at this; exact absurd (polygon_ok.2 hq) (this q)
  · intro l hl
    rw [List.mem_toFinset, Dict.mem_keys_iff, Option.isSome_iff_exists] at hl
    obtain ⟨p, hp⟩ := hl
    have := h l
    rw [polygon_ok.2 hp] at this
    obtain ⟨g, q, hwf, hsign, hq, rfl⟩ := this
    have h3 := (hs _ _ (polygon_ok.2 hp)).1
    rw [hp, polygon_ok.1 hq]
    simp only [Option.map_some, Option.getD_some]
    have hne : p ≠ [] := by intro h'; rw [h'] at h3; cases h3
    rw [polyE_three p h3 0, polyE_three (p.map g.call) (by rw [List.length_map, h3]) 0, Poly.edge_map_call p hne hsign,
      Poly.edge_map_call p hne hsign, triE_scale hsign]
    exact lt_of_le_of_ne (add_nonneg (mul_self_nonneg _) (mul_self_nonneg _)) (Ne.symm hwf.1)

/-- **C30**. Starting from a triangulated surface, no sequence of Delaunay flips leads back to a surface with the same
triangles, even when the labels may be permuted and each triangle may be replaced by a similar one. -/
theorem C30_no_cycle {s t : MSurf L (Poly K)} (h : Reachable s) (hm : s.mutable = true) (ht : Triangulated s)
    (hc : Relation.TransGen DelaunayFlip s t) (σ : Equiv.Perm L) :
    ¬ ∀ l, match s.polygon l with
      | .ok p => ∃ (g : Similarity K) (q : Poly K), g.WF ∧ g.sign = 1 ∧ t.polygon (σ l) = .ok q ∧ q = p.map g.call
      | .error _ => ∀ q, t.polygon (σ l) ≠ .ok q := by
  intro hall
  obtain ⟨-, -, hlt⟩ := chain_energy ⟨h.ginv, hm, h.rootsOK⟩ ht hc
  rw [energy_eq ht σ hall] at hlt
  exact lt_irrefl _ hlt

/-- In particular no sequence of Delaunay flips returns to the same surface. -/
theorem C30_never_returns {s : MSurf L (Poly K)} (h : Reachable s) (hm : s.mutable = true) (ht : Triangulated s) :
    ¬ Relation.TransGen DelaunayFlip s s := fun hc =>
  lt_irrefl _ (chain_energy ⟨h.ginv, hm, h.rootsOK⟩ ht hc).2.2

/-- **C30**. The calls of `delaunay_single_flip` which return `True` are Delaunay flips, so that they cannot cycle either. -/
theorem C30_single_flip {s t : MSurf L (Poly K)} (h : Reachable s) (ht : Triangulated s)
    (hr : delaunaySingleFlip s = .ok true t) : DelaunayFlip s t := by
  rcases C29_single_flip h ht with ⟨-, h1⟩ | ⟨-, l, e, h2, ⟨t', h3, h4⟩ | ⟨x, t', -, h4⟩⟩
  · rw [hr] at h1; cases h1
  · rw [hr] at h4; cases h4; exact ⟨l, e, h2, h3⟩
  · rw [hr] at h4; cases h4

example : ∃ t, Relation.TransGen DelaunayFlip exSkew t ∧ energy t < energy exSkew := by
  obtain ⟨t, ht⟩ := exSkew_flips
  have hf : DelaunayFlip exSkew t := ⟨0, 2, exSkew_flip, ht⟩
  exact ⟨t, .single hf, (C30_flip_decreases_energy ⟨exSkew_reachable.ginv, by decide +kernel, exSkew_reachable.rootsOK⟩
    exSkew_triangulated hf).2.2⟩

end MSurf
end Flat
