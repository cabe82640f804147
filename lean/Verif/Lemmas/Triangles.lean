import Verif.Props.PolygonCheck

/-!
# Triangles and convex quadrilaterals
-/

namespace Flat
namespace Poly
variable {K : Type} [Field K] [LinearOrder K] [IsStrictOrderedRing K]

/-- The edges turn left all the time. -/
def Turns (a b c d : Vec K) : Prop := 0 < ccw a b ∧ 0 < ccw b c ∧ 0 < ccw c d ∧ 0 < ccw d a

theorem isConvex_strict_iff (p : Poly K) (hp : p ≠ []) :
    p.isConvex true = true ↔ ∀ i, 0 < ccw (p.edge i) (p.edge (i + 1)) := by
  unfold isConvex
  simp only [List.all_eq_true, List.mem_range, if_true, decide_eq_true_eq, not_le]
  refine ⟨fun h i => ?_, fun h i _ => h i⟩
  have := h (i % p.length) (Nat.mod_lt _ (List.length_pos_iff.2 hp))
  rwa [edge_mod, edge_congr p (show (i % p.length + 1) % p.length = (i + 1) % p.length by simp)] at this

theorem not_antiParallel {v w : Vec K} (h : 0 < ccw v w) : isAntiParallel v w = false := by
  rw [← Bool.not_eq_true, C05_isAntiParallel_iff _ _ (fun h0 => by rw [h0] at h; simp [ccw] at h)]
  rintro ⟨t, _, rfl⟩
  simp only [ccw, Prod.smul_fst, Prod.smul_snd, smul_eq_mul] at h
  have : v.1 * (t * v.2) - v.2 * (t * v.1) = 0 := by ring
  linarith

theorem ne_zero_of_ccw {v w : Vec K} (h : 0 < ccw v w) : v ≠ 0 := by
  rintro rfl
  simp [ccw] at h

theorem valid_of_turns (p : Poly K) (h3 : 3 ≤ p.length) (ha : 0 < p.area)
    (ht : ∀ i, 0 < ccw (p.edge i) (p.edge (i + 1)))
    (hs : ∀ i j, i < p.length → j < p.length → Apart p.length i j → p.side i ∩ p.side j = ∅) : Valid p := by
  refine ⟨h3, ha, fun i => ne_zero_of_ccw (ht i), fun i => not_antiParallel (ht i), fun i j hij => ?_⟩
  rw [← side_mod p i, ← side_mod p j]
  refine hs _ _ (Nat.mod_lt _ (by omega)) (Nat.mod_lt _ (by omega)) ?_
  unfold Apart at hij ⊢
  simpa using hij

theorem ofVertices_iff (vs q : Poly K) : ofVertices vs = .ok q ↔ q = vs ∧ Valid vs := by
  constructor
  · intro h
    have h1 := (C58_accepted_iff vs q).1 h
    refine ⟨h1.1, (check_iff vs h1.2.1).1 ?_⟩
    unfold ofVertices at h
    rw [if_neg (by omega)] at h
    cases hc : check vs with
    | ok u => rfl
    | error e => rw [hc] at h; cases h
  · rintro ⟨rfl, h⟩
    unfold ofVertices
    rw [if_neg (by have := h.len3; omega), (check_iff q h.len3).2 h]
    rfl

/-- Two segments one of which lies strictly to the left of the line through the other one. -/
theorem segPts_disjoint {a b c d : Vec K} (h1 : 0 < ccw (d - c) (a - c)) (h2 : 0 < ccw (d - c) (b - c)) :
    segPts (a, b) ∩ segPts (c, d) = ∅ := by
  rw [Set.eq_empty_iff_forall_notMem]
  rintro x ⟨⟨t, ht0, ht1, hx⟩, ⟨u, hu0, hu1, hx'⟩⟩
  have key : ccw (d - c) (x - c) = 0 := by
    rw [hx']
    simp only [ccw, Prod.fst_sub, Prod.snd_sub, Prod.fst_add, Prod.snd_add, Prod.smul_fst, Prod.smul_snd, smul_eq_mul]
    ring
  have key' : ccw (d - c) (x - c) = (1 - t) * ccw (d - c) (a - c) + t * ccw (d - c) (b - c) := by
    rw [hx]
    simp only [ccw, Prod.fst_sub, Prod.snd_sub, Prod.fst_add, Prod.snd_add, Prod.smul_fst, Prod.smul_snd, smul_eq_mul]
    ring
  rw [key] at key'
  have h3 := mul_nonneg (sub_nonneg.2 ht1) h1.le
  have h4 := mul_nonneg ht0 h2.le
  have h5 : (1 - t) * ccw (d - c) (a - c) = 0 := by linarith
  have h6 : t * ccw (d - c) (b - c) = 0 := by linarith
  rcases mul_eq_zero.1 h5 with h7 | h7
  · rcases mul_eq_zero.1 h6 with h8 | h8
    · linarith
    · exact h2.ne' h8
  · exact h1.ne' h7

theorem vertex3 (a b c : Vec K) : vertex [a, b, c] 0 = a ∧ vertex [a, b, c] 1 = b ∧ vertex [a, b, c] 2 = c := by
  simp [vertex]

theorem area3 (a b c : Vec K) : 2 * area [a, b, c] = ccw (b - a) (c - b) := by
  rw [two_area]
  simp only [cycSum, pathSum, List.cons_append, List.nil_append, List.take_succ_cons, List.take_zero, ccw, Prod.fst_sub, Prod.snd_sub]
  ring

theorem area4 (a b c d : Vec K) : 2 * area [a, b, c, d] = ccw (b - a) (c - b) + ccw (d - c) (a - d) := by
  rw [two_area]
  simp only [cycSum, pathSum, List.cons_append, List.nil_append, List.take_succ_cons, List.take_zero, ccw, Prod.fst_sub, Prod.snd_sub]
  ring

theorem valid_triangle {a b c : Vec K} (h : 0 < ccw (b - a) (c - b)) : Valid [a, b, c] := by
  refine valid_of_turns _ (by simp) ?_ ?_ ?_
  · have := area3 a b c
    linarith
  · rw [← isConvex_strict_iff _ (by simp)]
    have e1 : ccw (b - a) (c - b) = ccw (c - b) (a - c) := by simp only [ccw, Prod.fst_sub, Prod.snd_sub]; ring
    have e2 : ccw (b - a) (c - b) = ccw (a - c) (b - a) := by simp only [ccw, Prod.fst_sub, Prod.snd_sub]; ring
    simp only [isConvex, List.length_cons, List.length_nil, Nat.reduceAdd, if_true, List.range_succ, List.range_zero,
      List.nil_append, List.cons_append, List.all_cons, List.all_nil, edge, vertex, Nat.reduceMod, Bool.and_true,
      Bool.and_eq_true, decide_eq_true_eq, not_le]
    simp only [List.getElem?_cons_zero, List.getElem?_cons_succ, Option.getD_some]
    exact ⟨h, e1 ▸ h, e2 ▸ h⟩
  · intro i j hi hj ⟨h1, h2, h3⟩
    simp only [List.length_cons, List.length_nil, Nat.reduceAdd] at hi hj h1 h2 h3
    omega

theorem turns_quad {a b c d : Vec K} : (∀ i, 0 < ccw (edge [a, b, c, d] i) (edge [a, b, c, d] (i + 1))) ↔
    Turns (b - a) (c - b) (d - c) (a - d) := by
  rw [← isConvex_strict_iff _ (by simp)]
  simp only [isConvex, List.length_cons, List.length_nil, Nat.reduceAdd, if_true, List.range_succ, List.range_zero,
    List.nil_append, List.cons_append, List.all_cons, List.all_nil, edge, vertex, Nat.reduceMod, Bool.and_true,
    Bool.and_eq_true, decide_eq_true_eq, not_le]
  simp only [List.getElem?_cons_zero, List.getElem?_cons_succ, Option.getD_some]
  rfl

theorem valid_quad {a b c d : Vec K} (h : Turns (b - a) (c - b) (d - c) (a - d)) : Valid [a, b, c, d] := by
  obtain ⟨h1, h2, h3, h4⟩ := h
  refine valid_of_turns _ (by simp) ?_ (turns_quad.2 ⟨h1, h2, h3, h4⟩) ?_
  · have := area4 a b c d
    linarith
  · have e02 : segPts (a, b) ∩ segPts (c, d) = ∅ := by
      apply segPts_disjoint
      · have : ccw (d - c) (a - c) = ccw (d - c) (a - d) := by simp only [ccw, Prod.fst_sub, Prod.snd_sub]; ring
        rw [this]; exact h3
      · have : ccw (d - c) (b - c) = ccw (c - b) (d - c) := by simp only [ccw, Prod.fst_sub, Prod.snd_sub]; ring
        rw [this]; exact h2
    have e13 : segPts (b, c) ∩ segPts (d, a) = ∅ := by
      apply segPts_disjoint
      · have : ccw (a - d) (b - d) = ccw (a - d) (b - a) := by simp only [ccw, Prod.fst_sub, Prod.snd_sub]; ring
        rw [this]; exact h4
      · have : ccw (a - d) (c - d) = ccw (d - c) (a - d) := by simp only [ccw, Prod.fst_sub, Prod.snd_sub]; ring
        rw [this]; exact h3
    intro i j hi hj ⟨k1, k2, k3⟩
    simp only [List.length_cons, List.length_nil, Nat.reduceAdd] at hi hj k1 k2 k3
    have : (i = 0 ∧ j = 2) ∨ (i = 2 ∧ j = 0) ∨ (i = 1 ∧ j = 3) ∨ (i = 3 ∧ j = 1) := by omega
    rcases this with ⟨rfl, rfl⟩ | ⟨rfl, rfl⟩ | ⟨rfl, rfl⟩ | ⟨rfl, rfl⟩
    · exact e02
    · rw [Set.inter_comm]; exact e02
    · simpa [side, vertex] using e13
    · rw [Set.inter_comm]; simpa [side, vertex] using e13

theorem Turns.rotate {a b c d : Vec K} (h : Turns a b c d) : Turns d a b c := ⟨h.2.2.2, h.1, h.2.1, h.2.2.1⟩

theorem Valid.of_rotate {p : Poly K} (k : ℕ) (h : Valid (List.rotate p k : Poly K)) : Valid p := by
  have h1 := h.rotate (p.length - k % p.length)
  have h2 : (List.rotate (List.rotate p k) (p.length - k % p.length) : List (Vec K)) = p := by
    have hp : 0 < p.length := by have := h.len3; rw [List.length_rotate] at this; omega
    rw [List.rotate_rotate, ← List.rotate_mod]
    have : (k + (p.length - k % p.length)) % p.length = 0 := by
      have h3 := Nat.mod_lt k hp
      have h4 := Nat.div_add_mod k p.length
      have h5 : k + (p.length - k % p.length) = p.length * (k / p.length) + p.length := by omega
      rw [h5, ← Nat.mul_succ, Nat.mul_mod_right]
    rw [this, List.rotate_zero]
  rw [h2] at h1
  exact h1

/-- `is_convex` for the union of two triangles that share an edge. -/
theorem join_triangles (p q : Poly K) (hp : p.length = 3) (hq : q.length = 3) (e f : ℕ) (he : e < 3) (hf : f < 3)
    (h1 : p.vertex e = q.vertex (f + 1)) :
    ∃ k, p.take e ++ q.drop (f + 1) ++ q.take f ++ p.drop (e + 1) =
      List.rotate [p.vertex e, q.vertex (f + 2), p.vertex (e + 1), p.vertex (e + 2)] k := by
  obtain ⟨x0, x1, x2, rfl⟩ := List.length_eq_three.1 hp
  obtain ⟨y0, y1, y2, rfl⟩ := List.length_eq_three.1 hq
  refine ⟨if e = 0 then 0 else if e = 1 then 3 else 2, ?_⟩
  have : e = 0 ∨ e = 1 ∨ e = 2 := by omega
  have : f = 0 ∨ f = 1 ∨ f = 2 := by omega
  rcases ‹e = 0 ∨ _› with rfl | rfl | rfl <;> rcases ‹f = 0 ∨ _› with rfl | rfl | rfl <;>
    simp [vertex] at h1 ⊢ <;> simp [h1, List.rotate]

end Poly
end Flat
