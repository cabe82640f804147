import Verif.Props.PointPosition
import Verif.Lemmas.PolyMap
import Mathlib.Algebra.Order.BigOperators.Group.List

/-!
# C13: the centroid of a convex polygon is in its interior, so `subdivide()` works
-/

namespace Flat
namespace Poly
variable {K : Type} [Field K] [LinearOrder K] [IsStrictOrderedRing K]

theorem edge_translate (p : Poly K) (hp : p ≠ []) (u : Vec K) (i : ℕ) : (p.translate u).edge i = p.edge i := by
  unfold edge
  rw [vertex_translate p hp, vertex_translate p hp]
  abel

theorem area_sum (p : Poly K) : 2 * p.area = ((List.range p.length).map (fun i => ccw (p.vertex i) (p.vertex (i + 1)))).sum := by
  rw [two_area, sum_edges_eq]

/-- The centroid of a convex polygon one of whose vertices is the origin. -/
theorem centroid_left_aux {p : Poly K} (h : p.Valid) (hc : p.Convex) (k : ℕ) (h0 : p.vertex k = 0) :
    0 < ccw (p.edge k) p.centroid := by
  have hn : 0 < p.length := by have := h.len3; omega
  set f : Vec K → K := fun x => ccw (p.edge k) x with hf
  have fpos : ∀ i, 0 ≤ f (p.vertex i) := fun i => by
    have := hc k i
    rwa [h0, sub_zero] at this
  have cpos : ∀ i j, p.vertex j = p.vertex (i + 1) → 0 ≤ ccw (p.vertex i) (p.vertex j) := fun i j hj => by
    have := hc i k
    rw [h0, edge] at this
    rw [hj]
    simp only [ccw, Prod.fst_sub, Prod.snd_sub, Prod.fst_zero, Prod.snd_zero] at this ⊢
    linarith
  have hnext : ∀ i, p.vertex (i + p.length - 1 + 1) = p.vertex i := fun i => by
    rw [show i + p.length - 1 + 1 = i + p.length by omega, vertex_add_length]
  -- the formula for the centroid
  have hA : (0 : K) < (6 * p.area)⁻¹ := inv_pos.2 (mul_pos (by norm_num) h.area_pos)
  have sumlin : ∀ (l : List ℕ) (a b : K) (F G : ℕ → K), a * (l.map F).sum + b * (l.map G).sum = (l.map (fun i => a * F i + b * G i)).sum := by
    intro l a b F G
    induction l with
    | nil => simp
    | cons x l ih => simp only [List.map_cons, List.sum_cons]; rw [← ih]; ring
  have hcent : f p.centroid = (6 * p.area)⁻¹ * ((List.range p.length).map (fun i =>
      (f (p.vertex (i + p.length - 1)) + f (p.vertex i)) * ccw (p.vertex (i + p.length - 1)) (p.vertex i))).sum := by
    have : f p.centroid = (p.edge k).1 * p.centroid.2 - (p.edge k).2 * p.centroid.1 := rfl
    rw [this]
    simp only [centroid]
    rw [show ∀ a b c d e : K, a * (c * d) - b * (c * e) = c * (a * d + (-b) * e) from fun a b c d e => by ring, sumlin]
    congr 3
    funext i
    simp only [hf, ccw]
    ring
  rw [show ccw (p.edge k) p.centroid = f p.centroid from rfl, hcent]
  refine mul_pos hA ?_
  -- all terms are nonnegative and one is positive
  obtain ⟨i, hi⟩ : ∃ i, 0 < ccw (p.vertex i) (p.vertex (i + 1)) := by
    by_contra hno
    push Not at hno
    have h1 := area_sum p
    have h2 : ((List.range p.length).map (fun i => ccw (p.vertex i) (p.vertex (i + 1)))).sum ≤ 0 := by
      have := List.sum_le_sum (l := List.range p.length) (f := fun i => ccw (p.vertex i) (p.vertex (i + 1)))
        (g := fun _ => (0 : K)) (fun i _ => hno i)
      simpa using this
    have := h.area_pos
    linarith
  have hfi : 0 < f (p.vertex i) + f (p.vertex (i + 1)) := by
    by_contra hno
    have a := fpos i
    have b := fpos (i + 1)
    have a0 : f (p.vertex i) = 0 := by linarith
    have b0 : f (p.vertex (i + 1)) = 0 := by linarith
    have hu : p.edge k ≠ 0 := h.edge_ne k
    have key : ∀ u v w : Vec K, u ≠ 0 → ccw u v = 0 → ccw u w = 0 → ccw v w = 0 := by
      intro u v w hu h1 h2
      simp only [ccw] at *
      by_cases hx : u.1 = 0
      · have hy : u.2 ≠ 0 := fun hy => hu (Prod.ext hx hy)
        rw [hx, zero_mul, zero_sub, neg_eq_zero] at h1 h2
        rw [(mul_eq_zero.1 h1).resolve_left hy, (mul_eq_zero.1 h2).resolve_left hy]
        ring
      · apply mul_left_cancel₀ hx
        linear_combination v.1 * h2 - w.1 * h1
    rw [key _ _ _ hu a0 b0] at hi
    exact lt_irrefl _ hi
  have hj : (i + 1) % p.length < p.length := Nat.mod_lt _ hn
  have v1 : p.vertex ((i + 1) % p.length) = p.vertex (i + 1) := vertex_mod p _
  have v2 : p.vertex ((i + 1) % p.length + p.length - 1) = p.vertex i := by
    refine vertex_congr p ?_
    have : ((i + 1) % p.length + p.length - 1) ≡ i [MOD p.length] := by
      refine Nat.ModEq.add_right_cancel' 1 ?_
      rw [show (i + 1) % p.length + p.length - 1 + 1 = (i + 1) % p.length + p.length by omega]
      unfold Nat.ModEq
      simp
    exact this
  have := List.sum_lt_sum (l := List.range p.length) (fun _ => (0 : K)) (fun i =>
      (f (p.vertex (i + p.length - 1)) + f (p.vertex i)) * ccw (p.vertex (i + p.length - 1)) (p.vertex i))
    (fun i _ => mul_nonneg (add_nonneg (fpos _) (fpos _)) (cpos _ _ (hnext i).symm))
    ⟨(i + 1) % p.length, List.mem_range.2 hj, by rw [v1, v2]; exact mul_pos hfi hi⟩
  simpa using this

/-- **C13.** The centroid of a convex polygon is strictly on the left of all edges, i.e. in the interior. -/
theorem C13_centroid_interior {p : Poly K} (h : p.Valid) (hc : p.Convex) (k : ℕ) :
    0 < ccw (p.edge k) (p.centroid - p.vertex k) := by
  have hp := h.ne_nil
  have hv := vertex_translate p hp (-p.vertex k)
  have hc' : (p.translate (-p.vertex k)).Convex := fun i j => by
    rw [edge_translate p hp, hv, hv]
    simpa using hc i j
  have := centroid_left_aux (h.translate (-p.vertex k)) hc' k (by rw [hv]; simp)
  rw [edge_translate p hp, C13_centroid_translate p _ h.area_pos.ne'] at this
  rwa [sub_eq_neg_add]

/-- **C13.** `subdivide()` of a convex polygon works. -/
theorem C13_subdivide_total {p : Poly K} (h : p.Valid) (hc : p.Convex) : ∃ ts, p.subdivide = .ok ts := by
  refine ⟨(List.range p.length).map (fun i => [p.vertex i, p.vertex (i + 1), p.centroid]), ?_⟩
  unfold subdivide
  rw [mapM_ok_iff, List.forall₂_map_right_iff]
  exact List.forall₂_same.2 fun i _ => (ofVertices_triangle _ _ _).2 (C13_centroid_interior h hc i)

/-- A pentagon with a straight angle. -/
def exPentagon : Poly ℚ := [(0, 0), (1, 0), (2, 0), (3, 2), (0, 1)]

example : exPentagon.Valid ∧ exPentagon.Convex := by
  refine ⟨(check_iff _ (by decide)).1 (by decide +kernel), fun i j => ?_⟩
  have : ∀ i < 5, ∀ j < 5, 0 ≤ ccw (exPentagon.edge i) (exPentagon.vertex j - exPentagon.vertex i) := by decide +kernel
  have h := this (i % 5) (Nat.mod_lt _ (by norm_num)) (j % 5) (Nat.mod_lt _ (by norm_num))
  rwa [show (5 : ℕ) = exPentagon.length from rfl, edge_mod, vertex_mod, vertex_mod] at h

end Poly
end Flat
