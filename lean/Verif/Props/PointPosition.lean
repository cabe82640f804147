import Verif.Props.PolygonCheck
import Verif.Lemmas.Triangles
import Verif.Props.EdgeTransformation
import Mathlib.Algebra.BigOperators.Intervals
import Mathlib.Tactic.IntervalCases
import Mathlib.Tactic.Abel

/-!
# C12: the position of a point with respect to a convex polygon
-/

namespace Flat
namespace Poly
variable {K : Type} [Field K] [LinearOrder K] [IsStrictOrderedRing K]

/-- All vertices are on the left of all edges (or on the line through it): the polygon is convex.  Straight angles are allowed. -/
def Convex (p : Poly K) : Prop := ∀ i j, 0 ≤ ccw (p.edge i) (p.vertex j - p.vertex i)

/-- How far the point is to the left of an edge, up to a positive factor. -/
def left (p : Poly K) (q : Vec K) (i : ℕ) : K := ccw (p.edge i) (q - p.vertex i)

/-- The points of side `i` without the end points. -/
def openSide (p : Poly K) (i : ℕ) : Set (Vec K) := {q | ∃ t : K, 0 < t ∧ t < 1 ∧ q = p.vertex i + t • p.edge i}

theorem left_mod (p : Poly K) (q : Vec K) (i : ℕ) : p.left q (i % p.length) = p.left q i := by
  unfold left
  rw [edge_mod, vertex_mod]

/-- A cyclic sequence which is sometimes true and sometimes not changes from true to false somewhere. -/
theorem cyc_step {n : ℕ} (hn : 0 < n) (P : ℕ → Prop) (hP : ∀ i, P (i % n) ↔ P i) (a b : ℕ) (ha : P a) (hb : ¬ P b) :
    ∃ j, P j ∧ ¬ P (j + 1) := by
  by_contra hno
  push Not at hno
  have hk : ∀ k, P (a + k) := by
    intro k
    induction k with
    | zero => exact ha
    | succ k ih => exact hno _ ih
  have h1 := hk (b + n * a - a)
  have h2 : a ≤ b + n * a := le_trans (Nat.le_mul_of_pos_left a hn) (Nat.le_add_left _ _)
  rw [Nat.add_sub_cancel' h2, ← hP, Nat.add_mul_mod_self_left, hP] at h1
  exact hb h1

/-- Not all vertices of a polygon are on a line. -/
theorem Valid.not_collinear {p : Poly K} (h : p.Valid) (u : Vec K) (c : Vec K) (hu : u ≠ 0) :
    ∃ j, ccw u (p.vertex j - c) ≠ 0 := by
  by_contra hno
  push Not at hno
  have hpos := h.area_pos
  have hzero : p.area = 0 := by
    have hn := normSq_ne_zero hu
    have hp : ∀ j, ∃ t : K, p.vertex j = c + t • u := by
      intro j
      have := hno j
      refine ⟨((p.vertex j - c).1 * u.1 + (p.vertex j - c).2 * u.2) / (u.1 ^ 2 + u.2 ^ 2), ?_⟩
      simp only [ccw, Prod.fst_sub, Prod.snd_sub] at this ⊢
      have hn' : u.1 ^ 2 + u.2 ^ 2 ≠ 0 := by
        intro h0; apply hn; rw [← h0]; ring
      ext
      · simp only [Prod.fst_add, Prod.smul_fst, smul_eq_mul]
        field_simp
        linear_combination (-u.2) * this
      · simp only [Prod.snd_add, Prod.smul_snd, smul_eq_mul]
        field_simp
        linear_combination u.1 * this
    choose t ht using hp
    unfold area
    have hterm : ∀ i, ((p.vertex i).1 + (p.vertex (i + 1)).1) * (p.edge i).2 =
        (fun i => 2 * c.1 * u.2 * t i + u.1 * u.2 * (t i * t i)) (i + 1) - (fun i => 2 * c.1 * u.2 * t i + u.1 * u.2 * (t i * t i)) i := by
      intro i
      unfold edge
      rw [ht i, ht (i + 1)]
      simp only [Prod.fst_add, Prod.smul_fst, smul_eq_mul, Prod.snd_add, Prod.smul_snd, Prod.snd_sub]
      ring
    have hsum : ∀ (f : ℕ → K) n, ((List.range n).map (fun i => f (i + 1) - f i)).sum = f n - f 0 := by
      intro f n
      induction n with
      | zero => simp
      | succ n ih => rw [List.range_succ, List.map_append, List.sum_append, ih]; simp
    have ht0 : t p.length = t 0 := by
      have h1 := ht p.length
      have h2 := ht 0
      have h3 : p.vertex p.length = p.vertex 0 := by
        have := vertex_add_length p 0
        rwa [zero_add] at this
      rw [h3, h2] at h1
      have h4 := congrArg Prod.fst h1
      have h5 := congrArg Prod.snd h1
      simp only [Prod.fst_add, Prod.smul_fst, smul_eq_mul, Prod.snd_add, Prod.smul_snd] at h4 h5
      have hn' : u.1 * u.1 + u.2 * u.2 ≠ 0 := by
        exact hn
      apply mul_right_cancel₀ hn'
      linear_combination -u.1 * h4 - u.2 * h5
    simp only [hterm]
    rw [hsum (fun i => 2 * c.1 * u.2 * t i + u.1 * u.2 * (t i * t i)), ht0]
    simp
  rw [hzero] at hpos
  exact lt_irrefl _ hpos

/-- A point which is not on the right of any edge, but on the line through an edge, is on the boundary. -/
theorem boundary_of_weak {p : Poly K} (h : p.Valid) (hc : p.Convex) {q : Vec K} (hq : ∀ i, 0 ≤ p.left q i) {k : ℕ}
    (hk : p.left q k = 0) : ∃ j, q ∈ p.side j := by
  have hlen : 0 < p.length := by have := h.len3; omega
  have hne := h.edge_ne k
  set u := p.edge k with hu
  have hn : u.1 * u.1 + u.2 * u.2 ≠ 0 := by
    have := normSq_ne_zero hne
    simpa only [normSq] using this
  have hnpos : 0 < u.1 * u.1 + u.2 * u.2 := lt_of_le_of_ne (add_nonneg (mul_self_nonneg _) (mul_self_nonneg _)) hn.symm
  -- position along the line
  set f : Vec K → K := fun x => x.1 * u.1 + x.2 * u.2 with hf
  have hon : ∀ x y : Vec K, ccw u (x - p.vertex k) = 0 → ccw u (y - p.vertex k) = 0 →
      (u.1 * u.1 + u.2 * u.2) • (x - y) = (f x - f y) • u := by
    intro x y hx hy
    simp only [ccw, Prod.fst_sub, Prod.snd_sub] at hx hy
    ext
    · simp only [hf, Prod.smul_fst, Prod.fst_sub, smul_eq_mul]
      linear_combination u.2 * hy - u.2 * hx
    · simp only [hf, Prod.smul_snd, Prod.snd_sub, smul_eq_mul]
      linear_combination u.1 * hx - u.1 * hy
  -- a point on the line between two vertices in sequence
  have hseg : ∀ j, ccw u (p.vertex j - p.vertex k) = 0 → ccw u (p.vertex (j + 1) - p.vertex k) = 0 →
      f (p.vertex j) ≤ f q → f q ≤ f (p.vertex (j + 1)) → q ∈ p.side j := by
    intro j h1 h2 h3 h4
    have e1 := hon q (p.vertex j) hk h1
    have e2 := hon (p.vertex (j + 1)) (p.vertex j) h2 h1
    rcases eq_or_lt_of_le (le_trans h3 h4) with h5 | h5
    · exfalso
      rw [h5, sub_self, zero_smul] at e2
      apply h.edge_ne j
      have := congrArg Prod.fst e2
      have := congrArg Prod.snd e2
      unfold edge
      ext
      · have h6 := congrArg Prod.fst e2
        simp only [Prod.smul_fst, smul_eq_mul, Prod.fst_zero] at h6
        exact (mul_eq_zero.1 h6).resolve_left hn
      · have h6 := congrArg Prod.snd e2
        simp only [Prod.smul_snd, smul_eq_mul, Prod.snd_zero] at h6
        exact (mul_eq_zero.1 h6).resolve_left hn
    · have hd : 0 < f (p.vertex (j + 1)) - f (p.vertex j) := sub_pos.2 h5
      refine ⟨(f q - f (p.vertex j)) / (f (p.vertex (j + 1)) - f (p.vertex j)), div_nonneg (sub_nonneg.2 h3) hd.le,
        (div_le_one hd).2 (by linarith), ?_⟩
      have hd' := hd.ne'
      generalize f (p.vertex (j + 1)) - f (p.vertex j) = d at *
      generalize f q - f (p.vertex j) = c at *
      dsimp only
      generalize p.vertex (j + 1) = y at *
      generalize p.vertex j = x at *
      ext
      · have h6 := congrArg Prod.fst e1
        have h7 := congrArg Prod.fst e2
        simp only [Prod.smul_fst, Prod.fst_sub, smul_eq_mul, Prod.fst_add] at h6 h7 ⊢
        apply mul_left_cancel₀ hn
        field_simp
        linear_combination d * h6 - c * h7
      · have h6 := congrArg Prod.snd e1
        have h7 := congrArg Prod.snd e2
        simp only [Prod.smul_snd, Prod.snd_sub, smul_eq_mul, Prod.snd_add] at h6 h7 ⊢
        apply mul_left_cancel₀ hn
        field_simp
        linear_combination d * h6 - c * h7
  have hvert : ∀ x : Vec K, ccw u (x - p.vertex k) = 0 → f x = f q → q = x := by
    intro x hx hxq
    have e1 := hon q x hk hx
    rw [hxq, sub_self, zero_smul] at e1
    ext
    · have h6 := congrArg Prod.fst e1
      simp only [Prod.smul_fst, smul_eq_mul, Prod.fst_zero] at h6
      have := (mul_eq_zero.1 h6).resolve_left hn
      simp only [Prod.fst_sub] at this
      linarith
    · have h6 := congrArg Prod.snd e1
      simp only [Prod.smul_snd, smul_eq_mul, Prod.snd_zero] at h6
      have := (mul_eq_zero.1 h6).resolve_left hn
      simp only [Prod.snd_sub] at this
      linarith
  obtain ⟨b, hb⟩ := h.not_collinear u (p.vertex k) hne
  have hfk : f (p.vertex (k + 1)) - f (p.vertex k) = u.1 * u.1 + u.2 * u.2 := by
    simp only [hf, hu, edge, Prod.fst_sub, Prod.snd_sub]
    ring
  have hk0 : ccw u (p.vertex k - p.vertex k) = 0 := by simp [ccw]
  have hk1 : ccw u (p.vertex (k + 1) - p.vertex k) = 0 := by
    have : p.vertex (k + 1) - p.vertex k = u := rfl
    rw [this]; simp only [ccw]; ring
  -- the two directions
  rcases le_total (f (p.vertex k)) (f q) with hle | hle
  · rcases le_total (f q) (f (p.vertex (k + 1))) with hle2 | hle2
    · exact ⟨k, hseg k hk0 hk1 hle hle2⟩
    · -- beyond the end
      obtain ⟨j, ⟨hj1, hj2⟩, hj3⟩ := cyc_step hlen (fun j => ccw u (p.vertex j - p.vertex k) = 0 ∧ f (p.vertex j) ≤ f q)
        (fun i => by rw [vertex_mod]) (k + 1) b ⟨hk1, hle2⟩ (fun hh => hb hh.1)
      by_cases hon1 : ccw u (p.vertex (j + 1) - p.vertex k) = 0
      · exact ⟨j, hseg j hj1 hon1 hj2 (le_of_not_ge fun hh => hj3 ⟨hon1, hh⟩)⟩
      · have hpos : 0 < ccw u (p.vertex (j + 1) - p.vertex k) := lt_of_le_of_ne (hc k (j + 1)) (Ne.symm hon1)
        have e1 := hon q (p.vertex j) hk hj1
        have hl := hq j
        rcases eq_or_lt_of_le hj2 with h5 | h5
        · exact ⟨j, 0, le_rfl, zero_le_one, by simpa using hvert _ hj1 h5⟩
        · exfalso
          have h6 : (u.1 * u.1 + u.2 * u.2) * p.left q j = -((f q - f (p.vertex j)) * ccw u (p.vertex (j + 1) - p.vertex k)) := by
            have h7 := congrArg Prod.fst e1
            have h8 := congrArg Prod.snd e1
            simp only [Prod.smul_fst, Prod.smul_snd, smul_eq_mul, Prod.fst_sub, Prod.snd_sub] at h7 h8
            unfold left edge
            simp only [ccw, Prod.fst_sub, Prod.snd_sub] at hj1 ⊢
            linear_combination ((p.vertex (j + 1)).1 - (p.vertex j).1) * h8 - ((p.vertex (j + 1)).2 - (p.vertex j).2) * h7 + (f q - f (p.vertex j)) * hj1
          have h9 : 0 < (f q - f (p.vertex j)) * ccw u (p.vertex (j + 1) - p.vertex k) := mul_pos (sub_pos.2 h5) hpos
          have h10 : 0 ≤ (u.1 * u.1 + u.2 * u.2) * p.left q j := mul_nonneg hnpos.le hl
          linarith
  · -- before the start
    obtain ⟨j, hj3, hj⟩ := cyc_step hlen (fun j => ¬ (ccw u (p.vertex j - p.vertex k) = 0 ∧ f q ≤ f (p.vertex j)))
      (fun i => by rw [vertex_mod]) b k (fun hh => hb hh.1) (not_not.2 ⟨hk0, hle⟩)
    obtain ⟨hj1, hj2⟩ := not_not.1 hj
    by_cases hon1 : ccw u (p.vertex j - p.vertex k) = 0
    · exact ⟨j, hseg j hon1 hj1 (le_of_not_ge fun hh => hj3 ⟨hon1, hh⟩) hj2⟩
    · have hpos : 0 < ccw u (p.vertex j - p.vertex k) := lt_of_le_of_ne (hc k j) (Ne.symm hon1)
      have e1 := hon q (p.vertex (j + 1)) hk hj1
      have hl := hq j
      rcases eq_or_lt_of_le hj2 with h5 | h5
      · exact ⟨j, 1, zero_le_one, le_rfl, by simpa using hvert _ hj1 h5.symm⟩
      · exfalso
        have h6 : (u.1 * u.1 + u.2 * u.2) * p.left q j = -((f (p.vertex (j + 1)) - f q) * ccw u (p.vertex j - p.vertex k)) := by
          have h7 := congrArg Prod.fst e1
          have h8 := congrArg Prod.snd e1
          simp only [Prod.smul_fst, Prod.smul_snd, smul_eq_mul, Prod.fst_sub, Prod.snd_sub] at h7 h8
          unfold left edge
          simp only [ccw, Prod.fst_sub, Prod.snd_sub] at hj1 ⊢
          linear_combination ((p.vertex (j + 1)).1 - (p.vertex j).1) * h8 - ((p.vertex (j + 1)).2 - (p.vertex j).2) * h7 + (f (p.vertex (j + 1)) - f q) * hj1
        have h9 : 0 < (f (p.vertex (j + 1)) - f q) * ccw u (p.vertex j - p.vertex k) := mul_pos (sub_pos.2 h5) hpos
        have h10 : 0 ≤ (u.1 * u.1 + u.2 * u.2) * p.left q j := mul_nonneg hnpos.le hl
        linarith

/-- Edge `i` crosses the height `h` upwards. -/
def Up (p : Poly K) (h : K) (i : ℕ) : Prop := (p.vertex i).2 < h ∧ h ≤ (p.vertex (i + 1)).2

/-- Edge `i` crosses the height `h` downwards. -/
def Down (p : Poly K) (h : K) (i : ℕ) : Prop := h ≤ (p.vertex i).2 ∧ (p.vertex (i + 1)).2 < h

instance (p : Poly K) (h : K) (i : ℕ) : Decidable (p.Up h i) := by unfold Up; infer_instance
instance (p : Poly K) (h : K) (i : ℕ) : Decidable (p.Down h i) := by unfold Down; infer_instance

/-- The point where an edge that is not horizontal meets the height `h`. -/
def cross (p : Poly K) (h : K) (i : ℕ) : Vec K := p.vertex i + ((h - (p.vertex i).2) / (p.edge i).2) • p.edge i

theorem Up.edge_pos {p : Poly K} {h : K} {i : ℕ} (hu : p.Up h i) : 0 < (p.edge i).2 := by
  obtain ⟨h1, h2⟩ := hu
  simp only [edge, Prod.snd_sub]
  linarith

theorem Down.edge_neg {p : Poly K} {h : K} {i : ℕ} (hu : p.Down h i) : (p.edge i).2 < 0 := by
  obtain ⟨h1, h2⟩ := hu
  simp only [edge, Prod.snd_sub]
  linarith

theorem cross_snd {p : Poly K} {h : K} {i : ℕ} (he : (p.edge i).2 ≠ 0) : (p.cross h i).2 = h := by
  simp only [cross, Prod.snd_add, Prod.smul_snd, smul_eq_mul]
  field_simp
  ring

/-- On the height `h`, the side of the edge is determined by the crossing. -/
theorem left_eq {p : Poly K} {q : Vec K} {i : ℕ} (he : (p.edge i).2 ≠ 0) :
    p.left q i = (p.edge i).2 * ((p.cross q.2 i).1 - q.1) := by
  simp only [left, cross, ccw, Prod.fst_sub, Prod.snd_sub, Prod.fst_add, Prod.smul_fst, smul_eq_mul]
  field_simp
  ring

theorem Up.cross_mem {p : Poly K} {h : K} {i : ℕ} (hu : p.Up h i) : p.cross h i ∈ p.side i := by
  have he := hu.edge_pos
  obtain ⟨h1, h2⟩ := hu
  refine ⟨(h - (p.vertex i).2) / (p.edge i).2, div_nonneg (by linarith) he.le, (div_le_one he).2 ?_, rfl⟩
  simp only [edge, Prod.snd_sub]
  linarith

theorem Down.cross_mem {p : Poly K} {h : K} {i : ℕ} (hu : p.Down h i) : p.cross h i ∈ p.side i := by
  have he := hu.edge_neg
  obtain ⟨h1, h2⟩ := hu
  refine ⟨(h - (p.vertex i).2) / (p.edge i).2, div_nonneg_of_nonpos (by linarith) he.le, (div_le_one_of_neg he).2 ?_, rfl⟩
  simp only [edge, Prod.snd_sub]
  linarith

/-- The points of the sides of a convex polygon are on the left of the edges. -/
theorem Convex.side_left {p : Poly K} (hc : p.Convex) {x : Vec K} {i : ℕ} (hx : x ∈ p.side i) (k : ℕ) : 0 ≤ p.left x k := by
  obtain ⟨t, h0, h1, rfl⟩ := hx
  have a := hc k i
  have b := hc k (i + 1)
  have : p.left (p.vertex i + t • (p.vertex (i + 1) - p.vertex i)) k =
      (1 - t) * ccw (p.edge k) (p.vertex i - p.vertex k) + t * ccw (p.edge k) (p.vertex (i + 1) - p.vertex k) := by
    simp only [left, ccw, Prod.fst_sub, Prod.snd_sub, Prod.fst_add, Prod.smul_fst, smul_eq_mul, Prod.snd_add, Prod.smul_snd]
    ring
  rw [this]
  exact add_nonneg (mul_nonneg (by linarith) a) (mul_nonneg h0 b)

/-- At most one edge crosses a height upwards. -/
theorem Convex.up_unique {p : Poly K} (hv : p.Valid) (hc : p.Convex) {h : K} {i j : ℕ} (hi : p.Up h i) (hj : p.Up h j) :
    i % p.length = j % p.length := by
  by_contra hne
  have key : ∀ a b, p.Up h a → p.Up h b → (p.cross h b).1 ≤ (p.cross h a).1 := by
    intro a b ha hb
    have h1 := hc.side_left hb.cross_mem a
    rw [left_eq ha.edge_pos.ne', cross_snd hb.edge_pos.ne'] at h1
    have := nonneg_of_mul_nonneg_right h1 ha.edge_pos
    linarith
  have hX : p.cross h i = p.cross h j := by
    ext
    · exact le_antisymm (key j i hj hi) (key i j hi hj)
    · rw [cross_snd hi.edge_pos.ne', cross_snd hj.edge_pos.ne']
  have hap : Apart p.length i j := by
    refine ⟨hne, fun h1 => ?_, fun h1 => ?_⟩
    · have := vertex_congr p h1
      have h2 := hi.2
      rw [this] at h2
      exact absurd hj.1 (not_lt.2 h2)
    · have := vertex_congr p h1
      have h2 := hj.2
      rw [← this] at h2
      exact absurd hi.1 (not_lt.2 h2)
  have := hv.simple i j hap
  have hm : p.cross h i ∈ p.side i ∩ p.side j := ⟨hi.cross_mem, hX ▸ hj.cross_mem⟩
  rw [this] at hm
  exact hm

/-- At most one edge crosses a height downwards. -/
theorem Convex.down_unique {p : Poly K} (hv : p.Valid) (hc : p.Convex) {h : K} {i j : ℕ} (hi : p.Down h i) (hj : p.Down h j) :
    i % p.length = j % p.length := by
  by_contra hne
  have key : ∀ a b, p.Down h a → p.Down h b → (p.cross h a).1 ≤ (p.cross h b).1 := by
    intro a b ha hb
    have h1 := hc.side_left hb.cross_mem a
    rw [left_eq ha.edge_neg.ne, cross_snd hb.edge_neg.ne] at h1
    have := nonpos_of_mul_nonneg_right h1 ha.edge_neg
    linarith
  have hX : p.cross h i = p.cross h j := by
    ext
    · exact le_antisymm (key i j hi hj) (key j i hj hi)
    · rw [cross_snd hi.edge_neg.ne, cross_snd hj.edge_neg.ne]
  have hap : Apart p.length i j := by
    refine ⟨hne, fun h1 => ?_, fun h1 => ?_⟩
    · have := vertex_congr p h1
      have h2 := hi.2
      rw [this] at h2
      exact absurd hj.1 (not_le.2 h2)
    · have := vertex_congr p h1
      have h2 := hj.2
      rw [← this] at h2
      exact absurd hi.1 (not_le.2 h2)
  have := hv.simple i j hap
  have hm : p.cross h i ∈ p.side i ∩ p.side j := ⟨hi.cross_mem, hX ▸ hj.cross_mem⟩
  rw [this] at hm
  exact hm

/-- There is an upwards edge if, and only if, there is a downwards edge. -/
theorem up_iff_down {p : Poly K} (hn : 0 < p.length) (h : K) : (∃ i, p.Up h i) ↔ ∃ j, p.Down h j := by
  have per : ∀ i, (fun i => (p.vertex i).2 < h) (i % p.length) ↔ (fun i => (p.vertex i).2 < h) i := fun i => by
    dsimp only; rw [vertex_mod]
  have per' : ∀ i, (fun i => ¬ (p.vertex i).2 < h) (i % p.length) ↔ (fun i => ¬ (p.vertex i).2 < h) i := fun i => by
    dsimp only; rw [vertex_mod]
  constructor
  · rintro ⟨i, h1, h2⟩
    obtain ⟨j, k1, k2⟩ := cyc_step hn (fun i => ¬ (p.vertex i).2 < h) per' (i + 1) i (not_lt.2 h2) (not_not.2 h1)
    exact ⟨j, not_lt.1 k1, not_not.1 k2⟩
  · rintro ⟨i, h1, h2⟩
    obtain ⟨j, k1, k2⟩ := cyc_step hn (fun i => (p.vertex i).2 < h) per (i + 1) i h2 (not_lt.2 h1)
    exact ⟨j, k1, not_lt.1 k2⟩

/-- A sum over a range with at most one non-zero term. -/
theorem sum_single {n : ℕ} (f : ℕ → ℤ) (i : ℕ) (hi : i < n) (hz : ∀ j, j < n → j ≠ i → f j = 0) :
    ((List.range n).map f).sum = f i := by
  have : ((List.range n).map f).sum = ∑ j ∈ Finset.range n, f j := rfl
  rw [this, Finset.sum_eq_single i]
  · intro j hj hne
    exact hz j (Finset.mem_range.1 hj) hne
  · intro hni
    exact absurd (Finset.mem_range.2 hi) hni

theorem winding_eq (p : Poly K) (q : Vec K) : p.winding q =
    ((List.range p.length).map (fun i => if p.Up q.2 i ∧ 0 < p.left q i then (1 : ℤ) else 0)).sum -
    ((List.range p.length).map (fun i => if p.Down q.2 i ∧ p.left q i < 0 then (1 : ℤ) else 0)).sum := by
  unfold winding
  generalize List.range p.length = l
  induction l with
  | nil => simp
  | cons i l ih =>
    simp only [List.map_cons, List.sum_cons]
    rw [ih]
    have h1 : ((p.vertex i).2 < q.2 ∧ (p.vertex (i + 1)).2 ≥ q.2 ∧ ccw (p.vertex (i + 1) - p.vertex i) (q - p.vertex i) > 0) ↔
        (p.Up q.2 i ∧ 0 < p.left q i) := by
      unfold Up left edge
      tauto
    have h2 : ((p.vertex i).2 ≥ q.2 ∧ (p.vertex (i + 1)).2 < q.2 ∧ ccw (p.vertex (i + 1) - p.vertex i) (q - p.vertex i) < 0) ↔
        (p.Down q.2 i ∧ p.left q i < 0) := by
      unfold Down left edge
      tauto
    simp only [h1, h2]
    ring

/-- The winding number in the presence of an upwards and a downwards edge. -/
theorem Convex.winding_cross {p : Poly K} (hv : p.Valid) (hc : p.Convex) {q : Vec K} {i j : ℕ} (hi : p.Up q.2 i) (hj : p.Down q.2 j) :
    p.winding q = (if 0 < p.left q i then 1 else 0) - (if p.left q j < 0 then 1 else 0) := by
  have hn : 0 < p.length := by have := hv.len3; omega
  have hup : ∀ i, p.Up q.2 (i % p.length) ↔ p.Up q.2 i := fun i => by unfold Up; rw [vertex_mod, vertex_mod_succ]
  have hdown : ∀ i, p.Down q.2 (i % p.length) ↔ p.Down q.2 i := fun i => by unfold Down; rw [vertex_mod, vertex_mod_succ]
  rw [winding_eq, sum_single _ (i % p.length) (Nat.mod_lt _ hn), sum_single _ (j % p.length) (Nat.mod_lt _ hn)]
  · simp only [hup, hdown, left_mod, hi, hj, true_and]
  · intro k hk hne
    rw [if_neg]
    rintro ⟨h1, -⟩
    apply hne
    rw [← Convex.down_unique hv hc h1 hj, Nat.mod_eq_of_lt hk]
  · intro k hk hne
    rw [if_neg]
    rintro ⟨h1, -⟩
    apply hne
    rw [← Convex.up_unique hv hc h1 hi, Nat.mod_eq_of_lt hk]

theorem winding_no_cross {p : Poly K} (hn : 0 < p.length) {q : Vec K} (h : ¬ ∃ i, p.Up q.2 i) : p.winding q = 0 := by
  have h' : ¬ ∃ i, p.Down q.2 i := fun h2 => h ((up_iff_down hn _).2 h2)
  push Not at h h'
  rw [winding_eq]
  simp [h, h']

/-- A point inside is at the height of the polygon. -/
theorem Convex.inside_crosses {p : Poly K} (hv : p.Valid) (hc : p.Convex) {q : Vec K} (hq : ∀ i, 0 < p.left q i) : ∃ i, p.Up q.2 i := by
  have hn : 0 < p.length := by have := hv.len3; omega
  by_contra hno
  -- all vertices are on one side of the height
  have hside : (∀ i, (p.vertex i).2 < q.2) ∨ ∀ i, q.2 ≤ (p.vertex i).2 := by
    by_contra hcon
    push Not at hcon
    obtain ⟨⟨a, ha⟩, b, hb⟩ := hcon
    obtain ⟨j, k1, k2⟩ := cyc_step hn (fun i => (p.vertex i).2 < q.2) (fun i => by rw [vertex_mod]) b a hb (not_lt.2 ha)
    exact hno ⟨j, k1, not_lt.1 k2⟩
  -- in the two cases, look at the highest, or lowest vertex
  have key : ∀ s : K, s ≠ 0 → (∀ i, 0 ≤ s * ((p.vertex i).2 - q.2)) → False := by
    intro s hs hall
    obtain ⟨m, -, hm⟩ := Finset.exists_min_image (Finset.range p.length) (fun i => s * (p.vertex i).2) ⟨0, Finset.mem_range.2 hn⟩
    have hm' : ∀ i, s * (p.vertex m).2 ≤ s * (p.vertex i).2 := by
      intro i
      have := hm (i % p.length) (Finset.mem_range.2 (Nat.mod_lt _ hn))
      simpa only [vertex_mod] using this
    -- the previous vertex
    have hprev : p.vertex (m + p.length - 1 + 1) = p.vertex m := by
      rw [Nat.sub_add_cancel (by omega), vertex_add_length]
    generalize hk : m + p.length - 1 = k at *
    have ha := hq k
    have hb := hq m
    have hw := hall m
    have hab := hc k (m + 1)
    have h1 := hm' k
    have h2 := hm' (m + 1)
    have hturn := hv.turn k
    have hek : p.edge k = p.vertex m - p.vertex k := by unfold edge; rw [hprev]
    have hem : p.edge (k + 1) = p.edge m := by
      apply edge_congr
      rw [← hk, Nat.sub_add_cancel (by omega), Nat.add_mod_right]
    rw [hem] at hturn
    have hne := hv.edge_ne m
    have hnk := hv.edge_ne k
    -- the identity for three vectors in the plane
    have id : (ccw (p.edge k) (p.edge m)) * (s * (q.2 - (p.vertex m).2)) =
        -(p.left q m) * (s * (p.edge k).2) + p.left q k * (s * (p.edge m).2) := by
      simp only [left, edge, hprev, ccw, Prod.fst_sub, Prod.snd_sub]
      ring
    have hab' : 0 ≤ ccw (p.edge k) (p.edge m) := by
      have : ccw (p.edge k) (p.edge m) = ccw (p.edge k) (p.vertex (m + 1) - p.vertex k) := by
        simp only [edge, hprev, ccw, Prod.fst_sub, Prod.snd_sub]
        ring
      rw [this]; exact hab
    have hyk : s * (p.edge k).2 ≤ 0 := by rw [hek, Prod.snd_sub]; linarith
    have hym : 0 ≤ s * (p.edge m).2 := by
      have : p.edge m = p.vertex (m + 1) - p.vertex m := rfl
      rw [this, Prod.snd_sub]; linarith
    have hL : (ccw (p.edge k) (p.edge m)) * (s * (q.2 - (p.vertex m).2)) ≤ 0 :=
      mul_nonpos_of_nonneg_of_nonpos hab' (by linarith)
    have hA : 0 ≤ -(p.left q m) * (s * (p.edge k).2) := mul_nonneg_of_nonpos_of_nonpos (by linarith) hyk
    have hB : 0 ≤ p.left q k * (s * (p.edge m).2) := mul_nonneg ha.le hym
    have hB0 : p.left q k * (s * (p.edge m).2) = 0 := by linarith
    have hem0 : (p.edge m).2 = 0 := by
      rcases mul_eq_zero.1 hB0 with h3 | h3
      · exact absurd h3 ha.ne'
      · exact (mul_eq_zero.1 h3).resolve_left hs
    -- the edge is horizontal, and all vertices are on the wrong side
    have hleft : p.left q m = (p.edge m).1 * (q.2 - (p.vertex m).2) := by
      simp only [left, ccw, hem0, Prod.fst_sub, Prod.snd_sub]; ring
    obtain ⟨j, hj⟩ := hv.not_collinear (p.edge m) (p.vertex m) hne
    have hcj := hc m j
    have hcj' : ccw (p.edge m) (p.vertex j - p.vertex m) = (p.edge m).1 * ((p.vertex j).2 - (p.vertex m).2) := by
      simp only [ccw, hem0, Prod.snd_sub]; ring
    rw [hcj'] at hcj hj
    rw [hleft] at hb
    have h5 := hm' j
    -- signs: with E the first coordinate of the edge
    have hpos : 0 < (p.edge m).1 * ((p.vertex j).2 - (p.vertex m).2) := lt_of_le_of_ne hcj (Ne.symm hj)
    have h6 : 0 ≤ s * ((p.vertex j).2 - (p.vertex m).2) := by linarith
    have h7 : s * (q.2 - (p.vertex m).2) ≤ 0 := by linarith
    have h8 : 0 ≤ (s * (p.edge m).1) := by
      have : 0 ≤ (s * (p.edge m).1) * (((p.vertex j).2 - (p.vertex m).2) * ((p.vertex j).2 - (p.vertex m).2)) := by
        have := mul_nonneg h6 hpos.le
        linarith [this, mul_comm s ((p.vertex j).2 - (p.vertex m).2)]
      have hd : ((p.vertex j).2 - (p.vertex m).2) ≠ 0 := fun h0 => by rw [h0, mul_zero] at hpos; exact lt_irrefl _ hpos
      exact nonneg_of_mul_nonneg_left this (mul_self_pos.2 hd)
    have h9 : (s * (p.edge m).1) * ((q.2 - (p.vertex m).2) * (q.2 - (p.vertex m).2)) ≤ 0 := by
      have := mul_nonpos_of_nonpos_of_nonneg h7 hb.le
      linarith [this]
    have hd : (q.2 - (p.vertex m).2) ≠ 0 := fun h0 => by rw [h0, mul_zero] at hb; exact lt_irrefl _ hb
    have h10 : s * (p.edge m).1 ≤ 0 := by
      by_contra hcon
      have := mul_pos (not_le.1 hcon) (mul_self_pos.2 hd)
      linarith
    have h11 : s * (p.edge m).1 = 0 := le_antisymm h10 h8
    rcases mul_eq_zero.1 h11 with h12 | h12
    · exact hs h12
    · exact hne (Prod.ext h12 hem0)
  rcases hside with h | h
  · exact key (-1) (by simp) (fun i => by have := h i; linarith)
  · exact key 1 one_ne_zero (fun i => by have := h i; linarith)

/-- An odd winding number means that the point is not on the right of any edge. -/
theorem Convex.left_nonneg_of_odd {p : Poly K} (hv : p.Valid) (hc : p.Convex) {q : Vec K} (ho : p.winding q % 2 ≠ 0) (k : ℕ) :
    0 ≤ p.left q k := by
  have hn : 0 < p.length := by have := hv.len3; omega
  by_cases hup : ∃ i, p.Up q.2 i
  · obtain ⟨i, hi⟩ := hup
    obtain ⟨j, hj⟩ := (up_iff_down hn _).1 ⟨i, hi⟩
    rw [hc.winding_cross hv hi hj, left_eq hi.edge_pos.ne', left_eq hj.edge_neg.ne] at ho
    have hBA : (p.cross q.2 j).1 ≤ (p.cross q.2 i).1 := by
      have h1 := hc.side_left hj.cross_mem i
      rw [left_eq hi.edge_pos.ne', cross_snd hj.edge_neg.ne] at h1
      have := nonneg_of_mul_nonneg_right h1 hi.edge_pos
      linarith
    have e1 := hi.edge_pos
    have e2 := hj.edge_neg
    have hA := hc.side_left hi.cross_mem k
    have hB := hc.side_left hj.cross_mem k
    have hA2 := cross_snd (p := p) (h := q.2) hi.edge_pos.ne'
    have hB2 := cross_snd (p := p) (h := q.2) hj.edge_neg.ne
    generalize p.cross q.2 i = A at *
    generalize p.cross q.2 j = B at *
    by_cases hl : q.1 < A.1
    · have hr : B.1 ≤ q.1 := by
        by_contra hcon
        rw [if_pos (mul_pos e1 (by linarith)), if_pos (mul_neg_of_neg_of_pos e2 (by linarith))] at ho
        simp at ho
      have key : (A.1 - B.1) * p.left q k = (q.1 - B.1) * p.left A k + (A.1 - q.1) * p.left B k := by
        simp only [left, ccw, Prod.fst_sub, Prod.snd_sub, hA2, hB2]
        ring
      have h1 : 0 ≤ (A.1 - B.1) * p.left q k := by
        rw [key]
        exact add_nonneg (mul_nonneg (by linarith) hA) (mul_nonneg (by linarith) hB)
      exact nonneg_of_mul_nonneg_right h1 (by linarith)
    · exfalso
      rw [if_neg (not_lt.2 (mul_nonpos_of_nonneg_of_nonpos e1.le (by linarith))),
        if_neg (not_lt.2 (mul_nonneg_of_nonpos_of_nonpos e2.le (by linarith)))] at ho
      simp at ho
  · rw [winding_no_cross hn hup] at ho
    simp at ho

/-- The vertices of a polygon are different. -/
theorem Valid.vertex_inj {p : Poly K} (hv : p.Valid) {i j : ℕ} (h : p.vertex i = p.vertex j) : i % p.length = j % p.length := by
  by_contra hne
  have h1 : p.vertex i ∈ p.side i := ⟨0, le_rfl, zero_le_one, by simp⟩
  have h2 : p.vertex i ∈ p.side j := ⟨0, le_rfl, zero_le_one, by simpa using h⟩
  have hap : Apart p.length i j := by
    refine ⟨hne, fun h3 => ?_, fun h3 => ?_⟩
    · apply hv.edge_ne i
      unfold edge
      rw [vertex_congr p h3, h, sub_self]
    · apply hv.edge_ne j
      unfold edge
      rw [← vertex_congr p h3, h, sub_self]
  have := hv.simple i j hap
  have hm : p.vertex i ∈ p.side i ∩ p.side j := ⟨h1, h2⟩
  rw [this] at hm
  exact hm

/-- A point inside of a side is not on another side. -/
theorem Valid.openSide_unique {p : Poly K} (hv : p.Valid) {i j : ℕ} {q : Vec K} (hi : q ∈ p.openSide i) (hj : q ∈ p.side j) :
    i % p.length = j % p.length := by
  by_contra hne
  obtain ⟨t, t0, t1, ht⟩ := hi
  obtain ⟨s, s0, s1, hs⟩ := id hj
  dsimp only at hs
  have hanti : ∀ a (c : K), c < 0 → p.edge (a + 1) = c • p.edge a → False := by
    intro a c hc h
    have := hv.turn a
    rw [(C05_isAntiParallel_iff _ _ (hv.edge_ne a)).2 ⟨c, hc, h⟩] at this
    cases this
  have hap : Apart p.length i j := by
    refine ⟨hne, fun h3 => ?_, fun h3 => ?_⟩
    · -- the side after this one
      have e1 := vertex_congr p h3
      have e2 : p.vertex (j + 1) - p.vertex j = p.edge (i + 1) := edge_congr p (i := j) (j := i + 1) h3.symm
      rw [e2, ← e1] at hs
      have e3 : p.vertex (i + 1) = p.vertex i + p.edge i := by unfold edge; abel
      rw [e3, ht] at hs
      have hs0 : s ≠ 0 := by
        rintro rfl
        apply hv.edge_ne i
        have h6 := congrArg Prod.fst hs
        have h7 := congrArg Prod.snd hs
        simp only [Prod.fst_add, Prod.smul_fst, smul_eq_mul, Prod.snd_add, Prod.smul_snd, zero_mul, add_zero] at h6 h7
        have h1t : t - 1 ≠ 0 := by linarith
        ext
        · exact (mul_eq_zero.1 (show (t - 1) * (p.edge i).1 = 0 by linarith)).resolve_left h1t
        · exact (mul_eq_zero.1 (show (t - 1) * (p.edge i).2 = 0 by linarith)).resolve_left h1t
      refine hanti i ((t - 1) / s) (div_neg_of_neg_of_pos (by linarith) (lt_of_le_of_ne s0 (Ne.symm hs0))) ?_
      have h6 := congrArg Prod.fst hs
      have h7 := congrArg Prod.snd hs
      simp only [Prod.fst_add, Prod.smul_fst, smul_eq_mul, Prod.snd_add, Prod.smul_snd] at h6 h7
      ext
      · simp only [Prod.smul_fst, smul_eq_mul]
        field_simp
        linarith
      · simp only [Prod.smul_snd, smul_eq_mul]
        field_simp
        linarith
    · -- the side before this one
      have e1 := vertex_congr p h3
      have e2 : p.edge i = p.edge (j + 1) := edge_congr p (i := i) (j := j + 1) h3
      have e4 : p.vertex (j + 1) - p.vertex j = p.edge j := rfl
      have e3 : p.vertex (j + 1) = p.vertex j + p.edge j := by unfold edge; abel
      rw [e4] at hs
      rw [e2, e1, e3, hs] at ht
      have h6 := congrArg Prod.fst ht
      have h7 := congrArg Prod.snd ht
      simp only [Prod.fst_add, Prod.smul_fst, smul_eq_mul, Prod.snd_add, Prod.smul_snd] at h6 h7
      have ht0 := t0.ne'
      rcases eq_or_lt_of_le s1 with h8 | h8
      · apply hv.edge_ne (j + 1)
        rw [h8] at h6 h7
        ext
        · exact (mul_eq_zero.1 (show t * (p.edge (j + 1)).1 = 0 by linarith)).resolve_left ht0
        · exact (mul_eq_zero.1 (show t * (p.edge (j + 1)).2 = 0 by linarith)).resolve_left ht0
      · refine hanti j ((s - 1) / t) (div_neg_of_neg_of_pos (by linarith) t0) ?_
        ext
        · simp only [Prod.smul_fst, smul_eq_mul]
          field_simp
          linarith
        · simp only [Prod.smul_snd, smul_eq_mul]
          field_simp
          linarith
  have := hv.simple i j hap
  have hm : q ∈ p.side i ∩ p.side j := ⟨⟨t, t0.le, t1.le, ht⟩, hj⟩
  rw [this] at hm
  exact hm

/-- The test for the inside of an edge. -/
theorem openSide_iff {p : Poly K} {i : ℕ} (he : p.edge i ≠ 0) (q : Vec K) :
    (ccw (p.edge i) (q - p.vertex i) = 0 ∧ 0 < dot (p.edge i) (q - p.vertex i) ∧
      dot (p.edge i) (q - p.vertex i) < dot (p.edge i) (p.edge i)) ↔ q ∈ p.openSide i := by
  have hn := normSq_ne_zero he
  have hpos : 0 < (p.edge i).1 * (p.edge i).1 + (p.edge i).2 * (p.edge i).2 :=
    lt_of_le_of_ne (add_nonneg (mul_self_nonneg _) (mul_self_nonneg _)) hn.symm
  constructor
  · rintro ⟨h1, h2, h3⟩
    have hd : dot (p.edge i) (p.edge i) = (p.edge i).1 * (p.edge i).1 + (p.edge i).2 * (p.edge i).2 := rfl
    refine ⟨dot (p.edge i) (q - p.vertex i) / dot (p.edge i) (p.edge i), div_pos h2 (by rw [hd]; exact hpos),
      (div_lt_one (by rw [hd]; exact hpos)).2 h3, ?_⟩
    rw [hd]
    simp only [ccw, dot, Prod.fst_sub, Prod.snd_sub] at h1 ⊢
    have hn2 : (p.edge i).1 ^ 2 + (p.edge i).2 ^ 2 ≠ 0 := by
      intro h0; apply hn; rw [← h0]; ring
    ext
    · simp only [Prod.fst_add, Prod.smul_fst, smul_eq_mul]
      field_simp
      linear_combination (-(p.edge i).2) * h1
    · simp only [Prod.snd_add, Prod.smul_snd, smul_eq_mul]
      field_simp
      linear_combination (p.edge i).1 * h1
  · rintro ⟨t, t0, t1, rfl⟩
    have hd : dot (p.edge i) (p.vertex i + t • p.edge i - p.vertex i) = t * ((p.edge i).1 * (p.edge i).1 + (p.edge i).2 * (p.edge i).2) := by
      simp only [dot, add_sub_cancel_left, Prod.smul_fst, Prod.smul_snd, smul_eq_mul]
      ring
    refine ⟨by simp only [ccw, add_sub_cancel_left, Prod.smul_fst, Prod.smul_snd, smul_eq_mul]; ring, ?_, ?_⟩
    · rw [hd]; exact mul_pos t0 hpos
    · rw [hd]
      have : dot (p.edge i) (p.edge i) = 1 * ((p.edge i).1 * (p.edge i).1 + (p.edge i).2 * (p.edge i).2) := by simp [dot]
      rw [this]
      exact mul_lt_mul_of_pos_right t1 hpos

/-- **C12**, vertices, for every polygon: the position is a vertex exactly at the vertices. -/
theorem C12_vertex {p : Poly K} (hv : p.Valid) (q : Vec K) (i : ℕ) :
    p.pointPosition q = .vertex i ↔ i < p.length ∧ q = p.vertex i := by
  unfold pointPosition
  cases hf : (List.range p.length).find? (fun i => decide (q = p.vertex i)) with
  | some k =>
    have h1 := List.find?_some hf
    have h2 := List.mem_of_find?_eq_some hf
    rw [List.mem_range] at h2
    simp only [decide_eq_true_eq] at h1
    simp only [Position.vertex.injEq]
    constructor
    · rintro rfl; exact ⟨h2, h1⟩
    · rintro ⟨h3, h4⟩
      have := hv.vertex_inj (h1.symm.trans h4)
      rwa [Nat.mod_eq_of_lt h2, Nat.mod_eq_of_lt h3] at this
  | none =>
    rw [List.find?_eq_none] at hf
    constructor
    · intro h
      exfalso
      dsimp only at h
      split at h
      · cases h
      · split_ifs at h
    · rintro ⟨h1, h2⟩
      exact absurd (by simpa using h2) (hf i (List.mem_range.2 h1))

/-- **C12**, edges, for every polygon: the position is an edge exactly in the inside of the edge. -/
theorem C12_edge {p : Poly K} (hv : p.Valid) (q : Vec K) (i : ℕ) :
    p.pointPosition q = .edgeInterior i ↔ i < p.length ∧ q ∈ p.openSide i := by
  unfold pointPosition
  cases hf : (List.range p.length).find? (fun i => decide (q = p.vertex i)) with
  | some k =>
    have h1 := List.find?_some hf
    have h2 := List.mem_of_find?_eq_some hf
    rw [List.mem_range] at h2
    simp only [decide_eq_true_eq] at h1
    simp only [reduceCtorEq, false_iff]
    rintro ⟨h3, h4⟩
    have hk : q ∈ p.side k := ⟨0, le_rfl, zero_le_one, by simpa using h1⟩
    have h5 := hv.openSide_unique h4 hk
    obtain ⟨t, t0, t1, ht⟩ := h4
    rw [h1, ← vertex_congr p h5] at ht
    apply hv.edge_ne i
    have h6 := congrArg Prod.fst ht
    have h7 := congrArg Prod.snd ht
    simp only [Prod.fst_add, Prod.smul_fst, smul_eq_mul, Prod.snd_add, Prod.smul_snd] at h6 h7
    ext
    · exact (mul_eq_zero.1 (show t * (p.edge i).1 = 0 by linarith)).resolve_left t0.ne'
    · exact (mul_eq_zero.1 (show t * (p.edge i).2 = 0 by linarith)).resolve_left t0.ne'
  | none =>
    rw [List.find?_eq_none] at hf
    dsimp only
    split
    · next k hg =>
      have h1 := List.find?_some hg
      have h2 := List.mem_of_find?_eq_some hg
      rw [List.mem_range] at h2
      rw [decide_eq_true_eq, openSide_iff (hv.edge_ne k)] at h1
      simp only [Position.edgeInterior.injEq]
      constructor
      · rintro rfl; exact ⟨h2, h1⟩
      · rintro ⟨h3, h4⟩
        obtain ⟨t, t0, t1, ht⟩ := h4
        have := hv.openSide_unique h1 (j := i) ⟨t, t0.le, t1.le, ht⟩
        rwa [Nat.mod_eq_of_lt h2, Nat.mod_eq_of_lt h3] at this
    · next hg =>
      rw [List.find?_eq_none] at hg
      constructor
      · intro h
        split_ifs at h
      · rintro ⟨h1, h2⟩
        exact absurd (by rw [decide_eq_true_eq, openSide_iff (hv.edge_ne i)]; exact h2) (hg i (List.mem_range.2 h1))

/-- A side consists of its inside and the end points. -/
theorem side_cases {p : Poly K} {q : Vec K} {i : ℕ} (h : q ∈ p.side i) : q = p.vertex i ∨ q = p.vertex (i + 1) ∨ q ∈ p.openSide i := by
  obtain ⟨t, t0, t1, ht⟩ := h
  rcases eq_or_lt_of_le t0 with h0 | h0
  · left; rw [ht, ← h0]; simp
  · rcases eq_or_lt_of_le t1 with h1 | h1
    · right; left; rw [ht, h1]; simp
    · right; right; exact ⟨t, h0, h1, ht⟩

/-- The position on the boundary. -/
theorem pointPosition_boundary {p : Poly K} (hv : p.Valid) {q : Vec K} :
    (∃ i, q ∈ p.side i) ↔ (∃ i, p.pointPosition q = .vertex i) ∨ ∃ i, p.pointPosition q = .edgeInterior i := by
  have hn : 0 < p.length := by have := hv.len3; omega
  constructor
  · rintro ⟨i, hi⟩
    rcases side_cases hi with h | h | h
    · exact Or.inl ⟨i % p.length, (C12_vertex hv q _).2 ⟨Nat.mod_lt _ hn, by rw [vertex_mod]; exact h⟩⟩
    · exact Or.inl ⟨(i + 1) % p.length, (C12_vertex hv q _).2 ⟨Nat.mod_lt _ hn, by rw [vertex_mod]; exact h⟩⟩
    · refine Or.inr ⟨i % p.length, (C12_edge hv q _).2 ⟨Nat.mod_lt _ hn, ?_⟩⟩
      obtain ⟨t, t0, t1, ht⟩ := h
      exact ⟨t, t0, t1, by rw [vertex_mod, edge_mod]; exact ht⟩
  · rintro (⟨i, hi⟩ | ⟨i, hi⟩)
    · obtain ⟨-, h⟩ := (C12_vertex hv q i).1 hi
      exact ⟨i, 0, le_rfl, zero_le_one, by simpa using h⟩
    · obtain ⟨-, t, t0, t1, ht⟩ := (C12_edge hv q i).1 hi
      exact ⟨i, t, t0.le, t1.le, ht⟩

/-- Away from the boundary, the position is decided by the winding number. -/
theorem pointPosition_winding {p : Poly K} (hv : p.Valid) {q : Vec K} (hb : ¬ ∃ i, q ∈ p.side i) :
    p.pointPosition q = if p.winding q % 2 ≠ 0 then .interior else .outside := by
  rw [pointPosition_boundary hv] at hb
  push Not at hb
  obtain ⟨h1, h2⟩ := hb
  unfold pointPosition at h1 h2 ⊢
  split
  · next k hk => rw [hk] at h1; exact absurd rfl (h1 k)
  · next hk =>
    rw [hk] at h2
    dsimp only at h2
    split
    · next k hk2 => rw [hk2] at h2; exact absurd rfl (h2 k)
    · rfl

/-- **C12.** `get_point_position` for convex polygons of any size (straight angles are allowed): the point is in the interior
exactly if it is strictly to the left of all edges, and outside exactly if it is strictly to the right of an edge. -/
theorem C12_interior {p : Poly K} (hv : p.Valid) (hc : p.Convex) (q : Vec K) :
    (p.pointPosition q = .interior ↔ ∀ i, 0 < ccw (p.edge i) (q - p.vertex i)) ∧
    (p.pointPosition q = .outside ↔ ∃ i, ccw (p.edge i) (q - p.vertex i) < 0) := by
  have hn : 0 < p.length := by have := hv.len3; omega
  by_cases hb : ∃ i, q ∈ p.side i
  · have hb' := (pointPosition_boundary hv).1 hb
    obtain ⟨i, hi⟩ := hb
    have hz : p.left q i = 0 := by
      obtain ⟨t, -, -, rfl⟩ := hi
      simp only [left, edge, ccw, Prod.fst_sub, Prod.snd_sub, Prod.fst_add, Prod.smul_fst, smul_eq_mul, Prod.snd_add, Prod.smul_snd]
      ring
    constructor
    · constructor
      · intro h
        rw [h] at hb'
        simp at hb'
      · intro h
        exact absurd hz (h i).ne'
    · constructor
      · intro h
        rw [h] at hb'
        simp at hb'
      · rintro ⟨k, hk⟩
        exact absurd (hc.side_left hi k) (not_le.2 hk)
  · rw [pointPosition_winding hv hb]
    have hstrict : (∀ i, 0 ≤ p.left q i) → ∀ i, 0 < p.left q i := by
      intro h i
      refine lt_of_le_of_ne (h i) (fun h0 => hb (boundary_of_weak hv hc h h0.symm))
    have hodd : p.winding q % 2 ≠ 0 ↔ ∀ i, 0 < p.left q i := by
      constructor
      · intro h
        exact hstrict (hc.left_nonneg_of_odd hv h)
      · intro h
        obtain ⟨i, hi⟩ := hc.inside_crosses hv h
        obtain ⟨j, hj⟩ := (up_iff_down hn _).1 ⟨i, hi⟩
        rw [hc.winding_cross hv hi hj, if_pos (h i), if_neg (not_lt.2 (h j).le)]
        norm_num
    constructor
    · constructor
      · intro h
        split_ifs at h with ho
        exact hodd.1 ho
      · intro h
        rw [if_pos (hodd.2 h)]
    · constructor
      · intro h
        split_ifs at h with ho
        by_contra hcon
        push Not at hcon
        exact ho (hodd.2 (hstrict hcon))
      · rintro ⟨k, hk⟩
        rw [if_neg]
        intro ho
        exact absurd (hodd.1 ho k) (not_lt.2 hk.le)

/-- A convex polygon with a straight angle. -/
example : Poly.Valid ([(0, 0), (1, 0), (2, 0), (2, 2), (0, 2)] : Poly ℚ) ∧ Poly.Convex ([(0, 0), (1, 0), (2, 0), (2, 2), (0, 2)] : Poly ℚ) := by
  refine ⟨((ofVertices_iff ([(0, 0), (1, 0), (2, 0), (2, 2), (0, 2)] : Poly ℚ) [(0, 0), (1, 0), (2, 0), (2, 2), (0, 2)]).1
    (by decide +kernel)).2, fun i j => ?_⟩
  rw [← vertex_mod _ j, ← vertex_mod _ i, ← edge_mod]
  have hi : i % 5 < 5 := Nat.mod_lt _ (by norm_num)
  have hj : j % 5 < 5 := Nat.mod_lt _ (by norm_num)
  change 0 ≤ ccw (edge _ (i % 5)) (vertex _ (j % 5) - vertex _ (i % 5))
  generalize i % 5 = a at *
  generalize j % 5 = b at *
  interval_cases a <;> interval_cases b <;> decide +kernel

example : Poly.pointPosition ([(0, 0), (1, 0), (2, 0), (2, 2), (0, 2)] : Poly ℚ) (1, 1) = .interior := by decide +kernel

end Poly
end Flat
