import Verif.Model.PolygonFlow
import Verif.Props.Flow
import Verif.Lemmas.Strip

/-!
# C87: flowing a point for the length of a vector, and separatrices of convex polygons
-/

namespace Flat
namespace Poly
variable {K : Type} [Field K] [LinearOrder K] [IsStrictOrderedRing K]

/-- The numbers `s` and `t` of the code for an edge that is not parallel to the holonomy. -/
theorem flowEdge_numbers {p : Poly K} {pt d : Vec K} {i : ℕ} (h : ccw (p.edge i) d ≠ 0) {s t : K}
    (hs : s = ((-d.2) * (pt - p.vertex i).1 + d.1 * (pt - p.vertex i).2) / ((p.edge i).1 * (-d.2) - (-d.1) * (p.edge i).2))
    (ht : t = ((-(p.edge i).2) * (pt - p.vertex i).1 + (p.edge i).1 * (pt - p.vertex i).2) / ((p.edge i).1 * (-d.2) - (-d.1) * (p.edge i).2)) :
    pt + t • d = p.vertex i + s • p.edge i ∧ t * (-ccw (p.edge i) d) = p.left pt i := by
  have e0 : (p.edge i).1 * (-d.2) - (-d.1) * (p.edge i).2 = -ccw (p.edge i) d := by unfold ccw; ring
  have hD : (p.edge i).1 * (-d.2) - (-d.1) * (p.edge i).2 ≠ 0 := by rw [e0]; exact neg_ne_zero.2 h
  have hs' := (eq_div_iff hD).1 hs
  have ht' := (eq_div_iff hD).1 ht
  constructor
  · generalize p.edge i = e at *
    generalize p.vertex i = v at *
    ext
    · refine mul_left_cancel₀ hD ?_
      simp only [Prod.fst_add, Prod.smul_fst, smul_eq_mul, Prod.fst_sub, Prod.snd_sub] at hs' ht' ⊢
      linear_combination d.1 * ht' - e.1 * hs'
    · refine mul_left_cancel₀ hD ?_
      simp only [Prod.snd_add, Prod.smul_snd, smul_eq_mul, Prod.fst_sub, Prod.snd_sub] at hs' ht' ⊢
      linear_combination d.2 * ht' - e.2 * hs'
  · rw [← e0, ht']
    unfold left ccw
    ring

/-- The ray meets edge `i`, to which it is not parallel, at time `t`. -/
def Hits (p : Poly K) (pt d : Vec K) (i : ℕ) (t : K) : Prop := ccw (p.edge i) d ≠ 0 ∧ 0 < t ∧ pt + t • d ∈ p.side i

/-- What the loop finds at an edge. -/
theorem flowEdge_spec {p : Poly K} (hv : p.Valid) {pt d : Vec K} {i : ℕ} (hi : i < p.length) :
    (∃ t, p.Hits pt d i t ∧ p.flowEdge pt d (p.vertex i) i =
      some (if 1 < t then (pt + d, 0, .interior) else (pt + t • d, d - t • d, p.pointPosition (pt + t • d)))) ∨
    (p.flowEdge pt d (p.vertex i) i = none ∧ ∀ t, ¬ p.Hits pt d i t) := by
  have e0 : (p.edge i).1 * (-d.2) - (-d.1) * (p.edge i).2 = -ccw (p.edge i) d := by unfold ccw; ring
  by_cases h : ccw (p.edge i) d = 0
  · refine Or.inr ⟨?_, fun t ht => ht.1 h⟩
    unfold flowEdge
    simp only
    rw [if_pos (by rw [e0, h, neg_zero])]
  obtain ⟨s, hs⟩ : ∃ s, s = ((-d.2) * (pt - p.vertex i).1 + d.1 * (pt - p.vertex i).2) / ((p.edge i).1 * (-d.2) - (-d.1) * (p.edge i).2) := ⟨_, rfl⟩
  obtain ⟨t, ht⟩ : ∃ t, t = ((-(p.edge i).2) * (pt - p.vertex i).1 + (p.edge i).1 * (pt - p.vertex i).2) / ((p.edge i).1 * (-d.2) - (-d.1) * (p.edge i).2) := ⟨_, rfl⟩
  obtain ⟨h1, h2⟩ := flowEdge_numbers h hs ht
  have hside : ∀ t', pt + t' • d ∈ p.side i → t' = t ∧ 0 ≤ s ∧ s ≤ 1 := by
    intro t' hin
    obtain ⟨r, r0, r1, hr⟩ := hin
    have hl : p.left (pt + t' • d) i = 0 := by
      rw [hr]
      unfold left ccw edge
      simp only [Prod.fst_sub, Prod.snd_sub, Prod.fst_add, Prod.snd_add, Prod.smul_fst, Prod.smul_snd, smul_eq_mul]
      ring
    rw [left_add] at hl
    have ht' : t' = t := by
      have : (t' - t) * ccw (p.edge i) d = 0 := by linear_combination hl + h2
      exact sub_eq_zero.1 ((mul_eq_zero.1 this).resolve_right h)
    have hrs : r = s := by
      rw [ht', h1] at hr
      have hr' : (s - r) • p.edge i = 0 := by
        have : p.vertex i + s • p.edge i = p.vertex i + r • p.edge i := hr
        rw [sub_smul, sub_eq_zero]
        exact add_left_cancel this
      rcases smul_eq_zero.1 hr' with h' | h'
      · linarith
      · exact absurd h' (hv.edge_ne i)
    exact ⟨ht', hrs ▸ r0, hrs ▸ r1⟩
  by_cases hc : 0 < t ∧ 0 ≤ s ∧ s ≤ 1
  · refine Or.inl ⟨t, ⟨h, hc.1, ?_⟩, ?_⟩
    · rw [h1]
      exact ⟨s, hc.2.1, hc.2.2, rfl⟩
    · unfold flowEdge
      simp only
      rw [if_neg (by rw [e0]; exact neg_ne_zero.2 h), ← hs, ← ht, if_pos hc]
      by_cases ht1 : 1 < t
      · rw [if_pos ht1, if_pos ht1]
      rw [if_neg ht1, if_neg ht1]
      by_cases hs1 : s = 1
      · rw [if_pos hs1]
        have hx : p.vertex i + p.edge i = pt + t • d := by rw [h1, hs1, one_smul]
        rw [hx, (C12_vertex hv (pt + t • d) ((i + 1) % p.length)).2 ⟨Nat.mod_lt _ (by omega), ?_⟩]
        · congr 2
          refine Prod.ext ?_ rfl
          show pt + d - (pt + t • d) = d - t • d
          abel
        · rw [vertex_mod, ← hx]
          unfold edge
          abel
      rw [if_neg hs1]
      by_cases hs0 : s = 0
      · rw [if_pos hs0]
        have hx : p.vertex i = pt + t • d := by rw [h1, hs0, zero_smul, add_zero]
        rw [(C12_vertex hv (pt + t • d) i).2 ⟨hi, hx.symm⟩, hx]
        congr 2
        refine Prod.ext ?_ rfl
        show pt + d - (pt + t • d) = d - t • d
        abel
      · rw [if_neg hs0, (C12_edge hv (pt + t • d) i).2 ⟨hi, s, lt_of_le_of_ne hc.2.1 (Ne.symm hs0), lt_of_le_of_ne hc.2.2 hs1, h1⟩]
  · refine Or.inr ⟨?_, fun t' ht' => ?_⟩
    · unfold flowEdge
      simp only
      rw [if_neg (by rw [e0]; exact neg_ne_zero.2 h), ← hs, ← ht, if_neg hc]
    · obtain ⟨e1, e2, e3⟩ := hside t' ht'.2.2
      exact hc ⟨e1 ▸ ht'.2.1, e2, e3⟩

theorem flowLoop_spec {p : Poly K} (hv : p.Valid) {pt d : Vec K} : ∀ (k j : ℕ), j + k = p.length →
    (∃ i t, p.Hits pt d i t ∧ p.flowLoop pt d ((List.range k).map (j + ·)) (p.vertex j) =
      .ok (if 1 < t then (pt + d, 0, .interior) else (pt + t • d, d - t • d, p.pointPosition (pt + t • d)))) ∨
    (p.flowLoop pt d ((List.range k).map (j + ·)) (p.vertex j) = .error .valueError ∧ ∀ i t, j ≤ i → i < p.length → ¬ p.Hits pt d i t) := by
  intro k
  induction k with
  | zero => intro j hj; exact Or.inr ⟨rfl, fun i t h1 h2 => by omega⟩
  | succ k ih =>
    intro j hj
    have e : (List.range (k + 1)).map (j + ·) = j :: (List.range k).map (j + 1 + ·) := by
      rw [List.range_succ_eq_map, List.map_cons, List.map_map]
      congr 1
      exact List.map_congr_left fun a _ => by show j + (a + 1) = j + 1 + a; omega
    rw [e, flowLoop]
    rcases flowEdge_spec hv (pt := pt) (d := d) (i := j) (by omega) with ⟨t, ht, h⟩ | ⟨h, hn⟩
    · exact Or.inl ⟨j, t, ht, by rw [h]⟩
    · rw [h]
      have hj1 : p.vertex j + p.edge j = p.vertex (j + 1) := by unfold edge; abel
      simp only [hj1]
      rcases ih (j + 1) (by omega) with h' | ⟨h', hn'⟩
      · exact Or.inl h'
      · refine Or.inr ⟨h', fun i t h1 h2 => ?_⟩
        rcases Nat.eq_or_lt_of_le h1 with rfl | h3
        · exact hn t
        · exact hn' i t h3 h2

theorem Hits.mod {p : Poly K} {pt d : Vec K} {i : ℕ} {t : K} (h : p.Hits pt d i t) : p.Hits pt d (i % p.length) t := by
  unfold Hits at *
  rwa [edge_mod, side_mod]

/-- The result of `flow` in terms of the times at which the ray meets the edges. -/
theorem flow_spec {p : Poly K} (hv : p.Valid) {pt d : Vec K} (hd : d ≠ 0) :
    (∃ i t, p.Hits pt d i t ∧ p.flow pt d none = .ok (if 1 < t then (pt + d, 0, .interior) else (pt + t • d, d - t • d, p.pointPosition (pt + t • d)))) ∨
    (p.flow pt d none = .error .valueError ∧ ∀ i t, ¬ p.Hits pt d i t) := by
  have hn : 0 < p.length := by have := hv.len3; omega
  have e : (List.range p.length).map (0 + ·) = List.range p.length := by simp
  unfold flow
  rw [if_neg hd]
  have := flowLoop_spec hv (pt := pt) (d := d) p.length 0 (by omega)
  rw [e] at this
  rcases this with h | ⟨h, h'⟩
  · exact Or.inl h
  · exact Or.inr ⟨h, fun i t ht => h' _ t (Nat.zero_le _) (Nat.mod_lt i hn) ht.mod⟩

theorem staysIn_left {p : Poly K} (hv : p.Valid) (hc : p.Convex) {pt d : Vec K} (h : p.StaysIn pt d) (k : ℕ) :
    0 ≤ p.left pt k ∧ (p.left pt k = 0 → 0 ≤ ccw (p.edge k) d) := by
  obtain ⟨ε, ε0, h⟩ := h
  have hs : ∀ s : K, 0 < s → s < ε → 0 ≤ p.left pt k + s * ccw (p.edge k) d := by
    intro s s0 s1
    by_contra hn
    refine h s s0 s1 ((C12_interior hv hc _).2.2 ⟨k, ?_⟩)
    have := left_add p pt d s k
    unfold left at this hn
    rw [this]
    exact not_le.1 hn
  constructor
  · by_contra hn
    rw [not_le] at hn
    rcases le_or_gt (ccw (p.edge k) d) 0 with h0 | h0
    · have := hs (ε / 2) (by linarith) (by linarith)
      have := mul_nonpos_of_nonneg_of_nonpos (show 0 ≤ ε / 2 by linarith) h0
      linarith
    · obtain ⟨s, s0, s1, s2⟩ : ∃ s : K, 0 < s ∧ s < ε ∧ s * ccw (p.edge k) d < -p.left pt k := by
        refine ⟨min (ε / 2) (-p.left pt k / ccw (p.edge k) d / 2), ?_, ?_, ?_⟩
        · exact lt_min (by linarith) (half_pos (div_pos (by linarith) h0))
        · exact lt_of_le_of_lt (min_le_left _ _) (by linarith)
        · have h1 := mul_le_mul_of_nonneg_right (min_le_right (ε / 2) (-p.left pt k / ccw (p.edge k) d / 2)) h0.le
          have h2 : -p.left pt k / ccw (p.edge k) d / 2 * ccw (p.edge k) d = -p.left pt k / 2 := by
            field_simp
          linarith
      have := hs s s0 s1
      linarith
  · intro h0
    have := hs (ε / 2) (by linarith) (by linarith)
    rw [h0, zero_add] at this
    exact nonneg_of_mul_nonneg_right this (by linarith)

/-- A point of a convex polygon that is on the line along an edge but not on an edge parallel to it does not exist. -/
theorem Convex.side_of_left {p : Poly K} (hv : p.Valid) (hc : p.Convex) {x d : Vec K} (hx : ∀ k, 0 ≤ p.left x k) {k : ℕ} (hk : p.left x k = 0)
    (hd : ccw (p.edge k) d ≠ 0) : ∃ i, x ∈ p.side i ∧ ccw (p.edge i) d ≠ 0 := by
  have hn : 0 < p.length := by have := hv.len3; omega
  have hd0 : d ≠ 0 := by rintro rfl; exact hd (by unfold ccw; simp)
  have hb : ∃ i, x ∈ p.side i := by
    have h1 : p.pointPosition x ≠ .interior := fun h => by
      have := (C12_interior hv hc x).1.1 h k
      unfold left at hk
      linarith
    have h2 : p.pointPosition x ≠ .outside := fun h => by
      obtain ⟨i, hi⟩ := (C12_interior hv hc x).2.1 h
      have := hx i
      unfold left at this
      linarith
    refine (pointPosition_boundary hv).2 ?_
    cases h : p.pointPosition x with
    | interior => exact absurd h h1
    | outside => exact absurd h h2
    | vertex i => exact Or.inl ⟨i, rfl⟩
    | edgeInterior i => exact Or.inr ⟨i, rfl⟩
  rcases (pointPosition_boundary hv).1 hb with ⟨i, hi⟩ | ⟨i, hi⟩
  · obtain ⟨hil, rfl⟩ := (C12_vertex hv x i).1 hi
    by_cases h0 : ccw (p.edge i) d = 0
    · -- the other edge
      refine ⟨i + p.length - 1, ?_, fun h1 => ?_⟩
      · refine ⟨1, zero_le_one, le_rfl, ?_⟩
        have : p.vertex (i + p.length - 1 + 1) = p.vertex i := by
          rw [show i + p.length - 1 + 1 = i + p.length by omega, ← vertex_mod, Nat.add_mod_right, vertex_mod]
        simp [this]
      · -- both edges are parallel to d, so the edges are parallel to the edge k
        have hi1 : p.vertex (i + p.length - 1 + 1) = p.vertex i := by
          rw [show i + p.length - 1 + 1 = i + p.length by omega, ← vertex_mod, Nat.add_mod_right, vertex_mod]
        have hpar : ccw (p.edge i) (p.edge (i + p.length - 1)) = 0 := by
          have a1 : ccw d (p.edge i) = 0 := by unfold ccw at *; linear_combination -h0
          have a2 : ccw d (p.edge (i + p.length - 1)) = 0 := by unfold ccw at *; linear_combination -h1
          exact parallel_trans hd0 a1 a2
        have hl1 : 0 ≤ p.left (p.vertex (i + 1)) k := hc k (i + 1)
        have hl2 : 0 ≤ p.left (p.vertex (i + p.length - 1)) k := hc k _
        have e1 : p.left (p.vertex (i + 1)) k = ccw (p.edge k) (p.edge i) := by
          have : p.vertex (i + 1) = p.vertex i + (1 : K) • p.edge i := by unfold edge; rw [one_smul]; abel
          rw [this, left_add, hk]
          ring
        have e2 : p.left (p.vertex (i + p.length - 1)) k = -ccw (p.edge k) (p.edge (i + p.length - 1)) := by
          have : p.vertex (i + p.length - 1) = p.vertex i + (-1 : K) • p.edge (i + p.length - 1) := by
            unfold edge; rw [hi1, neg_smul, one_smul]; abel
          rw [this, left_add, hk]
          ring
        -- the two edges point in the same direction
        have hturn := hv.turn (i + p.length - 1)
        have hei : p.edge (i + p.length - 1 + 1) = p.edge i := by
          rw [show i + p.length - 1 + 1 = i + p.length by omega, ← edge_mod, Nat.add_mod_right, edge_mod]
        rw [hei] at hturn
        have hdot : 0 < dot (p.edge (i + p.length - 1)) (p.edge i) := by
          have c1 : ccw (p.edge (i + p.length - 1)) (p.edge i) = 0 := by unfold ccw at *; linear_combination -hpar
          rcases parallel_or (hv.edge_ne _) (hv.edge_ne _) c1 with h | h
          · exact ((isParallel_iff' _ _).1 h).2
          · rw [h] at hturn; cases hturn
        have hki : ccw (p.edge k) (p.edge i) ≠ 0 := by
          intro h
          have a1 : ccw (p.edge i) (p.edge k) = 0 := by unfold ccw at *; linear_combination -h
          exact hd (parallel_trans (hv.edge_ne i) a1 h0)
        rw [e1] at hl1
        rw [e2] at hl2
        have hpos : 0 < ccw (p.edge k) (p.edge i) := lt_of_le_of_ne hl1 (Ne.symm hki)
        -- |edge i|² ccw(k, j) = dot(j, i) ccw(k, i)
        have hid : ((p.edge i).1 * (p.edge i).1 + (p.edge i).2 * (p.edge i).2) * ccw (p.edge k) (p.edge (i + p.length - 1)) =
            dot (p.edge (i + p.length - 1)) (p.edge i) * ccw (p.edge k) (p.edge i) := by
          unfold ccw dot at *
          linear_combination ((p.edge k).1 * (p.edge i).1 + (p.edge k).2 * (p.edge i).2) * hpar
        have h3 := mul_pos hdot hpos
        rw [← hid] at h3
        have h4 := pos_of_mul_pos_right h3 (_root_.Flat.normSq_pos' (hv.edge_ne i)).le
        linarith
    · refine ⟨i, ⟨0, le_rfl, zero_le_one, by simp⟩, h0⟩
  · obtain ⟨hil, hx'⟩ := (C12_edge hv x i).1 hi
    refine ⟨i, ?_, fun h0 => ?_⟩
    · obtain ⟨t, t0, t1, rfl⟩ := hx'
      exact ⟨t, t0.le, t1.le, rfl⟩
    · have h1 := hc.open_parallel hx' hk
      have a1 : ccw (p.edge i) (p.edge k) = 0 := by unfold ccw at *; linear_combination -h1
      exact hd (parallel_trans (hv.edge_ne i) a1 h0)

/-- The ray meets an edge when it starts into the polygon. -/
theorem exists_hit {p : Poly K} (hv : p.Valid) (hc : p.Convex) {pt d : Vec K} (hd : d ≠ 0) (hin : p.StaysIn pt d) : ∃ i t, p.Hits pt d i t := by
  have hl := fun k => staysIn_left hv hc hin k
  have hn : 0 < p.length := by have := hv.len3; omega
  obtain ⟨k₀, hk₀⟩ : ∃ k, ccw (p.edge k) d < 0 := by
    obtain ⟨s, s0, hs⟩ := ray_outside hv pt hd 0
    obtain ⟨k, hk⟩ := (C12_interior hv hc _).2.1 hs
    refine ⟨k, ?_⟩
    have h1 : p.left (pt + s • d) k < 0 := hk
    rw [left_add] at h1
    have h2 : s * ccw (p.edge k) d < 0 := by linarith [(hl k).1]
    exact neg_of_mul_neg_right h2 s0.le
  have hne : ((Finset.range p.length).filter fun k => ccw (p.edge k) d < 0).Nonempty :=
    ⟨k₀ % p.length, by rw [Finset.mem_filter, Finset.mem_range, edge_mod]; exact ⟨Nat.mod_lt _ hn, hk₀⟩⟩
  obtain ⟨k, hk, hmin⟩ := Finset.exists_min_image _ (fun k => p.left pt k / -ccw (p.edge k) d) hne
  rw [Finset.mem_filter] at hk
  set t := p.left pt k / -ccw (p.edge k) d with ht
  have hkpos : 0 < p.left pt k := lt_of_le_of_ne (hl k).1 fun h => absurd ((hl k).2 h.symm) (not_le.2 hk.2)
  have t0 : 0 < t := div_pos hkpos (by linarith [hk.2])
  have hx0 : p.left (pt + t • d) k = 0 := by
    rw [left_add, ht]
    have : ccw (p.edge k) d ≠ 0 := hk.2.ne
    field_simp
    ring
  have hx : ∀ j, 0 ≤ p.left (pt + t • d) j := by
    intro j
    rw [← left_mod, left_add]
    set j' := j % p.length
    rcases le_or_gt 0 (ccw (p.edge j') d) with h | h
    · exact add_nonneg (hl j').1 (mul_nonneg t0.le h)
    · have h1 := hmin j' (by rw [Finset.mem_filter, Finset.mem_range]; exact ⟨Nat.mod_lt _ hn, h⟩)
      have h2 : 0 < -ccw (p.edge j') d := by linarith
      have h3 := (le_div_iff₀ h2).1 h1
      linarith
  obtain ⟨i, hi, hid⟩ := hc.side_of_left hv hx hx0 hk.2.ne
  exact ⟨i, t, hid, t0, hi⟩

/-- A hit of a ray from the polygon is the exit. -/
theorem Hits.exit {p : Poly K} (hv : p.Valid) (hc : p.Convex) {pt d : Vec K} {i : ℕ} {t : K} (h : p.Hits pt d i t) (hpt : ∀ k, 0 ≤ p.left pt k) :
    (∀ s : K, 0 ≤ s → s ≤ t → ∀ k, 0 ≤ p.left (pt + s • d) k) ∧ ∀ s : K, t < s → p.pointPosition (pt + s • d) = .outside := by
  obtain ⟨h1, t0, hs⟩ := h
  have hx := fun k => hc.side_left hs k
  constructor
  · intro s s0 s1 k
    have e := left_line p pt d k 0 s t
    rw [zero_smul, add_zero, sub_zero, sub_zero] at e
    have h2 : 0 ≤ t * p.left (pt + s • d) k := by
      rw [e]
      exact add_nonneg (mul_nonneg (sub_nonneg.2 s1) (hpt k)) (mul_nonneg s0 (hx k))
    exact nonneg_of_mul_nonneg_right h2 t0
  · intro s hs'
    refine (C12_interior hv hc _).2.2 ⟨i, ?_⟩
    have hz : p.left (pt + t • d) i = 0 := by
      obtain ⟨r, -, -, hr⟩ := hs
      rw [hr]
      unfold left ccw edge
      simp only [Prod.fst_sub, Prod.snd_sub, Prod.fst_add, Prod.snd_add, Prod.smul_fst, Prod.smul_snd, smul_eq_mul]
      ring
    have h3 : ccw (p.edge i) d < 0 := by
      rw [left_add] at hz
      have h4 : t * ccw (p.edge i) d ≤ 0 := by linarith [hpt i]
      refine lt_of_le_of_ne ?_ h1
      by_contra hcon
      have := mul_pos t0 (not_le.1 hcon)
      linarith
    show p.left (pt + s • d) i < 0
    rw [left_add] at hz ⊢
    have := mul_neg_of_pos_of_neg (sub_pos.2 hs') h3
    linarith [this]

/-- **C87.** `flow(point, holonomy)` in a convex polygon, for a point and a vector that does not leave the polygon at once: there is a time `t` such that the point moves in the
polygon until `t` and is outside after `t`.  When this is at most the length of the vector, then the result is the point where the ray leaves the polygon, the rest of the vector, and the
position of the point.  Otherwise the result is the end point, no vector is left, and the position is said to be the interior; that is so unless the
vector runs along an edge. -/
theorem C87_flow_partial {p : Poly K} (hv : p.Valid) (hc : p.Convex) {pt d : Vec K} (hd : d ≠ 0) (hin : p.StaysIn pt d) :
    ∃ t : K, 0 < t ∧ (∃ i, pt + t • d ∈ p.side i) ∧ (∀ s : K, 0 ≤ s → s ≤ t → p.pointPosition (pt + s • d) ≠ .outside) ∧
      (∀ s : K, t < s → p.pointPosition (pt + s • d) = .outside) ∧
      (t ≤ 1 → p.flow pt d none = .ok (pt + t • d, d - t • d, p.pointPosition (pt + t • d))) ∧
      (1 < t → p.flow pt d none = .ok (pt + d, 0, .interior) ∧
        (p.pointPosition (pt + d) = .interior ∨ ∃ i, p.pointPosition pt ≠ .interior ∧ ccw (p.edge i) (pt - p.vertex i) = 0 ∧ ccw (p.edge i) d = 0)) := by
  have hl := fun k => (staysIn_left hv hc hin k).1
  rcases flow_spec hv (pt := pt) hd with ⟨i, t, ht, h⟩ | ⟨-, h⟩
  · obtain ⟨h1, h2⟩ := ht.exit hv hc hl
    refine ⟨t, ht.2.1, ⟨i, ht.2.2⟩, ?_, h2, fun h3 => by rw [h, if_neg (not_lt.2 h3)], fun h3 => ⟨by rw [h, if_pos h3], ?_⟩⟩
    · intro s s0 s1 ho
      obtain ⟨k, hk⟩ := (C12_interior hv hc _).2.1 ho
      exact absurd (h1 s s0 s1 k) (not_le.2 hk)
    · by_cases hb : ∃ k, p.left pt k = 0 ∧ p.left (pt + t • d) k = 0
      · obtain ⟨k, hk0, hk1⟩ := hb
        refine Or.inr ⟨k, fun h4 => ?_, hk0, ?_⟩
        · have := (C12_interior hv hc pt).1.1 h4 k
          unfold left at hk0
          linarith
        · rw [left_add, hk0, zero_add] at hk1
          exact (mul_eq_zero.1 hk1).resolve_left ht.2.1.ne'
      · push Not at hb
        have := hc.between_interior hv hl (fun k => h1 t ht.2.1.le le_rfl k) hb (r := 1) one_pos h3
        rw [one_smul] at this
        exact Or.inl this
  · obtain ⟨i, t, ht⟩ := exists_hit hv hc hd hin
    exact absurd ht (h i t)

/-- **C87.** `flow` raises an error for a point of the polygon and a vector that leaves the polygon at once. -/
theorem C87_flow_error {p : Poly K} (hv : p.Valid) (hc : p.Convex) {pt d : Vec K} (hd : d ≠ 0) (hpt : p.pointPosition pt ≠ .outside) (hout : ¬ p.StaysIn pt d) :
    p.flow pt d none = .error .valueError := by
  have hl : ∀ k, 0 ≤ p.left pt k := fun k => by
    by_contra hn
    exact hpt ((C12_interior hv hc pt).2.2 ⟨k, not_le.1 hn⟩)
  rcases flow_spec hv (pt := pt) hd with ⟨i, t, ht, -⟩ | ⟨h, -⟩
  · obtain ⟨h1, -⟩ := ht.exit hv hc hl
    refine absurd ⟨t, ht.2.1, fun s s0 s1 ho => ?_⟩ hout
    obtain ⟨k, hk⟩ := (C12_interior hv hc _).2.1 ho
    exact absurd (h1 s s0.le s1.le k) (not_le.2 hk)
  · exact h

omit [IsStrictOrderedRing K] in
/-- **C87.** `flow` with a zero vector. -/
theorem C87_flow_zero (p : Poly K) (pt : Vec K) : p.flow pt 0 none = .ok (pt, 0, p.pointPosition pt) := by
  unfold flow
  rw [if_pos rfl]

theorem flowEdge_translate (p : Poly K) (pt d v0 τ : Vec K) (i : ℕ) :
    p.flowEdge (pt + τ) d (v0 + τ) i = (p.flowEdge pt d v0 i).map fun r => (r.1 + τ, r.2) := by
  have e1 : pt + τ - (v0 + τ) = pt - v0 := by abel
  unfold flowEdge
  simp only [e1]
  split_ifs
  · rfl
  · simp only [Option.map_some, Option.some.injEq, Prod.mk.injEq, and_true]
    abel
  · simp only [Option.map_some, Option.some.injEq, Prod.mk.injEq, and_true]
    exact ⟨by abel, by abel⟩
  · simp only [Option.map_some, Option.some.injEq, Prod.mk.injEq, and_true]
    exact ⟨trivial, by abel⟩
  · simp only [Option.map_some, Option.some.injEq, Prod.mk.injEq, and_true]
    abel
  · rfl

/-- **C87.** With a translation, the polygon is moved by the translation. -/
theorem C87_flow_translation (p : Poly K) (pt d τ : Vec K) :
    p.flow (pt + τ) d (some τ) = (p.flow pt d none).map fun r => (r.1 + τ, r.2) := by
  have loop : ∀ (l : List ℕ) (v0 : Vec K), p.flowLoop (pt + τ) d l (v0 + τ) = (p.flowLoop pt d l v0).map fun r => (r.1 + τ, r.2) := by
    intro l
    induction l with
    | nil => intro v0; rfl
    | cons i l ih =>
      intro v0
      rw [flowLoop, flowLoop, flowEdge_translate]
      cases p.flowEdge pt d v0 i with
      | none =>
        simp only [Option.map_none]
        rw [show v0 + τ + p.edge i = v0 + p.edge i + τ by abel]
        exact ih _
      | some r => rfl
  unfold flow
  by_cases hd : d = 0
  · rw [if_pos hd, if_pos hd]
    simp only [add_sub_cancel_right]
    rfl
  · rw [if_neg hd, if_neg hd]
    exact loop _ _

/-! ### Separatrices -/

/-- The direction enters the polygon at a vertex, or runs along the edge that starts there. -/
def Enters (p : Poly K) (v : ℕ) (d : Vec K) : Prop := 0 ≤ ccw (p.edge v) d ∧ 0 < ccw (p.edge (v + p.length - 1)) d

theorem Convex.turn_pos {p : Poly K} (hc : p.Convex) (i : ℕ) : 0 ≤ ccw (p.edge i) (p.edge (i + 1)) := by
  have h := hc i (i + 2)
  have : ccw (p.edge i) (p.vertex (i + 2) - p.vertex i) = ccw (p.edge i) (p.edge (i + 1)) := by
    unfold edge ccw
    simp only [Prod.fst_sub, Prod.snd_sub]
    ring
  rwa [this] at h

/-- A strict local maximum of a linear function on a convex polygon is the only maximum. -/
theorem Convex.local_max {p : Poly K} (hv : p.Valid) (hc : p.Convex) {d : Vec K} {i : ℕ} (h1 : 0 < ccw (p.edge i) d) (h2 : ccw (p.edge (i + 1)) d < 0) (j : ℕ)
    (hj : p.vertex j ≠ p.vertex (i + 1)) : ccw (p.vertex j - p.vertex (i + 1)) d < 0 := by
  have hpos : 0 < ccw (p.edge i) (p.edge (i + 1)) := by
    refine lt_of_le_of_ne (hc.turn_pos i) fun h => ?_
    -- parallel edges that point in the same direction
    have hturn := hv.turn i
    have hdot : 0 < dot (p.edge i) (p.edge (i + 1)) := by
      rcases parallel_or (hv.edge_ne i) (hv.edge_ne (i + 1)) h.symm with h' | h'
      · exact ((isParallel_iff' _ _).1 h').2
      · rw [h'] at hturn; cases hturn
    have hid : ((p.edge i).1 * (p.edge i).1 + (p.edge i).2 * (p.edge i).2) * ccw (p.edge (i + 1)) d = dot (p.edge i) (p.edge (i + 1)) * ccw (p.edge i) d := by
      unfold ccw dot at *
      linear_combination (d.1 * (p.edge i).1 + d.2 * (p.edge i).2) * h
    have h3 := mul_pos hdot h1
    rw [← hid] at h3
    have := pos_of_mul_pos_right h3 (_root_.Flat.normSq_pos' (hv.edge_ne i)).le
    linarith
  have ha : 0 ≤ ccw (p.edge i) (p.vertex j - p.vertex (i + 1)) := by
    have h := hc i j
    have : ccw (p.edge i) (p.vertex j - p.vertex i) = ccw (p.edge i) (p.vertex j - p.vertex (i + 1)) := by
      unfold edge ccw
      simp only [Prod.fst_sub, Prod.snd_sub]
      ring
    rwa [this] at h
  have hb : 0 ≤ ccw (p.edge (i + 1)) (p.vertex j - p.vertex (i + 1)) := hc (i + 1) j
  set x := p.vertex j - p.vertex (i + 1)
  have hx : x ≠ 0 := sub_ne_zero.2 hj
  have hid : ccw (p.edge i) (p.edge (i + 1)) * ccw x d = ccw (p.edge i) x * ccw (p.edge (i + 1)) d - ccw (p.edge (i + 1)) x * ccw (p.edge i) d := by
    unfold ccw; ring
  have hle : ccw (p.edge i) x * ccw (p.edge (i + 1)) d - ccw (p.edge (i + 1)) x * ccw (p.edge i) d < 0 := by
    have k1 := mul_nonpos_of_nonneg_of_nonpos ha h2.le
    have k2 := mul_nonneg hb h1.le
    refine lt_of_le_of_ne (by linarith) fun h0 => hx ?_
    have z1 : ccw (p.edge i) x = 0 := by
      rcases mul_eq_zero.1 (show ccw (p.edge i) x * ccw (p.edge (i + 1)) d = 0 by linarith) with h | h
      · exact h
      · linarith
    have z2 : ccw (p.edge (i + 1)) x = 0 := by
      rcases mul_eq_zero.1 (show ccw (p.edge (i + 1)) x * ccw (p.edge i) d = 0 by linarith) with h | h
      · exact h
      · linarith
    have y1 : ccw (p.edge i) (p.edge (i + 1)) * x.1 = 0 := by
      unfold ccw at *
      linear_combination (p.edge (i + 1)).1 * z1 - (p.edge i).1 * z2
    have y2 : ccw (p.edge i) (p.edge (i + 1)) * x.2 = 0 := by
      unfold ccw at *
      linear_combination (p.edge (i + 1)).2 * z1 - (p.edge i).2 * z2
    exact Prod.ext ((mul_eq_zero.1 y1).resolve_left hpos.ne') ((mul_eq_zero.1 y2).resolve_left hpos.ne')
  rw [← hid] at hle
  by_contra hn
  have := mul_nonneg hpos.le (not_lt.1 hn)
  linarith

theorem edge_pred {p : Poly K} (hv : p.Valid) (v : ℕ) : p.edge (v + 1 + p.length - 1) = p.edge v := by
  have := hv.len3
  rw [show v + 1 + p.length - 1 = v + p.length by omega, ← edge_mod, Nat.add_mod_right, edge_mod]

/-- A convex polygon has a separatrix in each direction. -/
theorem exists_separatrix {p : Poly K} (hv : p.Valid) (hc : p.Convex) {d : Vec K} (hd : d ≠ 0) (start : ℕ) :
    ∃ k < p.length, p.Enters (start + k) d ∨ p.Enters (start + k) (-d) := by
  have h3 := hv.len3
  have hneg : ∀ u : Vec K, ccw u (-d) = -ccw u d := fun u => by unfold ccw; simp; ring
  have ex : ∃ v, p.Enters v d ∨ p.Enters v (-d) := by
    by_contra hcon
    push Not at hcon
    have alt1 : ∀ v, 0 < ccw (p.edge v) d → ccw (p.edge (v + 1)) d < 0 := by
      intro v h
      by_contra hn
      exact (hcon (v + 1)).1 ⟨not_lt.1 hn, by rw [edge_pred hv]; exact h⟩
    have alt2 : ∀ v, ccw (p.edge v) d < 0 → 0 < ccw (p.edge (v + 1)) d := by
      intro v h
      by_contra hn
      exact (hcon (v + 1)).2 ⟨by rw [hneg]; linarith [not_lt.1 hn], by rw [edge_pred hv, hneg]; linarith⟩
    obtain ⟨v, hvpos⟩ : ∃ v, 0 < ccw (p.edge v) d := by
      by_contra hn
      push Not at hn
      have h0 : ∀ v, ccw (p.edge v) d = 0 := by
        intro v
        rcases lt_or_eq_of_le (hn v) with h | h
        · have := alt2 v h
          have := hn (v + 1)
          linarith
        · exact h
      -- all edges would be parallel
      obtain ⟨s, s0, hs⟩ := ray_outside hv (p.vertex 0) hd 0
      obtain ⟨k, hk⟩ := (C12_interior hv hc _).2.1 hs
      have h1 : p.left (p.vertex 0 + s • d) k < 0 := hk
      rw [left_add, h0 k, mul_zero, add_zero] at h1
      have := hc k 0
      unfold left at h1
      linarith
    have hm1 := alt1 v hvpos
    have hp2 := alt2 _ hm1
    have hm3 := alt1 _ hp2
    -- two strict maxima at different vertices
    have hne : p.vertex (v + 3) ≠ p.vertex (v + 1) := by
      intro h
      have h01 : ccw (p.vertex (v + 3) - p.vertex (v + 1)) d = ccw (p.edge (v + 1)) d + ccw (p.edge (v + 2)) d := by
        unfold edge ccw
        simp only [Prod.fst_sub, Prod.snd_sub]
        ring
      have e1 : p.side (v + 1) = p.side (v + 1) := rfl
      -- the two edges v + 1 and v + 2 would be opposite
      have e2 : p.edge (v + 2) = -p.edge (v + 1) := by
        unfold edge
        rw [show v + 2 + 1 = v + 3 by omega, h, show v + 1 + 1 = v + 2 by omega]
        abel
      have := hv.turn (v + 1)
      rw [show v + 1 + 1 = v + 2 by omega, e2, isAntiParallel_neg, isParallel_false] at this
      refine this ⟨by unfold ccw; ring, ?_⟩
      unfold dot
      exact _root_.Flat.normSq_pos' (hv.edge_ne _)
    have k1 := hc.local_max hv hvpos hm1 (v + 3) hne
    have k2 := hc.local_max hv (i := v + 2) hp2 hm3 (v + 1) (by rw [show v + 2 + 1 = v + 3 by omega]; exact hne.symm)
    rw [show v + 2 + 1 = v + 3 by omega] at k2
    have : ccw (p.vertex (v + 1) - p.vertex (v + 3)) d = -ccw (p.vertex (v + 3) - p.vertex (v + 1)) d := by
      unfold ccw; simp only [Prod.fst_sub, Prod.snd_sub]; ring
    linarith
  obtain ⟨v, h⟩ := ex
  -- move the vertex to one of those that are inspected
  have hmod : ∀ a b : ℕ, a % p.length = b % p.length → ∀ u, p.Enters a u → p.Enters b u := by
    intro a b hab u hu
    unfold Enters at *
    have e1 : p.edge a = p.edge b := by rw [← edge_mod, hab, edge_mod]
    have e2 : p.edge (a + p.length - 1) = p.edge (b + p.length - 1) := by
      rw [← edge_mod p (a + p.length - 1), ← edge_mod p (b + p.length - 1), show a + p.length - 1 = a + (p.length - 1) by omega,
        show b + p.length - 1 = b + (p.length - 1) by omega, Nat.add_mod, hab, ← Nat.add_mod]
    rw [← e1, ← e2]
    exact hu
  refine ⟨(v + (p.length - start % p.length)) % p.length, Nat.mod_lt _ (by omega), ?_⟩
  have hst := Nat.mod_lt start (show 0 < p.length by omega)
  have e : v % p.length = (start + (v + (p.length - start % p.length)) % p.length) % p.length := by
    rw [Nat.add_mod_mod, Nat.add_mod, Nat.add_mod v]
    conv_rhs => rw [← Nat.add_mod v, ← Nat.add_mod]
    have hd' := Nat.div_add_mod start p.length
    have : start + (v + (p.length - start % p.length)) = v + p.length * (start / p.length + 1) := by
      rw [mul_add, mul_one]; omega
    rw [this, Nat.add_mul_mod_self_left]
  rcases h with h | h
  · exact Or.inl (hmod _ _ e _ h)
  · exact Or.inr (hmod _ _ e _ h)

theorem separatrixLoop_spec {p : Poly K} {d : Vec K} : ∀ (n v : ℕ), (∃ k < n, p.Enters (v + k) d ∨ p.Enters (v + k) (-d)) →
    ∃ k < n, (∃ same : Bool, p.separatrixLoop d n v = .ok (v + k, same) ∧ p.Enters (v + k) (if same then d else -d)) ∧
      ∀ j < k, ¬ p.Enters (v + j) d ∧ ¬ p.Enters (v + j) (-d) := by
  have hneg : ∀ u : Vec K, ccw u (-d) = -ccw u d := fun u => by unfold ccw; simp; ring
  intro n
  induction n with
  | zero => rintro v ⟨k, hk, -⟩; omega
  | succ n ih =>
    rintro v ⟨k, hk, h⟩
    by_cases h1 : 0 ≤ ccw (p.edge v) d ∧ 0 < ccw (p.edge (v + p.length - 1)) d
    · refine ⟨0, by omega, ⟨true, ?_, h1⟩, fun j hj => by omega⟩
      rw [separatrixLoop, if_pos h1]
      rfl
    by_cases h2 : ccw (p.edge v) d ≤ 0 ∧ ccw (p.edge (v + p.length - 1)) d < 0
    · refine ⟨0, by omega, ⟨false, ?_, ?_⟩, fun j hj => by omega⟩
      · rw [separatrixLoop, if_neg h1, if_pos h2]
        rfl
      · show p.Enters v (-d)
        unfold Enters
        rw [hneg, hneg]
        exact ⟨by linarith [h2.1], by linarith [h2.2]⟩
    have h2' : ¬ p.Enters v (-d) := by
      unfold Enters
      rw [hneg, hneg]
      exact fun h => h2 ⟨by linarith [h.1], by linarith [h.2]⟩
    have hk0 : k ≠ 0 := by
      rintro rfl
      rcases h with h | h
      · exact h1 h
      · exact h2' h
    obtain ⟨k', hk', ⟨same, h3, h4⟩, h5⟩ := ih (v + 1) ⟨k - 1, by omega, by rw [show v + 1 + (k - 1) = v + k by omega]; exact h⟩
    refine ⟨k' + 1, by omega, ⟨same, ?_, ?_⟩, fun j hj => ?_⟩
    · rw [separatrixLoop, if_neg h1, if_neg h2, h3]
      congr 2
      omega
    · rw [show v + (k' + 1) = v + 1 + k' by omega]
      exact h4
    · rcases Nat.eq_zero_or_pos j with rfl | hj0
      · exact ⟨h1, h2'⟩
      · have := h5 (j - 1) (by omega)
        rwa [show v + 1 + (j - 1) = v + j by omega] at this

/-- **C87.** `find_separatrix(direction, start_vertex)` in a convex polygon never fails.  It finds the first vertex, counted counterclockwise from the start vertex, from which the
direction or its opposite runs into the polygon (or along the edge that starts there), and says which of the two.  The number of the vertex is
not reduced modulo the number of vertices. -/
theorem C87_separatrix_partial {p : Poly K} (hv : p.Valid) (hc : p.Convex) {d : Vec K} (hd : d ≠ 0) (start : ℕ) :
    ∃ k < p.length, (∃ same : Bool, p.findSeparatrix d start = .ok (start + k, same) ∧ p.Enters (start + k) (if same then d else -d)) ∧
      ∀ j < k, ¬ p.Enters (start + j) d ∧ ¬ p.Enters (start + j) (-d) := by
  unfold findSeparatrix
  rw [if_neg hd]
  exact separatrixLoop_spec _ _ (exists_separatrix hv hc hd start)

/-- **C87.** In a convex polygon, the direction found by `find_separatrix` stays in the polygon for a while, and it is not parallel to the edge that ends at the vertex; that is all
that is asked for. -/
theorem C87_enters {p : Poly K} (hv : p.Valid) (hc : p.Convex) {d : Vec K} {v : ℕ} :
    p.Enters v d ↔ p.StaysIn (p.vertex v) d ∧ ccw (p.edge (v + p.length - 1)) d ≠ 0 := by
  have h3 := hv.len3
  have hpv : p.vertex (v + p.length - 1 + 1) = p.vertex v := by
    rw [show v + p.length - 1 + 1 = v + p.length by omega, ← vertex_mod, Nat.add_mod_right, vertex_mod]
  have hpe : p.edge (v + p.length - 1 + 1) = p.edge v := by
    rw [show v + p.length - 1 + 1 = v + p.length by omega, ← edge_mod, Nat.add_mod_right, edge_mod]
  constructor
  · rintro ⟨h1, h2⟩
    refine ⟨?_, h2.ne'⟩
    have hd : d ≠ 0 := by rintro rfl; unfold ccw at h2; simp at h2
    have e1 : p.edge (v % p.length) = p.edge v := edge_mod p v
    have e2 : p.edge (v % p.length + (p.length - 1)) = p.edge (v + p.length - 1) := by
      rw [← edge_mod, Nat.mod_add_mod, edge_mod, show v + p.length - 1 = v + (p.length - 1) by omega]
    rw [C66_staysIn_iff hv hd, (C12_vertex hv _ (v % p.length)).2 ⟨Nat.mod_lt _ (by omega), (vertex_mod p v).symm⟩]
    show isBetween (-p.edge (v % p.length + (p.length - 1))) (p.edge (v % p.length)) d = false
    rw [e1, e2]
    have ht := hc.turn_pos (v + p.length - 1)
    have hturn := hv.turn (v + p.length - 1)
    rw [hpe] at ht hturn
    have hpar := parallel_or (hv.edge_ne (v + p.length - 1)) (hv.edge_ne v)
    generalize p.edge v = e at *
    generalize p.edge (v + p.length - 1) = q at *
    unfold isBetween
    simp only [Prod.fst_neg, Prod.snd_neg]
    rw [if_neg (by unfold ccw at ht; linarith)]
    by_cases hz : -q.1 * e.2 = e.1 * -q.2
    · have c1 : ccw q e = 0 := by unfold ccw; linear_combination -hz
      have hdot : 0 < dot q e := by
        rcases hpar c1 with h | h
        · exact ((isParallel_iff' _ _).1 h).2
        · rw [h] at hturn; cases hturn
      rw [if_pos hz, if_neg (by rintro ⟨a, b⟩; unfold dot at hdot; linarith)]
      exact decide_eq_false (by unfold ccw at h2; intro h; linarith)
    · rw [if_neg hz]
      refine decide_eq_false ?_
      unfold ccw at h1 h2
      rintro (h | h) <;> linarith
  · rintro ⟨h1, h2⟩
    have l1 : p.left (p.vertex v) v = 0 := by unfold left ccw; simp
    have l2 : p.left (p.vertex v) (v + p.length - 1) = 0 := by
      rw [← hpv]
      unfold left edge ccw
      simp only [Prod.fst_sub, Prod.snd_sub]
      ring
    exact ⟨(staysIn_left hv hc h1 v).2 l1, lt_of_le_of_ne ((staysIn_left hv hc h1 _).2 l2) (Ne.symm h2)⟩

/-! ### Examples and violations -/

/-- The unit square. -/
def exFlowSquare : Poly ℚ := [(0, 0), (1, 0), (1, 1), (0, 1)]

theorem exFlowSquare_valid : exFlowSquare.Valid ∧ exFlowSquare.Convex := by
  refine ⟨((ofVertices_iff exFlowSquare exFlowSquare).1 (by decide +kernel)).2, fun i j => ?_⟩
  have h : ∀ a < 4, ∀ b < 4, 0 ≤ ccw (exFlowSquare.edge a) (exFlowSquare.vertex b - exFlowSquare.vertex a) := by decide +kernel
  have := h (i % 4) (Nat.mod_lt _ (by decide)) (j % 4) (Nat.mod_lt _ (by decide))
  have e1 : exFlowSquare.edge (i % 4) = exFlowSquare.edge i := edge_mod exFlowSquare i
  have e2 : exFlowSquare.vertex (i % 4) = exFlowSquare.vertex i := vertex_mod exFlowSquare i
  have e3 : exFlowSquare.vertex (j % 4) = exFlowSquare.vertex j := vertex_mod exFlowSquare j
  rwa [e1, e2, e3] at this

/-- `C87_flow_partial` applies to a point on an edge, with a vector that leaves through the next edge. -/
example : exFlowSquare.StaysIn (1 / 2, 0) (1, 1) ∧ exFlowSquare.flow (1 / 2, 0) (1, 1) none = .ok ((1, 1 / 2), (1 / 2, 1 / 2), .edgeInterior 1) := by
  refine ⟨?_, by decide +kernel⟩
  rw [C66_staysIn_iff exFlowSquare_valid.1 (by decide +kernel), show exFlowSquare.pointPosition (1 / 2, 0) = .edgeInterior 0 by decide +kernel]
  decide +kernel

/-- `C87_flow_error` applies to the same point and a vector that points down. -/
example : exFlowSquare.pointPosition (1 / 2, 0) ≠ .outside ∧ ¬ exFlowSquare.StaysIn (1 / 2, 0) (1, -1) := by
  refine ⟨by decide +kernel, ?_⟩
  rw [C66_staysIn_iff exFlowSquare_valid.1 (by decide +kernel), show exFlowSquare.pointPosition (1 / 2, 0) = .edgeInterior 0 by decide +kernel]
  decide +kernel

example : exFlowSquare.flow (1 / 2, 1 / 2) (1, 1) none = .ok ((1, 1), (1 / 2, 1 / 2), .vertex 2) ∧
    exFlowSquare.flow (1 / 2, 1 / 2) (1 / 4, 1 / 8) none = .ok ((3 / 4, 5 / 8), 0, .interior) ∧
    exFlowSquare.flow (11 / 2, 1 / 2) (1, 1) (some (5, 0)) = .ok ((6, 1), (1 / 2, 1 / 2), .vertex 2) ∧
    exFlowSquare.flow (1 / 2, 1 / 2) 0 none = .ok ((1 / 2, 1 / 2), 0, .interior) := by
  refine ⟨by decide +kernel, by decide +kernel, by decide +kernel, by decide +kernel⟩

/-- `C87_separatrix_partial` applies to the square: the direction runs down, so its opposite is used. -/
example : exFlowSquare.findSeparatrix (1, -1) 0 = .ok (1, false) ∧ exFlowSquare.Enters 1 (-(1, -1)) := by
  refine ⟨by decide +kernel, ?_, ?_⟩ <;> decide +kernel

/-- **C87, violation.** `flow` along an edge that stops before the end of the edge says that the end point is in the interior of the polygon. -/
theorem C87_flow_violation : ∃ (p : Poly ℚ) (pt d : Vec ℚ), p.Valid ∧ p.Convex ∧ d ≠ 0 ∧ p.StaysIn pt d ∧ p.flow pt d none = .ok (pt + d, 0, .interior) ∧
    p.pointPosition (pt + d) = .edgeInterior 0 := by
  refine ⟨exFlowSquare, (0, 0), (1 / 2, 0), exFlowSquare_valid.1, exFlowSquare_valid.2, by decide +kernel, ?_, by decide +kernel, by decide +kernel⟩
  rw [C66_staysIn_iff exFlowSquare_valid.1 (by decide +kernel), show exFlowSquare.pointPosition (0, 0) = .vertex 0 by decide +kernel]
  decide +kernel

/-- **C87, violation.** `flow` does not reject a point outside of the polygon when the ray meets the polygon; it then even claims that a point outside of the polygon is in the
interior. -/
theorem C87_flow_outside_violation : ∃ (p : Poly ℚ) (pt d : Vec ℚ), p.Valid ∧ p.Convex ∧ p.pointPosition pt = .outside ∧ p.pointPosition (pt + d) = .outside ∧
    p.flow pt d none = .ok (pt + d, 0, .interior) :=
  ⟨exFlowSquare, (-2, 1 / 2), (1, 0), exFlowSquare_valid.1, exFlowSquare_valid.2, by decide +kernel, by decide +kernel, by decide +kernel⟩

/-- **C87, violation.** The number that `find_separatrix` returns need not be the number of a vertex: the loop runs past the last vertex. -/
theorem C87_separatrix_violation : ∃ (p : Poly ℚ) (d : Vec ℚ) (start v : ℕ) (same : Bool), p.Valid ∧ p.Convex ∧ d ≠ 0 ∧ start < p.length ∧
    p.findSeparatrix d start = .ok (v, same) ∧ p.length ≤ v :=
  ⟨exFlowSquare, (1, 1), 3, 4, true, exFlowSquare_valid.1, exFlowSquare_valid.2, by decide +kernel, by decide +kernel, by decide +kernel, by decide +kernel⟩

end Poly
end Flat
