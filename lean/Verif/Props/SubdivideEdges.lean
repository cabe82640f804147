import Verif.Props.PolygonCheck

/-!
# C13: subdividing the edges of a polygon always works
-/

namespace Flat
namespace Poly
variable {K : Type} [Field K] [LinearOrder K] [IsStrictOrderedRing K]

omit [LinearOrder K] [IsStrictOrderedRing K] in
theorem vec_smul_eq_zero {c : K} {v : Vec K} (h : c • v = 0) : c = 0 ∨ v = 0 := by
  by_cases hc : c = 0
  · exact Or.inl hc
  · right
    have := congrArg (fun w => c⁻¹ • w) h
    simpa [smul_smul, hc] using this

omit [LinearOrder K] [IsStrictOrderedRing K] in
theorem vec_smul_ne_zero {c : K} {v : Vec K} (hc : c ≠ 0) (hv : v ≠ 0) : c • v ≠ 0 := fun h =>
  (vec_smul_eq_zero h).elim hc hv

omit [LinearOrder K] [IsStrictOrderedRing K] in
theorem vec_smul_left_inj {c d : K} {v : Vec K} (hv : v ≠ 0) (h : c • v = d • v) : c = d := by
  have : (c - d) • v = 0 := by rw [sub_smul, h, sub_self]
  exact sub_eq_zero.1 ((vec_smul_eq_zero this).resolve_right hv)

omit [LinearOrder K] [IsStrictOrderedRing K] in
theorem vec_smul_right_inj {c : K} {v w : Vec K} (hc : c ≠ 0) (h : c • v = c • w) : v = w := by
  have : c • (v - w) = 0 := by rw [smul_sub, h, sub_self]
  exact sub_eq_zero.1 ((vec_smul_eq_zero this).resolve_left hc)

/-- Two consecutive sides which do not fold back only have their common vertex in common. -/
theorem corner_unique {e f : Vec K} (he : e ≠ 0) (hf : f ≠ 0) (h : isAntiParallel e f = false) {s t : K} (hs : 0 ≤ s)
    (ht : 0 ≤ t) (h2 : s • e = -(t • f)) : s = 0 ∧ t = 0 := by
  rcases hs.eq_or_lt with h0 | h0
  · rw [← h0, zero_smul] at h2
    have : t • f = 0 := by rw [← neg_eq_zero, ← h2]
    rcases vec_smul_eq_zero this with h3 | h3
    · exact ⟨h0.symm, h3⟩
    · exact absurd h3 hf
  · rcases ht.eq_or_lt with h1 | h1
    · rw [← h1, zero_smul, neg_zero] at h2
      rcases vec_smul_eq_zero h2 with h3 | h3
      · exact ⟨h3, h1.symm⟩
      · exact absurd h3 he
    · exfalso
      rw [← Bool.not_eq_true, C05_isAntiParallel_iff e f he] at h
      refine h ⟨-(t⁻¹ * s), by have := mul_pos (inv_pos.2 h1) h0; linarith, ?_⟩
      rw [neg_smul, mul_smul, h2, smul_neg, smul_smul, inv_mul_cancel₀ h1.ne', one_smul, neg_neg]

theorem isAntiParallel_smul {e f : Vec K} (he : e ≠ 0) {c : K} (hc : 0 < c) (h : isAntiParallel e f = false) :
    isAntiParallel (c • e) (c • f) = false := by
  rw [← Bool.not_eq_true, C05_isAntiParallel_iff _ _ (vec_smul_ne_zero hc.ne' he)]
  rw [← Bool.not_eq_true, C05_isAntiParallel_iff e f he] at h
  rintro ⟨t, h1, h2⟩
  refine h ⟨t, h1, ?_⟩
  rw [smul_comm] at h2
  exact vec_smul_right_inj hc.ne' h2

theorem isAntiParallel_self {e : Vec K} (he : e ≠ 0) : isAntiParallel e e = false := by
  rw [← Bool.not_eq_true, C05_isAntiParallel_iff e e he]
  rintro ⟨t, h1, h2⟩
  have : (1 - t) • e = 0 := by rw [sub_smul, one_smul, ← h2, sub_self]
  rcases vec_smul_eq_zero this with h3 | h3
  · linarith
  · exact he h3

theorem Valid.subdivided {p : Poly K} (hp : Valid p) {k : ℕ} (hk : 1 ≤ k) {q : Poly K} (hlen : q.length = k * p.length)
    (harea : q.area = p.area)
    (hv : ∀ i < p.length, ∀ j < k, q.vertex (k * i + j) = (p.vertex i - p.vertex 0) + ((j : K) / k) • p.edge i ∧
      q.edge (k * i + j) = (k : K)⁻¹ • p.edge i) : Valid q := by
  have hk0 : (0 : K) < k := by exact_mod_cast hk
  have h3 := hp.len3
  have hpos : 0 < q.length := by rw [hlen]; exact Nat.mul_pos hk (by omega)
  have split : ∀ m, ∃ i j, i < p.length ∧ j < k ∧ m % q.length = k * i + j := by
    intro m
    refine ⟨m % q.length / k, m % q.length % k, ?_, Nat.mod_lt _ hk, (Nat.div_add_mod _ _).symm⟩
    rw [Nat.div_lt_iff_lt_mul (by omega), Nat.mul_comm, ← hlen]
    exact Nat.mod_lt _ hpos
  have emod : ∀ m, q.edge m = q.edge (m % q.length) := fun m => (edge_mod q m).symm
  have hside : ∀ i < p.length, ∀ j < k, ∀ x, x ∈ q.side (k * i + j) →
      ∃ t : K, (j : K) ≤ t ∧ t ≤ j + 1 ∧ x = (p.vertex i - p.vertex 0) + (t / k) • p.edge i := by
    rintro i hi j hj x ⟨t, h0, h1, rfl⟩
    refine ⟨j + t, by linarith, by linarith, ?_⟩
    change q.vertex (k * i + j) + t • q.edge (k * i + j) = _
    rw [(hv i hi j hj).1, (hv i hi j hj).2, add_div, add_smul, smul_smul, add_assoc, div_eq_mul_inv t]
  refine ⟨?_, by rw [harea]; exact hp.area_pos, fun m => ?_, fun m => ?_, fun m m' hA => ?_⟩
  · rw [hlen]
    calc 3 ≤ p.length := h3
      _ = 1 * p.length := (one_mul _).symm
      _ ≤ k * p.length := Nat.mul_le_mul_right _ hk
  · obtain ⟨i, j, hi, hj, hm⟩ := split m
    rw [emod, hm, (hv i hi j hj).2]
    exact vec_smul_ne_zero (inv_pos.2 hk0).ne' (hp.edge_ne i)
  · obtain ⟨i, j, hi, hj, hm⟩ := split m
    have h1 : q.edge m = (k : K)⁻¹ • p.edge i := by rw [emod, hm, (hv i hi j hj).2]
    have h2 : q.edge (m + 1) = q.edge (k * i + j + 1) := edge_congr q (by rw [← hm]; simp)
    rw [h1, h2]
    rcases Nat.lt_or_ge (j + 1) k with h4 | h4
    · rw [add_assoc, (hv i hi (j + 1) h4).2]
      exact isAntiParallel_self (vec_smul_ne_zero (inv_pos.2 hk0).ne' (hp.edge_ne i))
    · have h5 : q.edge (k * i + j + 1) = (k : K)⁻¹ • p.edge (i + 1) := by
        rw [show k * i + j + 1 = k * (i + 1) by rw [Nat.mul_add]; omega]
        rcases Nat.lt_or_ge (i + 1) p.length with h6 | h6
        · exact (hv (i + 1) h6 0 hk).2
        · have : i + 1 = p.length := by omega
          rw [this, ← hlen]
          rw [edge_congr q (i := q.length) (j := 0) (by simp), edge_congr p (i := p.length) (j := 0) (by simp)]
          have := (hv 0 (by omega) 0 hk).2
          simpa using this
      rw [h5]
      exact isAntiParallel_smul (hp.edge_ne i) (inv_pos.2 hk0) (hp.turn i)
  · rw [← side_mod q m, ← side_mod q m']
    obtain ⟨i, j, hi, hj, hm⟩ := split m
    obtain ⟨i', j', hi', hj', hm'⟩ := split m'
    have hA' : k * i + j ≠ k * i' + j' ∧ (k * i + j + 1) % q.length ≠ k * i' + j' ∧ k * i + j ≠ (k * i' + j' + 1) % q.length := by
      rw [← hm, ← hm']
      simpa [Apart] using hA
    clear hA
    rw [hm, hm']
    -- the edges `i` and `i + 1`
    have next : ∀ i j i' j', i < p.length → j < k → i' < p.length → j' < k → i' = (i + 1) % p.length →
        (k * i + j + 1) % q.length ≠ k * i' + j' → q.side (k * i + j) ∩ q.side (k * i' + j') = ∅ := by
      intro i j i' j' hi hj hi' hj' hii hne
      refine Set.eq_empty_iff_forall_notMem.2 ?_
      rintro x ⟨hx, hx'⟩
      obtain ⟨t, ht0, ht1, htx⟩ := hside i hi j hj x hx
      obtain ⟨t', ht0', ht1', htx'⟩ := hside i' hi' j' hj' x hx'
      have hvi : p.vertex i' = p.vertex (i + 1) := by rw [hii, vertex_mod]
      have hei : p.edge i' = p.edge (i + 1) := by rw [hii, edge_mod]
      have hj1 : (j : K) + 1 ≤ k := by exact_mod_cast hj
      have hj0' : (0 : K) ≤ j' := by exact_mod_cast Nat.zero_le j'
      have := corner_unique (hp.edge_ne i) (hp.edge_ne (i + 1)) (hp.turn i) (s := 1 - t / k) (t := t' / k)
        (by rw [sub_nonneg, div_le_one hk0]; linarith) (div_nonneg (by linarith) hk0.le) (by
          rw [htx, hvi, hei] at htx'
          rw [sub_smul, one_smul]
          have hd : p.edge i = p.vertex (i + 1) - p.vertex i := rfl
          have h9 : (t / k) • p.edge i = p.edge i + (t' / k) • p.edge (i + 1) := by
            conv_rhs => rw [hd]
            calc (t / k) • p.edge i = (p.vertex i - p.vertex 0 + (t / k) • p.edge i) - p.vertex i + p.vertex 0 := by abel
              _ = _ := by rw [htx']; abel
          rw [h9]
          abel)
      have e1 : t = k := by
        have := this.1
        rw [sub_eq_zero, eq_div_iff hk0.ne', one_mul] at this
        exact this.symm
      have e2 : t' = 0 := by
        rcases div_eq_zero_iff.1 this.2 with h | h
        · exact h
        · exact absurd h hk0.ne'
      rw [e1] at ht1
      rw [e2] at ht0'
      have f1 : k ≤ j + 1 := by exact_mod_cast ht1
      have f2 : j' = 0 := by
        have : j' ≤ 0 := by exact_mod_cast ht0'
        omega
      apply hne
      rw [show k * i + j + 1 = k * (i + 1) by rw [Nat.mul_add]; omega, hlen, Nat.mul_mod_mul_left, f2, hii, add_zero]
    by_cases hA : Apart p.length i i'
    · -- far away edges
      refine Set.eq_empty_iff_forall_notMem.2 ?_
      rintro x ⟨hx, hx'⟩
      have far : ∀ i j, i < p.length → j < k → x ∈ q.side (k * i + j) → p.vertex 0 + x ∈ p.side i := by
        intro i j hi hj hx
        obtain ⟨t, ht0, ht1, rfl⟩ := hside i hi j hj x hx
        have hj1 : (j : K) + 1 ≤ k := by exact_mod_cast hj
        have hj0 : (0 : K) ≤ j := by exact_mod_cast Nat.zero_le j
        refine ⟨t / k, div_nonneg (by linarith) hk0.le, (div_le_one hk0).2 (by linarith), ?_⟩
        change _ = p.vertex i + (t / k) • p.edge i
        abel
      exact Set.eq_empty_iff_forall_notMem.1 (hp.simple i i' hA) _ ⟨far i j hi hj hx, far i' j' hi' hj' hx'⟩
    · unfold Apart at hA
      rw [Nat.mod_eq_of_lt hi, Nat.mod_eq_of_lt hi'] at hA
      by_cases e1 : i = i'
      · subst e1
        refine Set.eq_empty_iff_forall_notMem.2 ?_
        rintro x ⟨hx, hx'⟩
        obtain ⟨t, ht0, ht1, htx⟩ := hside i hi j hj x hx
        obtain ⟨t', ht0', ht1', htx'⟩ := hside i hi' j' hj' x hx'
        rw [htx] at htx'
        have h5 := vec_smul_left_inj (hp.edge_ne i) (add_left_cancel htx')
        have h6 : t = t' := by
          rw [div_eq_div_iff hk0.ne' hk0.ne'] at h5
          exact mul_right_cancel₀ hk0.ne' h5
        subst h6
        have g1 : j ≤ j' + 1 := by exact_mod_cast le_trans ht0 ht1'
        have g2 : j' ≤ j + 1 := by exact_mod_cast le_trans ht0' ht1
        have lt1 : k * i + j < q.length := by rw [← hm]; exact Nat.mod_lt _ hpos
        have lt2 : k * i + j' < q.length := by rw [← hm']; exact Nat.mod_lt _ hpos
        rcases Nat.lt_trichotomy j j' with g | g | g
        · have : j' = j + 1 := by omega
          rw [this] at lt2
          apply hA'.2.1
          rw [this, ← add_assoc, Nat.mod_eq_of_lt (by omega)]
        · exact hA'.1 (by rw [g])
        · have : j = j' + 1 := by omega
          rw [this] at lt1
          apply hA'.2.2
          rw [this, ← add_assoc, Nat.mod_eq_of_lt (by omega)]
      · by_cases e2 : (i + 1) % p.length = i'
        · exact next i j i' j' hi hj hi' hj' e2.symm hA'.2.1
        · have e3 : i = (i' + 1) % p.length := by
            by_contra h; exact hA ⟨e1, e2, h⟩
          rw [Set.inter_comm]
          exact next i' j' i j hi' hj' hi hj e3 (fun h => hA'.2.2 h.symm)

/-- **C13.** `subdivide_edges(k)` of a polygon works for every `k ≥ 1`; the result is again a polygon. -/
theorem C13_subdivide_edges_total {p : Poly K} (hp : Valid p) {k : ℕ} (hk : 1 ≤ k) :
    ∃ q, subdivideEdges p k = .ok q ∧ Valid q := by
  set es := (p.edges.map (fun e => List.replicate k ((k : K)⁻¹ • e))).flatten with hes
  obtain ⟨h1, h2, h3⟩ := subdivided_spec p hk _ rfl
  have hv := hp.subdivided hk h1 h2 h3
  refine ⟨_, ?_, hv⟩
  unfold subdivideEdges
  rw [if_neg (by omega), ← hes]
  have hlen : es.length = k * p.length := by
    rw [← hes, List.length_dropLast, partialSums_length] at h1
    omega
  unfold ofEdges
  rw [if_neg]
  swap
  · have := hv.len3
    rw [h1] at this
    omega
  dsimp only
  rw [if_neg]
  swap
  · rw [partialSums_getLast, hes, subdivided_sum k hk, edges_closed]
    simp
  rw [(check_iff _ hv.len3).2 hv]
  rfl

example : Valid exSquare ∧ 1 ≤ 3 := ⟨(check_iff _ (by decide)).1 (by decide +kernel), by norm_num⟩

end Poly
end Flat
