import Verif.Lemmas.EarTotal

/-!
# Counting the edges to the right of a point
-/

namespace Flat
namespace Poly
variable {K : Type} [Field K] [LinearOrder K] [IsStrictOrderedRing K]

/-- How an edge from `a` to `b` counts for the winding number around `q`. -/
def wind (q a b : Vec K) : ℤ :=
  (if a.2 < q.2 ∧ b.2 ≥ q.2 ∧ ccw (b - a) (q - a) > 0 then 1 else 0) -
  (if a.2 ≥ q.2 ∧ b.2 < q.2 ∧ ccw (b - a) (q - a) < 0 then 1 else 0)

theorem ccw_back (q a b : Vec K) : ccw (a - b) (q - b) = -ccw (b - a) (q - a) := by
  simp only [ccw, Prod.fst_sub, Prod.snd_sub]; ring

theorem wind_swap (q a b : Vec K) : wind q a b = -wind q b a := by
  unfold wind
  rw [ccw_back q a b]
  generalize ccw (b - a) (q - a) = x
  have e1 : (b.2 < q.2 ∧ a.2 ≥ q.2 ∧ -x > 0) ↔ (a.2 ≥ q.2 ∧ b.2 < q.2 ∧ x < 0) := by
    rw [gt_iff_lt, neg_pos]; tauto
  have e2 : (b.2 ≥ q.2 ∧ a.2 < q.2 ∧ -x < 0) ↔ (a.2 < q.2 ∧ b.2 ≥ q.2 ∧ x > 0) := by
    rw [gt_iff_lt, neg_lt_zero]; tauto
  simp only [e1, e2]
  ring

/-- The edge runs down, or to the left: then the points next to it on its left are to the right of the points on it. -/
def Desc (e : Vec K) : Prop := e.2 < 0 ∨ (e.2 = 0 ∧ e.1 < 0)

theorem wind_tri_aux {q a b c : Vec K} (hD : 0 < ori 1 a b c) : ori 1 b c q * (a.2 - q.2) + ori 1 c a q * (b.2 - q.2) + ori 1 a b q * (c.2 - q.2) = 0 := by
  have := congrArg Prod.snd (bary_sum 1 a b c q)
  simpa using this

/-- What is to be shown about the winding number of a triangle. -/
def WindTri (q a b c : Vec K) : Prop :=
    (wind q a b + wind q b c + wind q c a = 0 ∨ wind q a b + wind q b c + wind q c a = 1) ∧
    (wind q a b + wind q b c + wind q c a = 1 ↔ (0 < ori 1 a b q ∨ (ori 1 a b q = 0 ∧ Desc (b - a))) ∧
      (0 < ori 1 b c q ∨ (ori 1 b c q = 0 ∧ Desc (c - b))) ∧ (0 < ori 1 c a q ∨ (ori 1 c a q = 0 ∧ Desc (a - c))))

theorem WindTri.rot {q a b c : Vec K} (h : WindTri q b c a) : WindTri q a b c := by
  unfold WindTri at h ⊢
  have e : wind q a b + wind q b c + wind q c a = wind q b c + wind q c a + wind q a b := by ring
  rw [e]
  exact ⟨h.1, h.2.trans ⟨fun ⟨x, y, z⟩ => ⟨z, x, y⟩, fun ⟨x, y, z⟩ => ⟨y, z, x⟩⟩⟩

theorem wind_up {q a b : Vec K} (h1 : a.2 < q.2) (h2 : q.2 ≤ b.2) : wind q a b = if 0 < ori 1 a b q then 1 else 0 := by
  unfold wind
  have : ¬ a.2 ≥ q.2 := not_le.2 h1
  simp [h1, h2, this, ori]

theorem wind_down {q a b : Vec K} (h1 : q.2 ≤ a.2) (h2 : b.2 < q.2) : wind q a b = if ori 1 a b q < 0 then -1 else 0 := by
  unfold wind
  have : ¬ a.2 < q.2 := not_lt.2 h1
  simp only [this, false_and, if_false, ge_iff_le, h1, h2, true_and, ori, one_mul]
  split_ifs <;> rfl

theorem wind_below {q a b : Vec K} (h1 : a.2 < q.2) (h2 : b.2 < q.2) : wind q a b = 0 := by
  unfold wind
  have : ¬ a.2 ≥ q.2 := not_le.2 h1
  have : ¬ b.2 ≥ q.2 := not_le.2 h2
  simp [*]

theorem wind_above {q a b : Vec K} (h1 : q.2 ≤ a.2) (h2 : q.2 ≤ b.2) : wind q a b = 0 := by
  unfold wind
  have : ¬ a.2 < q.2 := not_lt.2 h1
  have : ¬ b.2 < q.2 := not_lt.2 h2
  simp [*]

theorem desc_nonneg {q a b : Vec K} (h : 0 < ori 1 a b q ∨ (ori 1 a b q = 0 ∧ Desc (b - a))) : 0 ≤ ori 1 a b q := by
  rcases h with h | h
  · exact h.le
  · exact h.1.ge

theorem ori_eq (a b c : Vec K) : ori 1 a b c = (b.1 - a.1) * (c.2 - a.2) - (b.2 - a.2) * (c.1 - a.1) := by simp [ori, ccw]

theorem windTri_one {q a b c : Vec K} (hD : 0 < ori 1 a b c) (ha : a.2 < q.2) (hb : q.2 ≤ b.2) (hc : q.2 ≤ c.2) : WindTri q a b c := by
  have h1 := wind_tri_aux (q := q) hD
  have h2 := ori_add 1 a b c q
  have hh := ori_eq a b c
  unfold WindTri
  rw [wind_up ha hb, wind_above hb hc, wind_down hc ha]
  have d1 : ¬ Desc (b - a) := by
    simp only [Desc, Prod.fst_sub, Prod.snd_sub]
    rintro (h | h) <;> linarith [h]
  have d3 : Desc (a - c) := by
    left; simp only [Prod.snd_sub]; linarith
  have d2 : c.2 = q.2 → Desc (c - b) := by
    intro e
    simp only [Desc, Prod.fst_sub, Prod.snd_sub]
    rcases hb.lt_or_eq with hb | hb
    · left; linarith
    · right
      refine ⟨by linarith, ?_⟩
      rw [hh, e, ← hb] at hD
      nlinarith
  generalize ori 1 a b q = C at *
  generalize ori 1 b c q = A at *
  generalize ori 1 c a q = B at *
  have h3 : B < 0 → 0 < C := by
    intro hB
    by_contra hC
    have : 0 < A := by linarith
    nlinarith
  by_cases hC : 0 < C
  · rw [if_pos hC]
    by_cases hB : B < 0
    · rw [if_pos hB]
      refine ⟨Or.inl (by simp), ?_⟩
      constructor
      · intro h; simp at h
      · rintro ⟨-, -, h | h⟩
        · exact absurd h (not_lt.2 hB.le)
        · exact absurd h.1 hB.ne
    · rw [if_neg hB]
      refine ⟨Or.inr (by simp), ?_⟩
      simp only [add_zero, true_iff]
      rw [not_lt] at hB
      refine ⟨Or.inl hC, ?_, ?_⟩
      · have hA : 0 ≤ A := by
          by_contra hA
          nlinarith [mul_nonneg hB (sub_nonneg.2 hb), mul_nonneg hC.le (sub_nonneg.2 hc)]
        rcases hA.lt_or_eq with hA | hA
        · exact Or.inl hA
        · refine Or.inr ⟨hA.symm, d2 ?_⟩
          rw [← hA] at h1
          have := mul_nonneg hB (sub_nonneg.2 hb)
          have h5 := mul_nonneg hC.le (sub_nonneg.2 hc)
          have h6 : C * (c.2 - q.2) = 0 := by linarith
          have := (mul_eq_zero.1 h6).resolve_left hC.ne'
          linarith
      · rcases hB.lt_or_eq with hB | hB
        · exact Or.inl hB
        · exact Or.inr ⟨hB.symm, d3⟩
  · have hB : ¬ B < 0 := fun h => hC (h3 h)
    rw [if_neg hC, if_neg hB]
    refine ⟨Or.inl (by simp), ?_⟩
    simp only [add_zero, zero_ne_one, false_iff, not_and]
    rintro (h | h)
    · exact absurd h hC
    · exact absurd h.2 d1

theorem windTri_two {q a b c : Vec K} (hD : 0 < ori 1 a b c) (ha : a.2 < q.2) (hb : b.2 < q.2) (hc : q.2 ≤ c.2) : WindTri q a b c := by
  have h1 := wind_tri_aux (q := q) hD
  have h2 := ori_add 1 a b c q
  unfold WindTri
  rw [wind_below ha hb, wind_up hb hc, wind_down hc ha]
  have d2 : ¬ Desc (c - b) := by
    simp only [Desc, Prod.fst_sub, Prod.snd_sub]
    rintro (h | h) <;> linarith [h]
  have d3 : Desc (a - c) := by
    left; simp only [Prod.snd_sub]; linarith
  generalize ori 1 a b q = C at *
  generalize ori 1 b c q = A at *
  generalize ori 1 c a q = B at *
  have h3 : B < 0 → 0 < A := by
    intro hB
    by_contra hA
    have : 0 < C := by linarith
    nlinarith
  by_cases hA : 0 < A
  · rw [if_pos hA]
    by_cases hB : B < 0
    · rw [if_pos hB]
      refine ⟨Or.inl (by simp), ?_⟩
      constructor
      · intro h; simp at h
      · rintro ⟨-, -, h | h⟩
        · exact absurd h (not_lt.2 hB.le)
        · exact absurd h.1 hB.ne
    · rw [if_neg hB]
      refine ⟨Or.inr (by simp), ?_⟩
      simp only [zero_add, add_zero, true_iff]
      rw [not_lt] at hB
      refine ⟨Or.inl ?_, Or.inl hA, ?_⟩
      · by_contra hC
        rw [not_lt] at hC
        nlinarith
      · rcases hB.lt_or_eq with hB | hB
        · exact Or.inl hB
        · exact Or.inr ⟨hB.symm, d3⟩
  · have hB : ¬ B < 0 := fun h => hA (h3 h)
    rw [if_neg hA, if_neg hB]
    refine ⟨Or.inl (by simp), ?_⟩
    simp only [add_zero, zero_ne_one, false_iff, not_and]
    rintro - (h | h)
    · exact absurd h hA
    · exact absurd h.2 d2

theorem windTri_three {q a b c : Vec K} (hD : 0 < ori 1 a b c) (ha : a.2 < q.2) (hb : b.2 < q.2) (hc : c.2 < q.2) : WindTri q a b c := by
  have h1 := wind_tri_aux (q := q) hD
  have h2 := ori_add 1 a b c q
  unfold WindTri
  rw [wind_below ha hb, wind_below hb hc, wind_below hc ha]
  refine ⟨Or.inl rfl, ?_⟩
  simp only [add_zero, zero_ne_one, false_iff]
  rintro ⟨g1, g2, g3⟩
  have g1 := desc_nonneg g1
  have g2 := desc_nonneg g2
  have g3 := desc_nonneg g3
  have f1 := mul_nonneg g2 (sub_nonneg.2 ha.le)
  have f2 := mul_nonneg g3 (sub_nonneg.2 hb.le)
  have f3 := mul_nonneg g1 (sub_nonneg.2 hc.le)
  have f4 : ori 1 b c q * (q.2 - a.2) = 0 := by linarith
  have f5 : ori 1 c a q * (q.2 - b.2) = 0 := by linarith
  have f6 : ori 1 a b q * (q.2 - c.2) = 0 := by linarith
  have := (mul_eq_zero.1 f4).resolve_right (by linarith)
  have := (mul_eq_zero.1 f5).resolve_right (by linarith)
  have := (mul_eq_zero.1 f6).resolve_right (by linarith)
  linarith

theorem windTri_zero {q a b c : Vec K} (hD : 0 < ori 1 a b c) (ha : q.2 ≤ a.2) (hb : q.2 ≤ b.2) (hc : q.2 ≤ c.2) : WindTri q a b c := by
  have key : ∀ a b c : Vec K, 0 < ori 1 a b c → q.2 ≤ a.2 → q.2 ≤ b.2 → q.2 ≤ c.2 → 0 < ori 1 b c q →
      (0 < ori 1 a b q ∨ (ori 1 a b q = 0 ∧ Desc (b - a))) → (0 < ori 1 c a q ∨ (ori 1 c a q = 0 ∧ Desc (a - c))) → False := by
    intro a b c hD ha hb hc g2 g1 g3
    have h1 := wind_tri_aux (q := q) hD
    have hh := ori_eq a b c
    have n1 := desc_nonneg g1
    have n3 := desc_nonneg g3
    have f1 := mul_nonneg g2.le (sub_nonneg.2 ha)
    have f2 := mul_nonneg n3 (sub_nonneg.2 hb)
    have f3 := mul_nonneg n1 (sub_nonneg.2 hc)
    have f4 : ori 1 b c q * (a.2 - q.2) = 0 := by linarith
    have f5 : ori 1 c a q * (b.2 - q.2) = 0 := by linarith
    have f6 : ori 1 a b q * (c.2 - q.2) = 0 := by linarith
    have ea := (mul_eq_zero.1 f4).resolve_left g2.ne'
    simp only [Desc, Prod.fst_sub, Prod.snd_sub] at g1 g3
    rcases g1 with g1 | ⟨g1, hd⟩
    · have ec := (mul_eq_zero.1 f6).resolve_left g1.ne'
      rcases g3 with g3 | ⟨g3, hd⟩
      · have eb := (mul_eq_zero.1 f5).resolve_left g3.ne'
        have : ori 1 a b c = 0 := by
          rw [hh]
          have : c.2 - a.2 = 0 := by linarith
          have h' : b.2 - a.2 = 0 := by linarith
          rw [this, h']; ring
        linarith
      · rcases hd with hd | hd
        · linarith
        · have : c.2 - a.2 = 0 := by linarith
          rw [hh, this] at hD
          nlinarith
    · rcases hd with hd | hd
      · linarith
      · rw [hh, hd.1] at hD
        nlinarith
  unfold WindTri
  rw [wind_above ha hb, wind_above hb hc, wind_above hc ha]
  refine ⟨Or.inl rfl, ?_⟩
  simp only [add_zero, zero_ne_one, false_iff]
  rintro ⟨g1, g2, g3⟩
  have h2 := ori_add 1 a b c q
  rcases (desc_nonneg g2).lt_or_eq with f2 | f2
  · exact key a b c hD ha hb hc f2 g1 g3
  · rcases (desc_nonneg g3).lt_or_eq with f3 | f3
    · exact key b c a (by rwa [ori_rot]) hb hc ha f3 g2 g1
    · exact key c a b (by rwa [← ori_rot]) hc ha hb (by linarith) g3 g2

/-- The winding number of a triangle is 0 or 1; it is 1 for the points inside, and those on the edges that run down. -/
theorem wind_tri {q a b c : Vec K} (hD : 0 < ori 1 a b c) : WindTri q a b c := by
  have hD1 : 0 < ori 1 b c a := by rwa [ori_rot]
  have hD2 : 0 < ori 1 c a b := by rwa [← ori_rot]
  rcases lt_or_ge a.2 q.2 with ha | ha <;> rcases lt_or_ge b.2 q.2 with hb | hb <;> rcases lt_or_ge c.2 q.2 with hc | hc
  · exact windTri_three hD ha hb hc
  · exact windTri_two hD ha hb hc
  · exact (windTri_two hD2 hc ha hb).rot.rot
  · exact windTri_one hD ha hb hc
  · exact (windTri_two hD1 hb hc ha).rot
  · exact (windTri_one hD1 hb hc ha).rot
  · exact (windTri_one hD2 hc ha hb).rot.rot
  · exact windTri_zero hD ha hb hc

/-- The winding number of a triangle of indices. -/
def windT (f : ℕ → Vec K) (q : Vec K) (t : Triple) : ℤ := wind q (f t.1) (f t.2.1) + wind q (f t.2.1) (f t.2.2) + wind q (f t.2.2) (f t.1)

theorem desc_near {q a b : Vec K} (h : 0 < ori 1 a b q ∨ (ori 1 a b q = 0 ∧ Desc (b - a))) :
    ∃ n0 : K, 0 < n0 ∧ ∀ n, 0 < n → n ≤ n0 → ∃ e0 : K, 0 < e0 ∧ ∀ r, 0 < r → r ≤ e0 → 0 < ori 1 a b (q + r • (1, -n)) := by
  rcases h with h | ⟨h0, hd⟩
  · refine ⟨1, one_pos, fun n _ _ => ?_⟩
    obtain ⟨e, he, hq⟩ := exists_eps h (1 * ccw (b - a) (1, -n))
    refine ⟨e, he, fun r r0 r1 => ?_⟩
    rw [ori_dir]
    exact hq r r0.le r1
  · have key : ∃ n0 : K, 0 < n0 ∧ ∀ n, 0 < n → n ≤ n0 → 0 < ccw (b - a) (1, -n) := by
      rcases hd with hd | ⟨h1, h2⟩
      · obtain ⟨e, he, hq⟩ := exists_eps (neg_pos.2 hd) (-(b - a).1)
        refine ⟨e, he, fun n n0 n1 => ?_⟩
        have := hq n n0.le n1
        simp only [ccw]
        linarith
      · refine ⟨1, one_pos, fun n n0 _ => ?_⟩
        simp only [ccw, h1]
        nlinarith
    obtain ⟨n0, hn0, hq⟩ := key
    refine ⟨n0, hn0, fun n n1 n2 => ⟨1, one_pos, fun r r0 _ => ?_⟩⟩
    rw [ori_dir, h0, zero_add, one_mul]
    exact mul_pos r0 (hq n n1 n2)

/-- Two triangles with winding number 1 overlap. -/
theorem wind_overlap {f : ℕ → Vec K} {q : Vec K} {t t' : Triple} (ht : 0 < ori 1 (f t.1) (f t.2.1) (f t.2.2))
    (ht' : 0 < ori 1 (f t'.1) (f t'.2.1) (f t'.2.2)) (h : windT f q t = 1) (h' : windT f q t' = 1) :
    ∃ q', InOpen 1 (f t.1) (f t.2.1) (f t.2.2) q' ∧ InOpen 1 (f t'.1) (f t'.2.1) (f t'.2.2) q' := by
  obtain ⟨a1, a2, a3⟩ := (wind_tri ht).2.1 h
  obtain ⟨b1, b2, b3⟩ := (wind_tri ht').2.1 h'
  have hall := common_eps [(f t.1, f t.2.1), (f t.2.1, f t.2.2), (f t.2.2, f t.1), (f t'.1, f t'.2.1), (f t'.2.1, f t'.2.2), (f t'.2.2, f t'.1)]
    (fun x (n : K) => ∃ e0 : K, 0 < e0 ∧ ∀ r, 0 < r → r ≤ e0 → 0 < ori 1 x.1 x.2 (q + r • (1, -n)))
    (by
      simp only [List.forall_mem_cons, List.not_mem_nil, false_imp_iff, implies_true, and_true]
      exact ⟨desc_near a1, desc_near a2, desc_near a3, desc_near b1, desc_near b2, desc_near b3⟩)
  obtain ⟨n, hn, hq⟩ := hall
  have hall := common_eps _ (fun x (r : K) => 0 < ori 1 x.1 x.2 (q + r • (1, -n))) (fun x hx => hq x hx n hn le_rfl)
  obtain ⟨r, hr, hq⟩ := hall
  have := fun x hx => hq x hx r hr le_rfl
  simp only [List.forall_mem_cons, List.not_mem_nil, false_imp_iff, implies_true, and_true] at this
  obtain ⟨g1, g2, g3, g4, g5, g6⟩ := this
  exact ⟨q + r • (1, -n), ⟨g1, g2, g3⟩, ⟨g4, g5, g6⟩⟩

theorem winding_range (p : Poly K) (q : Vec K) :
    p.winding q = ((List.range p.length).map (fun i => wind q (p.vertex i) (p.vertex ((i + 1) % p.length)))).sum := by
  unfold winding
  congr 1
  refine List.map_congr_left fun i _ => ?_
  rw [vertex_mod]
  rfl

/-- The winding number is the sum over the triangles. -/
theorem winding_sum {p : Poly K} {T : List Triple}
    (h : ∃ D : List (ℕ × ℕ), List.Perm (T.flatMap tEdges) (cyc (List.range p.length) ++ D ++ D.map Prod.swap)) (q : Vec K) :
    p.winding q = (T.map (windT p.vertex q)).sum := by
  rw [winding_range, ← perm_sum h (fun a b => wind q (p.vertex a) (p.vertex b)) (fun a b => wind_swap _ _ _)]
  clear h
  induction T with
  | nil => rfl
  | cons t T ih =>
    rw [List.flatMap_cons, List.map_append, List.sum_append, ih, List.map_cons, List.sum_cons]
    congr 1
    simp [tEdges, windT, add_assoc]

/-- At most one triangle counts. -/
theorem sum_le_one {f : ℕ → Vec K} {T : List Triple} (hpos : ∀ t ∈ T, 0 < ori 1 (f t.1) (f t.2.1) (f t.2.2)) (hd : Disj f 1 T) (q : Vec K) :
    (T.map (windT f q)).sum = 0 ∧ (∀ t ∈ T, windT f q t = 0) ∨ (T.map (windT f q)).sum = 1 ∧ ∃ t ∈ T, windT f q t = 1 := by
  induction T with
  | nil => left; simp
  | cons t T ih =>
    have hd' := List.pairwise_cons.1 hd
    have h1 := (wind_tri (q := q) (hpos t (by simp))).1
    change windT f q t = 0 ∨ windT f q t = 1 at h1
    rw [List.map_cons, List.sum_cons]
    rcases ih (fun t ht => hpos t (by simp [ht])) hd'.2 with ⟨h2, h3⟩ | ⟨h2, t', ht', h3⟩
    · rcases h1 with h1 | h1
      · left
        refine ⟨by rw [h1, h2]; rfl, ?_⟩
        intro x hx
        rcases List.mem_cons.1 hx with rfl | hx
        · exact h1
        · exact h3 x hx
      · right
        exact ⟨by rw [h1, h2]; rfl, t, by simp, h1⟩
    · have h4 : windT f q t = 0 := by
        rcases h1 with h1 | h1
        · exact h1
        · exfalso
          obtain ⟨q', g1, g2⟩ := wind_overlap (hpos t (by simp)) (hpos t' (by simp [ht'])) h1 h3
          exact hd'.1 t' ht' q' g1 g2
      right
      exact ⟨by rw [h4, h2]; rfl, t', by simp [ht'], h3⟩

/-- Conversely, triangles do not overlap if at most one counts. -/
theorem disj_of_sum {f : ℕ → Vec K} {T : List Triple} (hpos : ∀ t ∈ T, 0 < ori 1 (f t.1) (f t.2.1) (f t.2.2))
    (h : ∀ q, (T.map (windT f q)).sum ≤ 1) : Disj f 1 T := by
  have hnn : ∀ (T : List Triple), (∀ t ∈ T, 0 < ori 1 (f t.1) (f t.2.1) (f t.2.2)) → ∀ q, 0 ≤ (T.map (windT f q)).sum := by
    intro T hpos q
    refine List.sum_nonneg fun x hx => ?_
    obtain ⟨t, ht, rfl⟩ := List.mem_map.1 hx
    have h1 := (wind_tri (q := q) (hpos t ht)).1
    change windT f q t = 0 ∨ windT f q t = 1 at h1
    omega
  have hopen : ∀ t ∈ T, ∀ q, InOpen 1 (f t.1) (f t.2.1) (f t.2.2) q → windT f q t = 1 := by
    intro t ht q hq
    exact (wind_tri (hpos t ht)).2.2 ⟨Or.inl hq.1, Or.inl hq.2.1, Or.inl hq.2.2⟩
  unfold Disj
  induction T with
  | nil => exact List.Pairwise.nil
  | cons t T ih =>
    refine List.pairwise_cons.2 ⟨fun t' ht' q h1 h2 => ?_, ih (fun x hx => hpos x (by simp [hx])) (fun q => ?_) (fun x hx => hopen x (by simp [hx]))⟩
    · have g1 := hopen t (by simp) q h1
      have g2 := hopen t' (by simp [ht']) q h2
      have := h q
      rw [List.map_cons, List.sum_cons, g1] at this
      obtain ⟨l1, l2, rfl⟩ := List.append_of_mem ht'
      rw [List.map_append, List.sum_append, List.map_cons, List.sum_cons, g2] at this
      have n1 := hnn l1 (fun x hx => hpos x (by simp [hx])) q
      have n2 := hnn l2 (fun x hx => hpos x (by simp [hx])) q
      omega
    · have := h q
      rw [List.map_cons, List.sum_cons] at this
      have h1 := (wind_tri (q := q) (hpos t (by simp))).1
      change windT f q t = 0 ∨ windT f q t = 1 at h1
      omega

theorem desc_total {e : Vec K} (h : e ≠ 0) : Desc e ∨ Desc (-e) := by
  unfold Desc
  simp only [Prod.fst_neg, Prod.snd_neg, neg_eq_zero, neg_lt_zero]
  rcases lt_trichotomy e.2 0 with h1 | h1 | h1
  · exact Or.inl (Or.inl h1)
  · rcases lt_trichotomy e.1 0 with h2 | h2 | h2
    · exact Or.inl (Or.inr ⟨h1, h2⟩)
    · exact absurd (Prod.ext h2 h1) h
    · exact Or.inr (Or.inr ⟨h1, h2⟩)
  · exact Or.inr (Or.inl h1)

end Poly
end Flat
