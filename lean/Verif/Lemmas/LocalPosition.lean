import Verif.Props.PointInPolygon
import Verif.Lemmas.PolyMap
import Verif.Props.Tangent

/-!
# The position of points close to a point of the boundary of a polygon
-/

namespace Flat
namespace Poly
variable {K : Type} [Field K] [LinearOrder K] [IsStrictOrderedRing K]

theorem interior_of {p : Poly K} (hv : p.Valid) {q : Vec K} (h1 : p.pointPosition q ≠ .outside) (h2 : ∀ i, q ∉ p.side i) :
    p.pointPosition q = .interior := by
  cases h : p.pointPosition q with
  | interior => rfl
  | outside => exact absurd h h1
  | vertex i => exact absurd ((pointPosition_boundary hv).2 (.inl ⟨i, h⟩)) (by push Not; exact h2)
  | edgeInterior i => exact absurd ((pointPosition_boundary hv).2 (.inr ⟨i, h⟩)) (by push Not; exact h2)

theorem Valid.exists_isTri {p : Poly K} (hv : p.Valid) : ∃ T, IsTri p T := by
  obtain ⟨T, hT, -⟩ := hv.exists_tri_disj
  exact ⟨T, hT.perm, fun t ht => hT.pos _ _ _ (Or.inl ht), fun x hx => by
    obtain ⟨c, hc⟩ := mem_edges.1 (show (x.1, x.2) ∈ _ from hx)
    exact List.mem_range.1 (hT.mem _ _ _ hc)⟩

/-- Orientation preserving affine maps keep the position of points. -/
theorem pointPosition_image {p q : Poly K} (hv : p.Valid) (hq : q.Valid) (hl : q.length = p.length) {F : Vec K → Vec K} {g : Mat2 K}
    (hF : ∀ a b, F b - F a = g.mulVec (b - a)) (hg : 0 < g.det) (hvx : ∀ i, q.vertex i = F (p.vertex i)) (x : Vec K) :
    q.pointPosition (F x) = p.pointPosition x := by
  have hori : ∀ a b c, ori 1 (F a) (F b) (F c) = g.det * ori 1 a b c := by
    intro a b c
    unfold ori
    rw [hF, hF, ccw_mulVec]; ring
  obtain ⟨T, hT⟩ := hv.exists_isTri
  have hT' : IsTri q T := by
    refine ⟨by rw [hl]; exact hT.perm, fun t ht => ?_, by rw [hl]; exact hT.mem⟩
    rw [hvx, hvx, hvx, hori]
    exact mul_pos hg (hT.pos t ht)
  have hreg : Region q.vertex 1 T (F x) ↔ Region p.vertex 1 T x := by
    unfold Region InTri
    simp only [hvx, hori, mul_nonneg_iff_of_pos_left hg]
  have hside : ∀ i, F x ∈ q.side i → x ∈ p.side i := by
    intro i hi
    unfold side at hi
    rw [hvx, hvx] at hi
    obtain ⟨y, hy, e⟩ := mem_segPts_image hF hi
    rw [image_inj hF hg.ne' e]
    exact hy
  cases h : p.pointPosition x with
  | outside =>
    rw [position_outside_iff hq hT', hreg, ← position_outside_iff hv hT]
    exact h
  | interior =>
    refine interior_of hq ?_ fun i hi => ?_
    · rw [Ne, position_outside_iff hq hT', hreg, ← position_outside_iff hv hT, h]
      simp
    · have := (pointPosition_boundary hv).1 ⟨i, hside i hi⟩
      rw [h] at this
      simp at this
  | vertex i =>
    obtain ⟨h1, h2⟩ := (C12_vertex hv x i).1 h
    rw [C12_vertex hq, hl, hvx, h2]
    exact ⟨h1, rfl⟩
  | edgeInterior i =>
    obtain ⟨h1, t, t0, t1, h2⟩ := (C12_edge hv x i).1 h
    rw [C12_edge hq, hl]
    refine ⟨h1, t, t0, t1, ?_⟩
    have e := hF (p.vertex i) x
    rw [h2, add_sub_cancel_left, Mat2.mulVec_smul] at e
    unfold edge at e ⊢
    rw [h2, hvx, hvx, hF, ← sub_eq_iff_eq_add']
    exact e

/-- Points close to a point that is not on a segment. -/
theorem off_segment {a b v : Vec K} (h : v ∉ segPts (a, b)) (x d : Vec K) :
    ∃ ε : K, 0 < ε ∧ ∀ s t : K, 0 ≤ s → s ≤ ε → 0 ≤ t → t ≤ ε → v + s • x + t • d ∉ segPts (a, b) := by
  -- a half plane
  have key : ∀ m n c : K, 0 < m * v.1 + n * v.2 + c → (m * a.1 + n * a.2 + c ≤ 0) → (m * b.1 + n * b.2 + c ≤ 0) →
      ∃ ε : K, 0 < ε ∧ ∀ s t : K, 0 ≤ s → s ≤ ε → 0 ≤ t → t ≤ ε → v + s • x + t • d ∉ segPts (a, b) := by
    intro m n c hpos ha hb
    obtain ⟨e1, e10, h1⟩ := exists_eps (half_pos hpos) (m * x.1 + n * x.2)
    obtain ⟨e2, e20, h2⟩ := exists_eps (half_pos hpos) (m * d.1 + n * d.2)
    refine ⟨min e1 e2, lt_min e10 e20, fun s t s0 s1 t0 t1 hin => ?_⟩
    have k1 := h1 s s0 (s1.trans (min_le_left _ _))
    have k2 := h2 t t0 (t1.trans (min_le_right _ _))
    obtain ⟨r, r0, r1, hr⟩ := hin
    have hr1 := congrArg Prod.fst hr
    have hr2 := congrArg Prod.snd hr
    simp only [Prod.fst_add, Prod.snd_add, Prod.smul_fst, Prod.smul_snd, smul_eq_mul, Prod.fst_sub, Prod.snd_sub] at hr1 hr2
    have : (m * v.1 + n * v.2 + c) / 2 + s * (m * x.1 + n * x.2) + ((m * v.1 + n * v.2 + c) / 2 + t * (m * d.1 + n * d.2)) =
        (1 - r) * (m * a.1 + n * a.2 + c) + r * (m * b.1 + n * b.2 + c) := by
      linear_combination m * hr1 + n * hr2
    nlinarith [mul_nonneg (sub_nonneg.2 r1) (neg_nonneg.2 ha), mul_nonneg r0 (neg_nonneg.2 hb)]
  rcases lt_trichotomy (ccw (b - a) (v - a)) 0 with h0 | h0 | h0
  · refine key (b.2 - a.2) (-(b.1 - a.1)) (-((b.2 - a.2) * a.1 - (b.1 - a.1) * a.2)) ?_ ?_ ?_
    · simp only [ccw, Prod.fst_sub, Prod.snd_sub] at h0; linarith
    · exact le_of_eq (by ring)
    · exact le_of_eq (by ring)
  · -- on the line
    by_cases hab : b - a = 0
    · have hba : b = a := sub_eq_zero.1 hab
      have hva : v - a ≠ 0 := fun e => h (by rw [sub_eq_zero.1 e]; exact left_mem_segPts _ _)
      have hn := normSq_pos hva
      simp only [normSq, Prod.fst_sub, Prod.snd_sub] at hn
      refine key (v.1 - a.1) (v.2 - a.2) (-((v.1 - a.1) * a.1 + (v.2 - a.2) * a.2)) ?_ ?_ ?_
      · linarith
      · exact le_of_eq (by ring)
      · rw [hba]; exact le_of_eq (by ring)
    have hn := normSq_pos hab
    simp only [normSq, Prod.fst_sub, Prod.snd_sub] at hn
    simp only [ccw, Prod.fst_sub, Prod.snd_sub] at h0
    by_cases h1 : (b.1 - a.1) * (v.1 - a.1) + (b.2 - a.2) * (v.2 - a.2) < 0
    · refine key (-(b.1 - a.1)) (-(b.2 - a.2)) ((b.1 - a.1) * a.1 + (b.2 - a.2) * a.2) ?_ ?_ ?_ <;> linarith
    by_cases h2 : (b.1 - a.1) * (b.1 - a.1) + (b.2 - a.2) * (b.2 - a.2) < (b.1 - a.1) * (v.1 - a.1) + (b.2 - a.2) * (v.2 - a.2)
    · refine key (b.1 - a.1) (b.2 - a.2) (-((b.1 - a.1) * b.1 + (b.2 - a.2) * b.2)) ?_ ?_ ?_ <;> linarith
    exfalso
    push Not at h1 h2
    refine h ⟨((b.1 - a.1) * (v.1 - a.1) + (b.2 - a.2) * (v.2 - a.2)) / ((b.1 - a.1) * (b.1 - a.1) + (b.2 - a.2) * (b.2 - a.2)),
      div_nonneg h1 hn.le, (div_le_one hn).2 h2, ?_⟩
    ext
    · simp only [Prod.fst_add, Prod.smul_fst, Prod.fst_sub, smul_eq_mul]
      rw [div_mul_eq_mul_div, ← sub_eq_iff_eq_add', eq_div_iff hn.ne']
      linear_combination (-(b.2 - a.2)) * h0
    · simp only [Prod.snd_add, Prod.smul_snd, Prod.snd_sub, smul_eq_mul]
      rw [div_mul_eq_mul_div, ← sub_eq_iff_eq_add', eq_div_iff hn.ne']
      linear_combination (b.1 - a.1) * h0
  · refine key (-(b.2 - a.2)) (b.1 - a.1) ((b.2 - a.2) * a.1 - (b.1 - a.1) * a.2) ?_ ?_ ?_
    · simp only [ccw, Prod.fst_sub, Prod.snd_sub] at h0; linarith
    · exact le_of_eq (by ring)
    · exact le_of_eq (by ring)

/-- Points close to a point avoid the sides that do not contain the point. -/
theorem off_sides (p : Poly K) (v x d : Vec K) :
    ∃ ε : K, 0 < ε ∧ ∀ s t : K, 0 ≤ s → s ≤ ε → 0 ≤ t → t ≤ ε → ∀ j, v ∉ p.side j → v + s • x + t • d ∉ p.side j := by
  have aux : ∀ n : ℕ, ∃ ε : K, 0 < ε ∧ ∀ s t : K, 0 ≤ s → s ≤ ε → 0 ≤ t → t ≤ ε → ∀ j < n, v ∉ p.side j → v + s • x + t • d ∉ p.side j := by
    intro n
    induction n with
    | zero => exact ⟨1, one_pos, fun _ _ _ _ _ _ j hj => absurd hj (Nat.not_lt_zero _)⟩
    | succ n ih =>
      obtain ⟨ε, h0, h1⟩ := ih
      by_cases hn : v ∈ p.side n
      · refine ⟨ε, h0, fun s t s0 s1 t0 t1 j hj hvj => ?_⟩
        rcases Nat.lt_succ_iff_lt_or_eq.1 hj with h | rfl
        · exact h1 s t s0 s1 t0 t1 j h hvj
        · exact absurd hn hvj
      · obtain ⟨ε', h0', h1'⟩ := off_segment (show v ∉ segPts (p.vertex n, p.vertex (n + 1)) from hn) x d
        refine ⟨min ε ε', lt_min h0 h0', fun s t s0 s1 t0 t1 j hj hvj => ?_⟩
        rcases Nat.lt_succ_iff_lt_or_eq.1 hj with h | rfl
        · exact h1 s t s0 (s1.trans (min_le_left _ _)) t0 (t1.trans (min_le_left _ _)) j h hvj
        · exact h1' s t s0 (s1.trans (min_le_right _ _)) t0 (t1.trans (min_le_right _ _))
  by_cases hp : p.length = 0
  · obtain ⟨ε, h0, h1⟩ := aux 1
    refine ⟨ε, h0, fun s t s0 s1 t0 t1 j hvj => ?_⟩
    have e : p.side j = p.side 0 := by
      have hnil := List.length_eq_zero_iff.1 hp
      unfold side vertex; simp [hnil]
    rw [e] at hvj ⊢
    exact h1 s t s0 s1 t0 t1 0 one_pos hvj
  · obtain ⟨ε, h0, h1⟩ := aux p.length
    refine ⟨ε, h0, fun s t s0 s1 t0 t1 j hvj => ?_⟩
    rw [← side_mod] at hvj ⊢
    exact h1 s t s0 s1 t0 t1 _ (Nat.mod_lt _ (by omega)) hvj

theorem mem_of_height {a b x : Vec K} (h : (a.2 < x.2 ∧ x.2 ≤ b.2) ∨ (x.2 ≤ a.2 ∧ b.2 < x.2)) (h0 : ori 1 a b x = 0) : x ∈ segPts (a, b) := by
  rw [ori_eq] at h0
  have hne : b.2 - a.2 ≠ 0 := by
    rcases h with h | h
    · exact (sub_pos.2 (lt_of_lt_of_le h.1 h.2)).ne'
    · exact (sub_neg.2 (lt_of_lt_of_le h.2 h.1)).ne
  refine ⟨(x.2 - a.2) / (b.2 - a.2), ?_, ?_, ?_⟩
  · rcases h with h | h
    · exact div_nonneg (by linarith) (by linarith)
    · exact div_nonneg_of_nonpos (by linarith) (by linarith)
  · rcases h with h | h
    · exact (div_le_one (by linarith)).2 (by linarith)
    · exact (div_le_one_of_neg (by linarith)).2 (by linarith)
  · ext
    · simp only [Prod.fst_add, Prod.smul_fst, Prod.fst_sub, smul_eq_mul]
      rw [div_mul_eq_mul_div, ← sub_eq_iff_eq_add', eq_div_iff hne]
      linear_combination -h0
    · simp only [Prod.snd_add, Prod.smul_snd, Prod.snd_sub, smul_eq_mul]
      rw [div_mul_cancel₀ _ hne]
      ring

/-- What a side contributes to the winding number does not change along a horizontal segment that does not meet the side. -/
theorem wind_const {a b q d : Vec K} (hd : d.2 = 0) (hoff : ∀ r : K, 0 ≤ r → r ≤ 1 → q + r • d ∉ segPts (a, b)) : wind q a b = wind (q + d) a b := by
  have hh : (q + d).2 = q.2 := by simp [hd]
  have key : (a.2 < q.2 ∧ q.2 ≤ b.2) ∨ (q.2 ≤ a.2 ∧ b.2 < q.2) → 0 < ori 1 a b q * ori 1 a b (q + d) := by
    intro hb
    by_contra hneg
    push Not at hneg
    have hlin : ∀ r : K, ori 1 a b (q + r • d) = (1 - r) * ori 1 a b q + r * ori 1 a b (q + d) := by
      intro r
      simp only [ori_eq, Prod.fst_add, Prod.snd_add, Prod.smul_fst, Prod.smul_snd, smul_eq_mul]
      ring
    obtain ⟨r, r0, r1, hr⟩ : ∃ r : K, 0 ≤ r ∧ r ≤ 1 ∧ ori 1 a b (q + r • d) = 0 := by
      simp only [hlin]
      generalize ori 1 a b q = o at *
      generalize ori 1 a b (q + d) = o' at *
      rcases lt_trichotomy o 0 with h | h | h
      · have h' : 0 ≤ o' := by by_contra hc; push Not at hc; nlinarith
        refine ⟨o / (o - o'), div_nonneg_of_nonpos h.le (by linarith), (div_le_one_of_neg (by linarith)).2 (by linarith), ?_⟩
        have : o - o' ≠ 0 := by linarith
        field_simp; ring
      · exact ⟨0, le_rfl, zero_le_one, by rw [h]; ring⟩
      · have h' : o' ≤ 0 := by by_contra hc; push Not at hc; nlinarith
        refine ⟨o / (o - o'), div_nonneg h.le (by linarith), (div_le_one (by linarith)).2 (by linarith), ?_⟩
        have : o - o' ≠ 0 := by linarith
        field_simp; ring
    refine hoff r r0 r1 (mem_of_height ?_ hr)
    have : (q + r • d).2 = q.2 := by simp [hd]
    rw [this]; exact hb
  rcases lt_or_ge a.2 q.2 with ha | ha <;> rcases lt_or_ge b.2 q.2 with hb | hb
  · rw [wind_below ha hb, wind_below (by rw [hh]; exact ha) (by rw [hh]; exact hb)]
  · rw [wind_up ha hb, wind_up (by rw [hh]; exact ha) (by rw [hh]; exact hb)]
    have := key (.inl ⟨ha, hb⟩)
    rcases pos_and_pos_or_neg_and_neg_of_mul_pos this with ⟨h1, h2⟩ | ⟨h1, h2⟩
    · rw [if_pos h1, if_pos h2]
    · rw [if_neg (not_lt.2 h1.le), if_neg (not_lt.2 h2.le)]
  · rw [wind_down ha hb, wind_down (by rw [hh]; exact ha) (by rw [hh]; exact hb)]
    have := key (.inr ⟨ha, hb⟩)
    rcases pos_and_pos_or_neg_and_neg_of_mul_pos this with ⟨h1, h2⟩ | ⟨h1, h2⟩
    · rw [if_neg (not_lt.2 h1.le), if_neg (not_lt.2 h2.le)]
    · rw [if_pos h1, if_pos h2]
  · rw [wind_above ha hb, wind_above (by rw [hh]; exact ha) (by rw [hh]; exact hb)]

theorem sum_range_change (n i : ℕ) (f g : ℕ → ℤ) (h : ∀ j < n, j ≠ i → f j = g j) :
    ((List.range n).map f).sum = ((List.range n).map g).sum + if i < n then f i - g i else 0 := by
  induction n with
  | zero => simp
  | succ n ih =>
    rw [List.range_succ, List.map_append, List.map_append, List.sum_append, List.sum_append, ih fun j hj => h j (by omega)]
    simp only [List.map_cons, List.map_nil, List.sum_cons, List.sum_nil, add_zero]
    rcases eq_or_ne n i with rfl | hne
    · simp
    · rw [h n (by omega) hne]
      by_cases hi : i < n
      · rw [if_pos hi, if_pos (by omega)]; ring
      · rw [if_neg hi, if_neg (by omega)]; ring

theorem ori_side (p : Poly K) (i : ℕ) (t : K) (d : Vec K) :
    ori 1 (p.vertex i) (p.vertex (i + 1)) (p.vertex i + t • p.edge i + d) = ccw (p.edge i) d := by
  unfold edge
  simp only [ori_eq, ccw, Prod.fst_add, Prod.snd_add, Prod.smul_fst, Prod.smul_snd, smul_eq_mul, Prod.fst_sub, Prod.snd_sub]
  ring

/-- Points close to a point inside of a side, but not on the line through the side, are not on the boundary. -/
theorem off_openSide {p : Poly K} (hv : p.Valid) {i : ℕ} {pt : Vec K} (hpt : pt ∈ p.openSide i) (x d : Vec K) :
    ∃ ε : K, 0 < ε ∧ ∀ s t : K, 0 ≤ s → s ≤ ε → 0 ≤ t → t ≤ ε → ccw (p.edge i) (s • x + t • d) ≠ 0 → ∀ j, pt + s • x + t • d ∉ p.side j := by
  obtain ⟨ε, h0, h1⟩ := off_sides p pt x d
  refine ⟨ε, h0, fun s t s0 s1 t0 t1 hc j hin => ?_⟩
  by_cases hj : pt ∈ p.side j
  · have := hv.openSide_unique hpt hj
    rw [← side_mod, ← this, side_mod] at hin
    obtain ⟨r, -, -, hr⟩ := hpt
    have h2 := ori_seg (s := 1) hin
    rw [hr, add_assoc, ori_side] at h2
    exact hc h2
  · exact h1 s t s0 s1 t0 t1 j hj hin

/-- The two sides of an edge that is not horizontal. -/
theorem side_jump {p : Poly K} (hv : p.Valid) {i : ℕ} (hi : i < p.length) {pt : Vec K} (hpt : pt ∈ p.openSide i) (hne : (p.edge i).2 ≠ 0) :
    ∃ ε : K, 0 < ε ∧ ∀ s : K, 0 < s → s ≤ ε → p.pointPosition (pt + s • (-(p.edge i).2, 0)) = .interior ∧
      p.pointPosition (pt + s • ((p.edge i).2, 0)) = .outside := by
  obtain ⟨ε, h0, h1⟩ := off_sides p pt (-(p.edge i).2, 0) ((p.edge i).2, 0)
  obtain ⟨ε', h0', h1'⟩ := off_openSide hv hpt (-(p.edge i).2, 0) ((p.edge i).2, 0)
  have hsq : 0 < (p.edge i).2 * (p.edge i).2 := mul_self_pos.2 hne
  refine ⟨min ε ε', lt_min h0 h0', fun s s0 s1 => ?_⟩
  have s1' := s1.trans (min_le_left _ _)
  have s1'' := s1.trans (min_le_right _ _)
  have hL : ∀ j, pt + s • (-(p.edge i).2, (0 : K)) ∉ p.side j := by
    have := h1' s 0 s0.le s1'' le_rfl h0'.le (by simp only [ccw, Prod.fst_add, Prod.snd_add, Prod.smul_fst, Prod.smul_snd, smul_eq_mul]; nlinarith)
    simpa using this
  have hR : ∀ j, pt + s • ((p.edge i).2, (0 : K)) ∉ p.side j := by
    have := h1' 0 s le_rfl h0'.le s0.le s1'' (by simp only [ccw, Prod.fst_add, Prod.snd_add, Prod.smul_fst, Prod.smul_snd, smul_eq_mul]; nlinarith)
    simpa using this
  have hw : p.winding (pt + s • (-(p.edge i).2, (0 : K))) = p.winding (pt + s • ((p.edge i).2, (0 : K))) + 1 := by
    rw [winding_range, winding_range, sum_range_change p.length i _ (fun j => wind (pt + s • ((p.edge i).2, (0 : K))) (p.vertex j) (p.vertex ((j + 1) % p.length))), if_pos hi]
    · congr 1
      rw [vertex_mod]
      obtain ⟨t, t0, t1, ht⟩ := hpt
      have e2 : pt.2 = (p.vertex i).2 + t * (p.edge i).2 := by rw [ht]; simp
      have e3 : (p.vertex (i + 1)).2 = (p.vertex i).2 + (p.edge i).2 := by unfold edge; simp
      have o1 : ori 1 (p.vertex i) (p.vertex (i + 1)) (pt + s • (-(p.edge i).2, (0 : K))) = s * ((p.edge i).2 * (p.edge i).2) := by
        rw [ht, ori_side]; simp [ccw]; ring
      have o2 : ori 1 (p.vertex i) (p.vertex (i + 1)) (pt + s • ((p.edge i).2, (0 : K))) = - (s * ((p.edge i).2 * (p.edge i).2)) := by
        rw [ht, ori_side]; simp [ccw]; ring
      have hpos := mul_pos s0 hsq
      rcases lt_or_gt_of_ne hne with hn | hn
      · rw [wind_down, wind_down, o1, o2, if_neg (not_lt.2 hpos.le), if_pos (by linarith)]
        · norm_num
        all_goals simp; nlinarith
      · rw [wind_up, wind_up, o1, o2, if_pos hpos, if_neg (by linarith)]
        · norm_num
        all_goals simp; nlinarith
    · intro j hj hji
      rw [vertex_mod]
      have e : pt + s • ((p.edge i).2, (0 : K)) = pt + s • (-(p.edge i).2, (0 : K)) + ((2 * s) * (p.edge i).2, 0) := by
        ext <;> simp; ring
      rw [e]
      refine wind_const rfl fun r r0 r1 hin => ?_
      have hnj : pt ∉ p.side j := by
        intro hc
        have := hv.openSide_unique hpt hc
        rw [Nat.mod_eq_of_lt hi, Nat.mod_eq_of_lt hj] at this
        exact hji this.symm
      have e' : pt + s • (-(p.edge i).2, (0 : K)) + r • ((2 * s) * (p.edge i).2, (0 : K)) =
          pt + ((1 - r) * s) • (-(p.edge i).2, (0 : K)) + (r * s) • ((p.edge i).2, (0 : K)) := by
        ext <;> simp; ring
      rw [e'] at hin
      exact h1 _ _ (mul_nonneg (by linarith) s0.le) (by nlinarith) (mul_nonneg r0 s0.le) (by nlinarith) j hnj hin
  rw [pointPosition_winding hv (by push Not; exact hL), pointPosition_winding hv (by push Not; exact hR)]
  rcases C61_winding hv (pt + s • (-(p.edge i).2, (0 : K))) with g | g <;> rcases C61_winding hv (pt + s • ((p.edge i).2, (0 : K))) with g' | g' <;>
    rw [g, g'] at hw <;> first | omega | (rw [g, g']; simp)

theorem side_jump' {p : Poly K} (hv : p.Valid) {i : ℕ} (hi : i < p.length) {pt : Vec K} (hpt : pt ∈ p.openSide i) :
    ∃ u : Vec K, 0 < ccw (p.edge i) u ∧ ∃ ε : K, 0 < ε ∧ ∀ s : K, 0 < s → s ≤ ε → p.pointPosition (pt + s • u) = .interior ∧
      p.pointPosition (pt + s • (-u)) = .outside := by
  by_cases hne : (p.edge i).2 = 0
  · have h1 : (p.edge i).1 ≠ 0 := fun h => hv.edge_ne i (Prod.ext h hne)
    -- a shear
    let g : Mat2 K := ⟨1, 0, 1, 1⟩
    have hdet : g.det = 1 := by simp [g, Mat2.det]
    have hp := hv.ne_nil
    let q : Poly K := p.map g.mulVec
    have hvx : ∀ k, q.vertex k = g.mulVec (p.vertex k) := fun k => vertex_map _ p hp k
    have hF : ∀ a b : Vec K, g.mulVec b - g.mulVec a = g.mulVec (b - a) := fun a b => mulVec_sub g b a
    have hm : mul g p = some q := by
      unfold mul
      simp [hdet, q]
    have hq : q.Valid := C10_mul_valid hv hm
    have hl : q.length = p.length := by simp [q]
    have hed : ∀ k, q.edge k = g.mulVec (p.edge k) := fun k => by unfold edge; rw [hvx, hvx, hF]
    have hpos := pointPosition_image hv hq hl hF (by rw [hdet]; exact one_pos) hvx
    have hpt' : g.mulVec pt ∈ q.openSide i := by
      obtain ⟨t, t0, t1, ht⟩ := hpt
      exact ⟨t, t0, t1, by rw [ht, Mat2.mulVec_add, Mat2.mulVec_smul, hvx, hed]⟩
    have he2 : (q.edge i).2 = (p.edge i).1 := by rw [hed]; simp [g, Mat2.mulVec, hne]
    obtain ⟨ε, h0, h⟩ := side_jump hq (by rw [hl]; exact hi) hpt' (by rw [he2]; exact h1)
    refine ⟨(-(p.edge i).1, (p.edge i).1), ?_, ε, h0, fun s s0 s1 => ?_⟩
    · simp only [ccw, hne]; have := mul_self_pos.2 h1; linarith
    · have := h s s0 s1
      rw [he2] at this
      have e1 : g.mulVec pt + s • (-(p.edge i).1, (0 : K)) = g.mulVec (pt + s • (-(p.edge i).1, (p.edge i).1)) := by
        ext <;> simp [g, Mat2.mulVec]
        ring
      have e2 : g.mulVec pt + s • ((p.edge i).1, (0 : K)) = g.mulVec (pt + s • (-(-(p.edge i).1, (p.edge i).1))) := by
        ext <;> simp [g, Mat2.mulVec]
        ring
      rw [e1, e2, hpos, hpos] at this
      exact this
  · obtain ⟨ε, h0, h⟩ := side_jump hv hi hpt hne
    refine ⟨(-(p.edge i).2, 0), ?_, ε, h0, fun s s0 s1 => ?_⟩
    · simp only [ccw]; have := mul_self_pos.2 hne; linarith
    · have := h s s0 s1
      refine ⟨this.1, ?_⟩
      have e : (-(-(p.edge i).2, (0 : K))) = ((p.edge i).2, (0 : K)) := by ext <;> simp
      rw [e]; exact this.2

/-- The position of points close to a point inside of a side does not depend on the direction, as long as it is on the same side. -/
theorem side_dir {p : Poly K} (hv : p.Valid) {i : ℕ} {pt : Vec K} (hpt : pt ∈ p.openSide i) {u d : Vec K}
    (h : 0 < ccw (p.edge i) u * ccw (p.edge i) d) :
    ∃ ε : K, 0 < ε ∧ ∀ s : K, 0 < s → s ≤ ε → p.pointPosition (pt + s • u) = p.pointPosition (pt + s • d) := by
  obtain ⟨ε, h0, h1⟩ := off_openSide hv hpt u d
  refine ⟨ε, h0, fun s s0 s1 => C61_path hv ?_⟩
  rintro x ⟨r, r0, r1, hx⟩ j
  dsimp only at hx
  have e : x = pt + ((1 - r) * s) • u + (r * s) • d := by
    rw [hx]; ext <;> simp <;> ring
  rw [e]
  refine h1 _ _ (mul_nonneg (by linarith) s0.le) (by nlinarith) (mul_nonneg r0 s0.le) (by nlinarith) ?_ j
  have e2 : ccw (p.edge i) (((1 - r) * s) • u + (r * s) • d) = s * ((1 - r) * ccw (p.edge i) u + r * ccw (p.edge i) d) := by
    simp only [ccw, Prod.fst_add, Prod.snd_add, Prod.smul_fst, Prod.smul_snd, smul_eq_mul]; ring
  rw [e2]
  refine mul_ne_zero s0.ne' ?_
  rcases pos_and_pos_or_neg_and_neg_of_mul_pos h with ⟨k1, k2⟩ | ⟨k1, k2⟩
  · refine (lt_of_lt_of_le (lt_min k1 k2) ?_).ne'
    nlinarith [min_le_left (ccw (p.edge i) u) (ccw (p.edge i) d), min_le_right (ccw (p.edge i) u) (ccw (p.edge i) d),
      mul_nonneg (sub_nonneg.2 r1) (sub_nonneg.2 (min_le_left (ccw (p.edge i) u) (ccw (p.edge i) d))),
      mul_nonneg r0 (sub_nonneg.2 (min_le_right (ccw (p.edge i) u) (ccw (p.edge i) d)))]
  · refine (lt_of_le_of_lt ?_ (max_lt k1 k2)).ne
    nlinarith [mul_nonneg (sub_nonneg.2 r1) (sub_nonneg.2 (le_max_left (ccw (p.edge i) u) (ccw (p.edge i) d))),
      mul_nonneg r0 (sub_nonneg.2 (le_max_right (ccw (p.edge i) u) (ccw (p.edge i) d)))]

/-- Close to a point inside of a side, the points to the left of the side are inside of the polygon and the points to the right are outside. -/
theorem side_local {p : Poly K} (hv : p.Valid) {i : ℕ} {pt : Vec K} (hpt : pt ∈ p.openSide i) (d : Vec K) :
    (0 < ccw (p.edge i) d → ∃ ε : K, 0 < ε ∧ ∀ s : K, 0 < s → s ≤ ε → p.pointPosition (pt + s • d) = .interior) ∧
    (ccw (p.edge i) d < 0 → ∃ ε : K, 0 < ε ∧ ∀ s : K, 0 < s → s ≤ ε → p.pointPosition (pt + s • d) = .outside) := by
  have hn : 0 < p.length := by have := hv.len3; omega
  have hpt' : pt ∈ p.openSide (i % p.length) := by
    obtain ⟨t, t0, t1, ht⟩ := hpt
    exact ⟨t, t0, t1, by rw [vertex_mod, edge_mod]; exact ht⟩
  obtain ⟨u, hu, ε, h0, h⟩ := side_jump' hv (Nat.mod_lt _ hn) hpt'
  rw [edge_mod] at hu
  constructor
  · intro hd
    obtain ⟨ε', h0', h'⟩ := side_dir hv hpt (u := u) (d := d) (mul_pos hu hd)
    refine ⟨min ε ε', lt_min h0 h0', fun s s0 s1 => ?_⟩
    rw [← h' s s0 (s1.trans (min_le_right _ _))]
    exact (h s s0 (s1.trans (min_le_left _ _))).1
  · intro hd
    obtain ⟨ε', h0', h'⟩ := side_dir hv hpt (u := -u) (d := d) (mul_pos_of_neg_of_neg (by
      have : ccw (p.edge i) (-u) = - ccw (p.edge i) u := by simp [ccw]; ring
      rw [this]; linarith) hd)
    refine ⟨min ε ε', lt_min h0 h0', fun s s0 s1 => ?_⟩
    rw [← h' s s0 (s1.trans (min_le_right _ _))]
    exact (h s s0 (s1.trans (min_le_left _ _))).2

/-- The sides that contain a vertex. -/
theorem vertex_incident {p : Poly K} (hv : p.Valid) {i j : ℕ} (h : p.vertex i ∈ p.side j) : j % p.length = i % p.length ∨ (j + 1) % p.length = i % p.length := by
  have hn : 0 < p.length := by have := hv.len3; omega
  have inj : ∀ a b : ℕ, p.vertex a = p.vertex b → a % p.length = b % p.length := by
    intro a b hab
    have h1 := (C12_vertex hv (p.vertex a) (a % p.length)).2 ⟨Nat.mod_lt _ hn, by rw [vertex_mod]⟩
    have h2 := (C12_vertex hv (p.vertex a) (b % p.length)).2 ⟨Nat.mod_lt _ hn, by rw [vertex_mod]; exact hab⟩
    rw [h1] at h2
    injection h2
  rcases side_cases h with h | h | h
  · exact .inl (inj _ _ h).symm
  · exact .inr (inj _ _ h).symm
  · exact .inl (hv.openSide_unique h (left_mem_segPts _ _))

/-- Turning at a vertex from a side to another direction. -/
theorem vertex_turn {p : Poly K} (hv : p.Valid) {k : ℕ} {v x d : Vec K} (hx : ∀ s : K, 0 < s → s < 1 → v + s • x ∈ p.openSide k)
    (hoff : ∀ j, v ∈ p.side j → ∀ a b : K, 0 ≤ a → 0 < b → v + a • x + b • d ∉ p.side j) :
    (0 < ccw (p.edge k) d → ∃ ε : K, 0 < ε ∧ ∀ s : K, 0 < s → s ≤ ε → p.pointPosition (v + s • d) = .interior) ∧
    (ccw (p.edge k) d < 0 → ∃ ε : K, 0 < ε ∧ ∀ s : K, 0 < s → s ≤ ε → p.pointPosition (v + s • d) = .outside) := by
  obtain ⟨ε, h0, h1⟩ := off_sides p v x d
  have key : ∀ s t : K, 0 < s → s ≤ ε → 0 < t → t ≤ ε → p.pointPosition (v + s • d) = p.pointPosition (v + s • x + t • d) := by
    intro s t s0 s1 t0 t1
    refine C61_path hv ?_
    rintro y ⟨r, r0, r1, hy⟩ j
    dsimp only at hy
    have e : y = v + (r * s) • x + ((1 - r) * s + r * t) • d := by
      rw [hy]; ext <;> simp <;> ring
    rw [e]
    have b0 : 0 < (1 - r) * s + r * t := by
      rcases eq_or_lt_of_le r0 with h | h
      · rw [← h]; linarith
      · exact add_pos_of_nonneg_of_pos (mul_nonneg (by linarith) s0.le) (mul_pos h t0)
    by_cases hj : v ∈ p.side j
    · exact hoff j hj _ _ (mul_nonneg r0 s0.le) b0
    · exact h1 _ _ (mul_nonneg r0 s0.le) (by nlinarith) b0.le (by nlinarith) j hj
  have hm : 0 < min ε (1 / 2) := lt_min h0 (by norm_num)
  constructor
  · intro hc
    refine ⟨min ε (1 / 2), hm, fun s s0 s1 => ?_⟩
    have s1' := s1.trans (min_le_left _ _)
    have s2' := s1.trans (min_le_right _ _)
    obtain ⟨δ, d0, hδ⟩ := (side_local hv (hx s s0 (by linarith)) d).1 hc
    rw [key s (min ε δ) s0 s1' (lt_min h0 d0) (min_le_left _ _)]
    exact hδ _ (lt_min h0 d0) (min_le_right _ _)
  · intro hc
    refine ⟨min ε (1 / 2), hm, fun s s0 s1 => ?_⟩
    have s1' := s1.trans (min_le_left _ _)
    have s2' := s1.trans (min_le_right _ _)
    obtain ⟨δ, d0, hδ⟩ := (side_local hv (hx s s0 (by linarith)) d).2 hc
    rw [key s (min ε δ) s0 s1' (lt_min h0 d0) (min_le_left _ _)]
    exact hδ _ (lt_min h0 d0) (min_le_right _ _)

theorem cone_free {x y d : Vec K} (h1 : 0 < ccw x d) (h2 : ccw x y ≤ 0 ∨ 0 < ccw d y) {a b r : K} (ha : 0 ≤ a) (hb : 0 < b) (hr : 0 ≤ r) :
    a • x + b • d ≠ r • y := by
  intro h
  have e1 := congrArg Prod.fst h
  have e2 := congrArg Prod.snd h
  simp only [Prod.fst_add, Prod.snd_add, Prod.smul_fst, Prod.smul_snd, smul_eq_mul] at e1 e2
  have k1 : b * ccw x d = r * ccw x y := by unfold ccw; linear_combination x.1 * e2 - x.2 * e1
  have k2 : -(a * ccw x d) = r * ccw d y := by unfold ccw; linear_combination d.1 * e2 - d.2 * e1
  rcases h2 with h2 | h2
  · nlinarith [mul_pos hb h1]
  · have r0 : r = 0 := by
      by_contra hne
      have := mul_pos (lt_of_le_of_ne hr (Ne.symm hne)) h2
      nlinarith
    rw [r0, zero_mul] at k1
    exact (mul_pos hb h1).ne' k1

theorem cone_free' {x y d : Vec K} (h1 : 0 < ccw d x) (h2 : ccw y x ≤ 0 ∨ 0 < ccw y d) {a b r : K} (ha : 0 ≤ a) (hb : 0 < b) (hr : 0 ≤ r) :
    a • x + b • d ≠ r • y := by
  intro h
  have e1 := congrArg Prod.fst h
  have e2 := congrArg Prod.snd h
  simp only [Prod.fst_add, Prod.snd_add, Prod.smul_fst, Prod.smul_snd, smul_eq_mul] at e1 e2
  have k1 : b * ccw d x = r * ccw y x := by unfold ccw; linear_combination x.2 * e1 - x.1 * e2
  have k2 : -(a * ccw d x) = r * ccw y d := by unfold ccw; linear_combination d.2 * e1 - d.1 * e2
  rcases h2 with h2 | h2
  · nlinarith [mul_pos hb h1]
  · have r0 : r = 0 := by
      by_contra hne
      have := mul_pos (lt_of_le_of_ne hr (Ne.symm hne)) h2
      nlinarith
    rw [r0, zero_mul] at k1
    exact (mul_pos hb h1).ne' k1

/-- A direction strictly between two others can be turned to one of the two without crossing the other. -/
theorem between_cone {x y d : Vec K} (hx : x ≠ 0) (hy : y ≠ 0) (hxy : isParallel x y = false) (h : isBetween x y d = true) :
    (0 < ccw x d ∧ ∀ a b r : K, 0 ≤ a → 0 < b → 0 ≤ r → a • x + b • d ≠ r • y) ∨
    (0 < ccw d y ∧ ∀ a b r : K, 0 ≤ a → 0 < b → 0 ≤ r → a • y + b • d ≠ r • x) := by
  rcases (isBetween_iff' hx hy hxy).1 h with ⟨h1, h2, h3⟩ | ⟨h1, h2⟩ | ⟨h1, h2 | h2⟩
  · exact .inl ⟨h2, fun a b r ha hb hr => cone_free h2 (.inr h3) ha hb hr⟩
  · exact .inl ⟨h2, fun a b r ha hb hr => cone_free h2 (.inl h1.le) ha hb hr⟩
  · exact .inl ⟨h2, fun a b r ha hb hr => cone_free h2 (.inl h1.le) ha hb hr⟩
  · exact .inr ⟨h2, fun a b r ha hb hr => cone_free' h2 (.inl h1.le) ha hb hr⟩

theorem vertex_prev (p : Poly K) (hv : p.Valid) (i : ℕ) : p.vertex (i + (p.length - 1) + 1) = p.vertex i := by
  have hn := hv.len3
  rw [← vertex_mod, show i + (p.length - 1) + 1 = i + p.length by omega, Nat.add_mod_right, vertex_mod]

/-- The two rays at a vertex. -/
theorem vertex_off {p : Poly K} (hv : p.Valid) (i : ℕ) {w : Vec K} (h1 : ∀ r : K, 0 ≤ r → w ≠ r • p.edge i)
    (h2 : ∀ r : K, 0 ≤ r → w ≠ r • (-p.edge (i + (p.length - 1)))) {j : ℕ} (hj : p.vertex i ∈ p.side j) : p.vertex i + w ∉ p.side j := by
  have hn := hv.len3
  intro hin
  rcases vertex_incident hv hj with h | h
  · rw [← side_mod, h, side_mod] at hin
    obtain ⟨r, r0, r1, hr⟩ := hin
    exact h1 r r0 (add_left_cancel hr)
  · have h' : j % p.length = (i + (p.length - 1)) % p.length := by
      have : j + 1 ≡ (i + (p.length - 1)) + 1 [MOD p.length] := by
        unfold Nat.ModEq
        rw [h, show i + (p.length - 1) + 1 = i + p.length by omega, Nat.add_mod_right]
      exact Nat.ModEq.add_right_cancel' 1 this
    rw [← side_mod, h', side_mod] at hin
    obtain ⟨r, r0, r1, hr⟩ := hin
    rw [vertex_prev p hv] at hr
    dsimp only at hr
    refine h2 (1 - r) (by linarith) ?_
    have e : p.edge (i + (p.length - 1)) = p.vertex i - p.vertex (i + (p.length - 1)) := by unfold edge; rw [vertex_prev p hv]
    rw [e]
    have hr' : w = p.vertex (i + (p.length - 1)) + r • (p.vertex i - p.vertex (i + (p.length - 1))) - p.vertex i := by rw [← hr]; abel
    rw [hr']
    ext <;> simp <;> ring

theorem ray_openSide (p : Poly K) (i : ℕ) (s : K) (s0 : 0 < s) (s1 : s < 1) : p.vertex i + s • p.edge i ∈ p.openSide i := ⟨s, s0, s1, rfl⟩

theorem ray_openSide_prev {p : Poly K} (hv : p.Valid) (i : ℕ) (s : K) (s0 : 0 < s) (s1 : s < 1) :
    p.vertex i + s • (-p.edge (i + (p.length - 1))) ∈ p.openSide (i + (p.length - 1)) := by
  refine ⟨1 - s, by linarith, by linarith, ?_⟩
  have e : p.edge (i + (p.length - 1)) = p.vertex i - p.vertex (i + (p.length - 1)) := by unfold edge; rw [vertex_prev p hv]
  rw [e]
  ext <;> simp <;> ring

/-- Close to a vertex, the points in the sector from the next to the previous edge are inside of the polygon, the points in the
other sector are outside. -/
theorem vertex_local {p : Poly K} (hv : p.Valid) {i : ℕ} (hi : i < p.length) (d : Vec K) :
    (isBetween (p.edge i) (-p.edge (i + (p.length - 1))) d = true →
      ∃ ε : K, 0 < ε ∧ ∀ s : K, 0 < s → s ≤ ε → p.pointPosition (p.vertex i + s • d) = .interior) ∧
    (isBetween (-p.edge (i + (p.length - 1))) (p.edge i) d = true →
      ∃ ε : K, 0 < ε ∧ ∀ s : K, 0 < s → s ≤ ε → p.pointPosition (p.vertex i + s • d) = .outside) := by
  have hx := hv.edge_ne i
  have hy := neg_ne_zero.2 (hv.edge_ne (i + (p.length - 1)))
  have hxy := RSurf.turn_prev hv hi
  have hyx := hxy
  rw [isParallel_comm'] at hyx
  -- turning from the next edge
  have hnext : ccw (p.edge i) d ≠ 0 → (∀ a b r : K, 0 ≤ a → 0 < b → 0 ≤ r → a • p.edge i + b • d ≠ r • (-p.edge (i + (p.length - 1)))) →
      ∀ j, p.vertex i ∈ p.side j → ∀ a b : K, 0 ≤ a → 0 < b → p.vertex i + a • p.edge i + b • d ∉ p.side j := by
    intro hc hf j hj a b a0 b0
    rw [add_assoc]
    refine vertex_off hv i (fun r _ he => ?_) (fun r r0 => hf a b r a0 b0 r0) hj
    have : ccw (p.edge i) (a • p.edge i + b • d) = b * ccw (p.edge i) d := by simp [ccw]; ring
    rw [he] at this
    have h0 : ccw (p.edge i) (r • p.edge i) = 0 := by simp [ccw]; ring
    rw [h0] at this
    exact mul_ne_zero b0.ne' hc this.symm
  have hprev : ccw (p.edge (i + (p.length - 1))) d ≠ 0 →
      (∀ a b r : K, 0 ≤ a → 0 < b → 0 ≤ r → a • (-p.edge (i + (p.length - 1))) + b • d ≠ r • p.edge i) →
      ∀ j, p.vertex i ∈ p.side j → ∀ a b : K, 0 ≤ a → 0 < b → p.vertex i + a • (-p.edge (i + (p.length - 1))) + b • d ∉ p.side j := by
    intro hc hf j hj a b a0 b0
    rw [add_assoc]
    refine vertex_off hv i (fun r r0 => hf a b r a0 b0 r0) (fun r _ he => ?_) hj
    have : ccw (p.edge (i + (p.length - 1))) (a • (-p.edge (i + (p.length - 1))) + b • d) = b * ccw (p.edge (i + (p.length - 1))) d := by simp [ccw]; ring
    rw [he] at this
    have h0 : ccw (p.edge (i + (p.length - 1))) (r • (-p.edge (i + (p.length - 1)))) = 0 := by simp [ccw]; ring
    rw [h0] at this
    exact mul_ne_zero b0.ne' hc this.symm
  have e1 : ccw d (-p.edge (i + (p.length - 1))) = ccw (p.edge (i + (p.length - 1))) d := by simp [ccw]; ring
  have e2 : ccw (-p.edge (i + (p.length - 1))) d = -ccw (p.edge (i + (p.length - 1))) d := by simp [ccw]; ring
  have e3 : ccw d (p.edge i) = - ccw (p.edge i) d := by unfold ccw; ring
  constructor
  · intro h
    rcases between_cone hx hy hxy h with ⟨h1, h2⟩ | ⟨h1, h2⟩
    · exact (vertex_turn hv (ray_openSide p i) (hnext h1.ne' h2)).1 h1
    · rw [e1] at h1
      exact (vertex_turn hv (ray_openSide_prev hv i) (hprev h1.ne' h2)).1 h1
  · intro h
    rcases between_cone hy hx hyx h with ⟨h1, h2⟩ | ⟨h1, h2⟩
    · rw [e2] at h1
      exact (vertex_turn hv (ray_openSide_prev hv i) (hprev (by linarith : ccw (p.edge (i + (p.length - 1))) d < 0).ne h2)).2 (by linarith)
    · rw [e3] at h1
      exact (vertex_turn hv (ray_openSide p i) (hnext (by linarith : ccw (p.edge i) d < 0).ne h2)).2 (by linarith)

/-- Away from the boundary the position does not change. -/
theorem off_local {p : Poly K} (hv : p.Valid) {pt : Vec K} (h : ∀ i, pt ∉ p.side i) (d : Vec K) :
    ∃ ε : K, 0 < ε ∧ ∀ s : K, 0 < s → s ≤ ε → p.pointPosition (pt + s • d) = p.pointPosition pt := by
  obtain ⟨ε, h0, h1⟩ := off_sides p pt d d
  refine ⟨ε, h0, fun s s0 s1 => (C61_path hv ?_).symm⟩
  rintro y ⟨r, r0, r1, hy⟩ j
  have := h1 (r * s) 0 (mul_nonneg r0 s0.le) (by nlinarith) le_rfl h0.le j (h j)
  rw [zero_smul, add_zero] at this
  rw [hy]
  dsimp only
  rw [add_sub_cancel_left, smul_smul]
  exact this

end Poly
end Flat
