import Verif.Lemmas.ChordTest

/-!
# The parts of a polygon

The two parts of a polygon cut along a chord are polygons with counterclockwise vertices, without common interior points.
-/

namespace Flat
namespace Poly
variable {K : Type} [Field K] [LinearOrder K] [IsStrictOrderedRing K]

theorem cyc_range (n : ℕ) : cyc (List.range n) = (List.range n).map (fun i => (i, (i + 1) % n)) := by
  refine List.ext_getElem (by simp [cyc]) fun i h1 h2 => ?_
  simp [cyc, List.getElem_rotate]

theorem cyc_map {α β : Type} (g : α → β) (u : List α) : cyc (u.map g) = (cyc u).map (Prod.map g g) := by
  unfold cyc
  rw [← List.map_rotate, List.zip_map]

theorem winding_cyc (p : Poly K) (x : Vec K) :
    p.winding x = ((cyc (List.range p.length)).map (fun y => wind x (p.vertex y.1) (p.vertex y.2))).sum := by
  rw [winding_range, cyc_range, List.map_map]
  rfl

theorem mod_succ_ne {m : ℕ} (hm : 2 ≤ m) (i : ℕ) : i % m ≠ (i + 1) % m := by
  intro h
  have := (Nat.modEq_iff_dvd' (Nat.le_succ i)).1 (show i ≡ i + 1 [MOD m] from h)
  rw [show i + 1 - i = 1 by omega] at this
  exact absurd (Nat.le_of_dvd one_pos this) (by omega)

theorem mod_succ_succ_ne {m : ℕ} (hm : 3 ≤ m) (i : ℕ) : i % m ≠ (i + 1 + 1) % m := by
  intro h
  have := (Nat.modEq_iff_dvd' (by omega)).1 (show i ≡ i + 1 + 1 [MOD m] from h)
  rw [show i + 1 + 1 - i = 2 by omega] at this
  exact absurd (Nat.le_of_dvd two_pos this) (by omega)

/-- A simple polygon with a triangulation by counterclockwise triangles is accepted. -/
theorem valid_of_tri {q : Poly K} (hs : Simple q.vertex (List.range q.length)) {T : List Triple} (hT : Tri q.vertex 1 (List.range q.length) T) :
    q.Valid := by
  have h3 : 3 ≤ q.length := by simpa using hs.len
  have hmem : ∀ i, (i % q.length, (i + 1) % q.length) ∈ cyc (List.range q.length) := fun i =>
    mem_cyc_range.2 ⟨Nat.mod_lt _ (by omega), by simp⟩
  have hside : ∀ i x, x ∈ q.side i → x ∈ segPts (q.vertex (i % q.length), q.vertex ((i + 1) % q.length)) := by
    intro i x hx
    rw [vertex_mod, vertex_mod]; exact hx
  have hmeet : ∀ i j x, i % q.length ≠ j % q.length → x ∈ q.side i → x ∈ q.side j →
      ∃ a, (a = i % q.length ∨ a = (i + 1) % q.length) ∧ (a = j % q.length ∨ a = (j + 1) % q.length) ∧ x = q.vertex a := by
    intro i j x hij hi hj
    exact hs.meet _ (hmem i) _ (hmem j) (fun h => hij (congrArg Prod.fst h)) x (hside i x hi) (hside j x hj)
  have hedge : ∀ i, q.edge i ≠ 0 := by
    intro i h
    have h2 : q.vertex (i % q.length) = q.vertex ((i + 1) % q.length) := by
      rw [vertex_mod, vertex_mod]
      exact (sub_eq_zero.1 h).symm
    exact mod_succ_ne (by omega) i (hs.inj _ (mem_cyc (hmem i)).1 _ (mem_cyc (hmem i)).2 h2)
  refine ⟨h3, ?_, hedge, ?_, ?_⟩
  · have e2 := perm_sum hT.perm (fun a b => ccw (q.vertex a) (q.vertex b)) (fun a b => by simp only [ccw]; ring)
    have e3 : ((List.range q.length).map (fun i => ccw (q.vertex i) (q.vertex ((i + 1) % q.length)))).sum = 2 * q.area := by
      rw [area_sum]
      congr 1
      refine List.map_congr_left fun i _ => ?_
      rw [vertex_mod]
    rw [e3] at e2
    have e4 : ∀ x ∈ T, 0 < ((tEdges x).map (fun x => ccw (q.vertex x.1) (q.vertex x.2))).sum := by
      rintro ⟨a, b, c⟩ hx
      have := hT.pos a b c (Or.inl hx)
      simp only [tEdges, List.map_cons, List.map_nil, List.sum_cons, List.sum_nil]
      simp only [ori, ccw, Prod.fst_sub, Prod.snd_sub] at this ⊢
      linarith
    have hne : T ≠ [] := by
      rintro rfl
      have := hT.len
      simp at this
      omega
    have e5 : 0 < ((T.flatMap tEdges).map (fun x => ccw (q.vertex x.1) (q.vertex x.2))).sum := by
      clear e2 hT
      induction T with
      | nil => exact absurd rfl hne
      | cons x T ih =>
        rw [List.flatMap_cons, List.map_append, List.sum_append]
        have a1 := e4 x (by simp)
        by_cases hT : T = []
        · subst hT
          simpa using a1
        · have a2 := ih (fun y hy => e4 y (by simp [hy])) hT
          linarith
    linarith
  · intro i
    by_contra h
    rw [Bool.not_eq_false] at h
    have hne' : -q.edge i ≠ 0 := neg_ne_zero.2 (hedge i)
    have hp : isParallel (-q.edge i) (q.edge (i + 1)) = true := by rw [isParallel_neg_left]; exact h
    obtain ⟨k, hk, he⟩ := parallel_smul hne' hp
    obtain ⟨m, m0, m1, m2⟩ : ∃ m : K, 0 < m ∧ m < 1 ∧ m * k < 1 := by
      refine ⟨min (1 / 2) (1 / (2 * k)), lt_min one_half_pos (by positivity), (min_le_left _ _).trans_lt one_half_lt_one, ?_⟩
      have : min (1 / 2) (1 / (2 * k)) * k ≤ 1 / (2 * k) * k := mul_le_mul_of_nonneg_right (min_le_right _ _) hk.le
      have h2 : 1 / (2 * k) * k = 1 / 2 := by field_simp
      rw [h2] at this
      exact this.trans_lt one_half_lt_one
    have hx2 : q.vertex (i + 1) + m • q.edge (i + 1) ∈ q.side (i + 1) := ⟨m, m0.le, m1.le, rfl⟩
    have hx1 : q.vertex (i + 1) + m • q.edge (i + 1) ∈ q.side i := by
      refine ⟨1 - m * k, by linarith, by linarith [mul_pos m0 hk], ?_⟩
      rw [he]
      unfold edge
      ext <;> simp <;> ring
    obtain ⟨a, h1, h2, h3'⟩ := hmeet i (i + 1) _ (mod_succ_ne (by omega) i) hx1 hx2
    have ha : a = (i + 1) % q.length := by
      rcases h1 with h1 | h1
      · rcases h2 with h2 | h2
        · exact h2
        · exact absurd (h1.symm.trans h2) (mod_succ_succ_ne h3 i)
      · exact h1
    rw [ha, vertex_mod] at h3'
    have : m • q.edge (i + 1) = 0 := by simpa using h3'
    exact m0.ne' (smul_vec_zero this (hedge _))
  · intro i j hA
    rw [Set.eq_empty_iff_forall_notMem]
    rintro x ⟨hi, hj⟩
    obtain ⟨a, h1, h2, -⟩ := hmeet i j x hA.1 hi hj
    rcases h1 with h1 | h1 <;> rcases h2 with h2 | h2
    · exact hA.1 (h1.symm.trans h2)
    · exact hA.2.2 (h1.symm.trans h2)
    · exact hA.2.1 (h1.symm.trans h2)
    · have : i + 1 ≡ j + 1 [MOD q.length] := h1.symm.trans h2
      exact hA.1 (Nat.ModEq.add_right_cancel' 1 this)

/-- The winding number of a triangle with clockwise vertices. -/
theorem windT_neg {f : ℕ → Vec K} {q : Vec K} {t : Triple} (ht : 0 < ori (-1) (f t.1) (f t.2.1) (f t.2.2)) :
    windT f q t ≤ 0 ∧ (InOpen (-1) (f t.1) (f t.2.1) (f t.2.2) q → windT f q t ≤ -1) := by
  have hD : 0 < ori 1 (f t.1) (f t.2.2) (f t.2.1) := by
    simp only [ori, ccw, Prod.fst_sub, Prod.snd_sub] at ht ⊢; linarith
  have h := wind_tri (q := q) hD
  have e : windT f q t = -(wind q (f t.1) (f t.2.2) + wind q (f t.2.2) (f t.2.1) + wind q (f t.2.1) (f t.1)) := by
    unfold windT
    rw [wind_swap q (f t.1) (f t.2.1), wind_swap q (f t.2.1) (f t.2.2), wind_swap q (f t.2.2) (f t.1)]
    ring
  constructor
  · rcases h.1 with h | h <;> rw [e, h] <;> norm_num
  · rintro ⟨h1, h2, h3⟩
    have := h.2.2 ⟨.inl ?_, .inl ?_, .inl ?_⟩
    · rw [e, this]
    all_goals simp only [ori, ccw, Prod.fst_sub, Prod.snd_sub] at h1 h2 h3 ⊢; linarith

theorem sum_neg_tri {f : ℕ → Vec K} {T : List Triple} (hpos : ∀ t ∈ T, 0 < ori (-1) (f t.1) (f t.2.1) (f t.2.2)) (q : Vec K) :
    (T.map (windT f q)).sum ≤ 0 ∧ ((∃ t ∈ T, InOpen (-1) (f t.1) (f t.2.1) (f t.2.2) q) → (T.map (windT f q)).sum ≤ -1) := by
  induction T with
  | nil => simp
  | cons t T ih =>
    obtain ⟨h1, h2⟩ := ih fun t ht => hpos t (List.mem_cons_of_mem _ ht)
    obtain ⟨h3, h4⟩ := windT_neg (q := q) (hpos t (by simp))
    rw [List.map_cons, List.sum_cons]
    refine ⟨by omega, ?_⟩
    rintro ⟨t', ht', ho⟩
    rcases List.mem_cons.1 ht' with rfl | ht'
    · have := h4 ho
      omega
    · have := h2 ⟨t', ht', ho⟩
      omega

/-- Winding numbers of simple polygons with any orientation. -/
theorem winding_le_one {q : Poly K} (hs : Simple q.vertex (List.range q.length)) (x : Vec K) : q.winding x ≤ 1 := by
  obtain ⟨s, hs', T, hT, hd⟩ := hs.exists_tri_disj
  rw [winding_sum hT.perm]
  rcases hs' with rfl | rfl
  · rcases sum_le_one (fun t ht => hT.pos _ _ _ (Or.inl ht)) hd x with h | h <;> omega
  · have := (sum_neg_tri (fun t ht => hT.pos _ _ _ (Or.inl ht)) x).1
    omega

theorem interior_off {p : Poly K} (hv : p.Valid) {x : Vec K} (h : p.pointPosition x = .interior) : ∀ i, x ∉ p.side i := by
  intro i hi
  rcases (pointPosition_boundary hv).1 ⟨i, hi⟩ with ⟨j, hj⟩ | ⟨j, hj⟩ <;> rw [h] at hj <;> cases hj

theorem interior_winding {p : Poly K} (hv : p.Valid) {x : Vec K} (h : p.pointPosition x = .interior) : p.winding x = 1 := by
  obtain ⟨T, hT⟩ := hv.exists_isTri
  rw [hT.winding_iff hv (by push Not; exact interior_off hv h)]
  by_contra hr
  have := (position_outside_iff hv hT x).2 hr
  rw [h] at this
  cases this

theorem interior_of_winding {p : Poly K} (hv : p.Valid) {x : Vec K} (h : p.winding x = 1) (hb : ∀ i, x ∉ p.side i) :
    p.pointPosition x = .interior := by
  obtain ⟨T, hT⟩ := hv.exists_isTri
  have hr := (hT.winding_iff hv (by push Not; exact hb)).1 h
  exact interior_of hv (fun ho => (position_outside_iff hv hT x).1 ho hr) hb

/-- Close to interior points. -/
theorem interior_near {p : Poly K} (hv : p.Valid) {x : Vec K} (h : p.pointPosition x = .interior) (d : Vec K) :
    ∃ ε : K, 0 < ε ∧ ∀ s : K, 0 < s → s ≤ ε → p.pointPosition (x + s • d) = .interior := by
  obtain ⟨ε, h0, h1⟩ := off_local hv (interior_off hv h) d
  exact ⟨ε, h0, fun s s0 s1 => (h1 s s0 s1).trans h⟩

/-- The part of a polygon to one side of a chord inside of the polygon has counterclockwise vertices. -/
theorem part_valid {p q r : Poly K} (hp : p.Valid) (hq : Simple q.vertex (List.range q.length)) (hr : Simple r.vertex (List.range r.length))
    (hw : ∀ x, p.winding x = q.winding x + r.winding x) {k : ℕ} {x : Vec K} (hx : x ∈ q.openSide k) (hin : p.pointPosition x = .interior) :
    q.Valid := by
  have h3 : 3 ≤ q.length := by simpa using hq.len
  obtain ⟨s, hs, T, hT⟩ := hq.exists_tri
  rcases hs with rfl | rfl
  · exact valid_of_tri hq hT
  exfalso
  have hmem : (k % q.length, (k + 1) % q.length) ∈ cyc (List.range q.length) := mem_cyc_range.2 ⟨Nat.mod_lt _ (by omega), by simp⟩
  obtain ⟨c, hc⟩ := hT.boundary hmem
  have hpos := hT.pos _ _ _ hc
  rw [vertex_mod, vertex_mod] at hpos
  obtain ⟨ε, h0, h1⟩ := interior_near hp hin (q.vertex c - x)
  obtain ⟨m, m0, m1, m2⟩ : ∃ m : K, 0 < m ∧ m < 1 ∧ m ≤ ε :=
    ⟨min ε (1 / 2), lt_min h0 one_half_pos, (min_le_right _ _).trans_lt one_half_lt_one, min_le_left _ _⟩
  have hwp := interior_winding hp (h1 m m0 m2)
  rw [hw] at hwp
  have hle := winding_le_one hr (x + m • (q.vertex c - x))
  have hneg : q.winding (x + m • (q.vertex c - x)) ≤ -1 := by
    rw [winding_sum hT.perm]
    refine (sum_neg_tri (fun t ht => hT.pos _ _ _ (Or.inl ht)) _).2 ?_
    have ho : InOpen (-1) (q.vertex (k % q.length)) (q.vertex ((k + 1) % q.length)) (q.vertex c) (x + m • (q.vertex c - x)) := by
      rw [vertex_mod, vertex_mod]
      obtain ⟨t, t0, t1, rfl⟩ := hx
      unfold edge at *
      generalize q.vertex k = a at *
      generalize q.vertex (k + 1) = b at *
      generalize q.vertex c = d at *
      have e1 : ori (-1) a b (a + t • (b - a) + m • (d - (a + t • (b - a)))) = m * ori (-1) a b d := by
        simp only [ori, ccw, Prod.fst_sub, Prod.snd_sub, Prod.fst_add, Prod.snd_add, Prod.smul_fst, Prod.smul_snd, smul_eq_mul]; ring
      have e2 : ori (-1) b d (a + t • (b - a) + m • (d - (a + t • (b - a)))) = (1 - m) * (1 - t) * ori (-1) a b d := by
        simp only [ori, ccw, Prod.fst_sub, Prod.snd_sub, Prod.fst_add, Prod.snd_add, Prod.smul_fst, Prod.smul_snd, smul_eq_mul]; ring
      have e3 : ori (-1) d a (a + t • (b - a) + m • (d - (a + t • (b - a)))) = (1 - m) * t * ori (-1) a b d := by
        simp only [ori, ccw, Prod.fst_sub, Prod.snd_sub, Prod.fst_add, Prod.snd_add, Prod.smul_fst, Prod.smul_snd, smul_eq_mul]; ring
      refine ⟨?_, ?_, ?_⟩
      · rw [e1]; exact mul_pos m0 hpos
      · rw [e2]; exact mul_pos (mul_pos (by linarith) (by linarith)) hpos
      · rw [e3]; exact mul_pos (mul_pos (by linarith) t0) hpos
    rcases hc with hc | hc | hc
    · exact ⟨_, hc, ho⟩
    · exact ⟨_, hc, ho.rot⟩
    · exact ⟨_, hc, ho.rot.rot⟩
  omega

/-- Close to every point of a polygon there are interior points. -/
theorem exists_inward {q : Poly K} (hv : q.Valid) {x : Vec K} (hx : q.pointPosition x ≠ .outside) :
    ∃ d : Vec K, ∀ s : K, 0 < s → s ≤ 1 → q.winding (x + s • d) = 1 := by
  obtain ⟨T, hT⟩ := hv.exists_isTri
  have hr : Region q.vertex 1 T x := by
    by_contra hr
    exact hx ((position_outside_iff hv hT x).2 hr)
  obtain ⟨t, ht, hi⟩ := region_iff.1 hr
  have hD := hT.pos t ht
  refine ⟨(1 / 3 : K) • (q.vertex t.1 + q.vertex t.2.1 + q.vertex t.2.2) - x, fun s s0 s1 => ?_⟩
  have hone : windT q.vertex (x + s • ((1 / 3 : K) • (q.vertex t.1 + q.vertex t.2.1 + q.vertex t.2.2) - x)) t = 1 := by
    refine (wind_tri hD).2.2 ?_
    obtain ⟨i1, i2, i3⟩ := hi
    generalize q.vertex t.1 = a at *
    generalize q.vertex t.2.1 = b at *
    generalize q.vertex t.2.2 = c at *
    have e1 : ori 1 a b (x + s • ((1 / 3 : K) • (a + b + c) - x)) = (1 - s) * ori 1 a b x + s * (ori 1 a b c / 3) := by
      simp only [ori, ccw, Prod.fst_sub, Prod.snd_sub, Prod.fst_add, Prod.snd_add, Prod.smul_fst, Prod.smul_snd, smul_eq_mul]; ring
    have e2 : ori 1 b c (x + s • ((1 / 3 : K) • (a + b + c) - x)) = (1 - s) * ori 1 b c x + s * (ori 1 a b c / 3) := by
      simp only [ori, ccw, Prod.fst_sub, Prod.snd_sub, Prod.fst_add, Prod.snd_add, Prod.smul_fst, Prod.smul_snd, smul_eq_mul]; ring
    have e3 : ori 1 c a (x + s • ((1 / 3 : K) • (a + b + c) - x)) = (1 - s) * ori 1 c a x + s * (ori 1 a b c / 3) := by
      simp only [ori, ccw, Prod.fst_sub, Prod.snd_sub, Prod.fst_add, Prod.snd_add, Prod.smul_fst, Prod.smul_snd, smul_eq_mul]; ring
    have hp : 0 < s * (ori 1 a b c / 3) := mul_pos s0 (by linarith)
    refine ⟨.inl ?_, .inl ?_, .inl ?_⟩
    · rw [e1]; exact add_pos_of_nonneg_of_pos (mul_nonneg (by linarith) i1) hp
    · rw [e2]; exact add_pos_of_nonneg_of_pos (mul_nonneg (by linarith) i2) hp
    · rw [e3]; exact add_pos_of_nonneg_of_pos (mul_nonneg (by linarith) i3) hp
  rw [winding_sum hT.perm]
  rcases sum_le_one hT.pos (hT.disj hv) (x + s • ((1 / 3 : K) • (q.vertex t.1 + q.vertex t.2.1 + q.vertex t.2.2) - x)) with h | h
  · rw [h.2 t ht] at hone
    cases hone
  · exact h.1

/-- The parts of a polygon do not overlap. -/
theorem parts_apart {p q r : Poly K} (hp : p.Valid) (hq : q.Valid) (hr : r.Valid) (hw : ∀ x, p.winding x = q.winding x + r.winding x)
    {x : Vec K} (hx : q.pointPosition x = .interior) : r.pointPosition x = .outside := by
  by_contra ho
  obtain ⟨d, hd⟩ := exists_inward hr ho
  obtain ⟨ε, h0, h1⟩ := interior_near hq hx d
  have m0 : 0 < min ε 1 := lt_min h0 one_pos
  have a1 := interior_winding hq (h1 _ m0 (min_le_left _ _))
  have a2 := hd _ m0 (min_le_right _ _)
  have a3 := hw (x + min ε 1 • d)
  rcases C61_winding hp (x + min ε 1 • d) with h | h <;> omega

/-- Interior points of a part are interior points of the polygon. -/
theorem part_interior {p q r : Poly K} (hp : p.Valid) (hq : q.Valid) (hr : r.Valid) (hw : ∀ x, p.winding x = q.winding x + r.winding x)
    (hb : ∀ x, (∃ i, x ∈ p.side i) → (∃ i, x ∈ q.side i) ∨ ∃ i, x ∈ r.side i) {x : Vec K} (hx : q.pointPosition x = .interior) :
    p.pointPosition x = .interior := by
  have ho := parts_apart hp hq hr hw hx
  refine interior_of_winding hp ?_ fun i hi => ?_
  · have a1 := interior_winding hq hx
    have a2 := hw x
    rcases C61_winding hp x with h | h <;> rcases C61_winding hr x with h' | h' <;> omega
  · rcases hb x ⟨i, hi⟩ with ⟨j, hj⟩ | ⟨j, hj⟩
    · exact interior_off hq hx j hj
    · rcases (pointPosition_boundary hr).1 ⟨j, hj⟩ with ⟨k, hk⟩ | ⟨k, hk⟩ <;> rw [ho] at hk <;> cases hk

end Poly
end Flat
