import Verif.Lemmas.SplitPoly

/-!
# Every simple polygon can be triangulated
-/

namespace Flat
namespace Poly
variable {K : Type} [Field K] [LinearOrder K] [IsStrictOrderedRing K]

/-- Two segments from the same point. -/
theorem ray_meet {a c z q : Vec K} (h1 : q ∈ segPts (a, z)) (h2 : q ∈ segPts (a, c)) (hq : q ≠ a) :
    z ∈ segPts (a, c) ∨ c ∈ segPts (a, z) := by
  obtain ⟨t, t0, t1, rfl⟩ := h1
  obtain ⟨r, r0, r1, h⟩ := h2
  dsimp only at h hq ⊢
  have ht : t ≠ 0 := by rintro rfl; simp at hq
  have hr : r ≠ 0 := by rintro rfl; rw [h] at hq; simp at hq
  have e : t • (z - a) = r • (c - a) := add_left_cancel h
  have tp := lt_of_le_of_ne t0 ht.symm
  have rp := lt_of_le_of_ne r0 hr.symm
  rcases le_total t r with hh | hh
  · right
    refine ⟨t / r, div_nonneg t0 r0, (div_le_one rp).2 hh, ?_⟩
    dsimp only
    have : (t / r) • (z - a) = c - a := by
      rw [div_eq_inv_mul, ← smul_smul, e, smul_smul, inv_mul_cancel₀ hr, one_smul]
    rw [this]; abel
  · left
    refine ⟨r / t, div_nonneg r0 t0, (div_le_one tp).2 hh, ?_⟩
    dsimp only
    have : (r / t) • (c - a) = z - a := by
      rw [div_eq_inv_mul, ← smul_smul, ← e, smul_smul, inv_mul_cancel₀ ht, one_smul]
    rw [this]; abel

theorem inTri_side {s : K} {a v c q : Vec K} (hD : 0 < ori s a v c) (h : q ∈ segPts (c, a)) : InTri s a v c q := by
  have e1 : ori s v c a = ori s a v c := ori_rot _ _ _ _
  refine ⟨?_, ?_, (ori_seg h).ge⟩
  · exact ori_seg_nonneg h hD.le (by rw [ori_left])
  · exact ori_seg_nonneg h (by rw [ori_right]) (by rw [e1]; exact hD.le)

/-- Data about a corner `a`, `v`, `c` of a simple polygon. -/
structure Corner (f : ℕ → Vec K) (u : List ℕ) (s : K) (a v c : ℕ) : Prop where
  simple : Simple f u
  inn : (a, v) ∈ cyc u
  out : (v, c) ∈ cyc u
  pos : 0 < ori s (f a) (f v) (f c)

namespace Corner
variable {f : ℕ → Vec K} {u : List ℕ} {s : K} {a v c : ℕ}

theorem ne (h : Corner f u s a v c) : a ≠ v ∧ v ≠ c ∧ a ≠ c := by
  have := h.pos
  refine ⟨?_, ?_, ?_⟩
  · rintro rfl; simp [ori, ccw] at this
  · rintro rfl; rw [ori_right] at this; exact lt_irrefl _ this
  · rintro rfl; rw [ori_left] at this; exact lt_irrefl _ this

/-- The edges at `v`. -/
theorem incident (h : Corner f u s a v c) {y : ℕ × ℕ} (hy : y ∈ cyc u) (hv : v = y.1 ∨ v = y.2) : y = (a, v) ∨ y = (v, c) := by
  obtain ⟨y1, y2⟩ := y
  rcases hv with rfl | rfl
  · right; rw [next_unique h.simple.nodup hy h.out]
  · left; rw [prev_unique h.simple.nodup hy h.inn]

/-- An edge not at `v` that enters the triangle has an end point in it. -/
theorem high (h : Corner f u s a v c) {y : ℕ × ℕ} (hy : y ∈ cyc u) (hv : ¬ (v = y.1 ∨ v = y.2)) {p : Vec K} (hp : InTri s (f a) (f v) (f c) p)
    (h0 : 0 < ori s (f c) (f a) p) (hpy : p ∈ segPts (f y.1, f y.2)) :
    ∃ e ∈ u, InTri s (f a) (f v) (f c) (f e) ∧ ori s (f c) (f a) p ≤ ori s (f c) (f a) (f e) ∧ e ≠ a ∧ e ≠ v ∧ e ≠ c := by
  have key : ∀ e, (e = y.1 ∨ e = y.2) → ori s (f c) (f a) p ≤ ori s (f c) (f a) (f e) →
    ∃ e ∈ u, InTri s (f a) (f v) (f c) (f e) ∧ ori s (f c) (f a) p ≤ ori s (f c) (f a) (f e) ∧ e ≠ a ∧ e ≠ v ∧ e ≠ c := by
    intro e he hle
    have heu : e ∈ u := by
      rcases he with rfl | rfl
      · exact (mem_cyc hy).1
      · exact (mem_cyc hy).2
    have hpos : 0 < ori s (f c) (f a) (f e) := h0.trans_le hle
    by_cases hi : InTri s (f a) (f v) (f c) (f e)
    · refine ⟨e, heu, hi, hle, ?_, ?_, ?_⟩
      · rintro rfl; rw [ori_right] at hpos; exact lt_irrefl _ hpos
      · rintro rfl; exact hv he
      · rintro rfl; rw [ori_left] at hpos; exact lt_irrefl _ hpos
    · exfalso
      obtain ⟨r, hr, hside⟩ := leave h.pos hp hi hpos.le
      have hey : f e ∈ segPts (f y.1, f y.2) := by
        rcases he with rfl | rfl
        · exact left_mem_segPts _ _
        · exact right_mem_segPts _ _
      have hry := segPts_sub hpy hey hr
      have hrpos : 0 < ori s (f c) (f a) r := h0.trans_le (ori_seg_le hr le_rfl hle)
      rcases hside with hs | hs
      · obtain ⟨b, hb1, hb2, rfl⟩ := h.simple.meet y hy (a, v) h.inn (fun e => hv (by rw [e]; exact Or.inr rfl)) r hry hs
        rcases hb2 with rfl | rfl
        · rw [ori_right] at hrpos; exact lt_irrefl _ hrpos
        · exact hv hb1
      · obtain ⟨b, hb1, hb2, rfl⟩ := h.simple.meet y hy (v, c) h.out (fun e => hv (by rw [e]; exact Or.inl rfl)) r hry hs
        rcases hb2 with rfl | rfl
        · exact hv hb1
        · rw [ori_left] at hrpos; exact lt_irrefl _ hrpos
  rcases seg_higher (s := s) (a := f c) (b := f a) hpy with hh | hh
  · exact key y.1 (Or.inl rfl) hh
  · exact key y.2 (Or.inr rfl) hh

/-- If there are no other vertices in the triangle then the third side is a diagonal. -/
theorem chord (h : Corner f u s a v c) (hca : (c, a) ∉ cyc u)
    (hempty : ∀ z ∈ u, InTri s (f a) (f v) (f c) (f z) → z = a ∨ z = v ∨ z = c) : Chord f u a c := by
  intro y hy q hq hqy
  obtain ⟨n1, n2, n3⟩ := h.ne
  have hnd := h.simple.nodup
  have hau := (mem_cyc h.inn).1
  have hcu := (mem_cyc h.out).2
  have hin : ∀ q, q ∈ segPts (f a, f c) → InTri s (f a) (f v) (f c) q := fun q hq => inTri_side h.pos (segPts_comm hq)
  have hz0 : ori s (f c) (f a) q = 0 := ori_seg (segPts_comm hq)
  -- edges at `v`
  have e1 : y = (a, v) → (q = f a ∧ (a = y.1 ∨ a = y.2)) := by
    rintro rfl
    exact ⟨corner_of_zero h.pos (ori_seg hqy) hz0, Or.inl rfl⟩
  have e2 : y = (v, c) → (q = f c ∧ (c = y.1 ∨ c = y.2)) := by
    rintro rfl
    refine ⟨corner_of_zero (a := f c) (b := f a) (c := f v) ?_ hz0 (ori_seg hqy), Or.inr rfl⟩
    rw [← ori_rot]; exact h.pos
  by_cases hv : v = y.1 ∨ v = y.2
  · rcases h.incident hy hv with hy' | hy'
    · exact Or.inl (e1 hy')
    · exact Or.inr (e2 hy')
  by_cases ha : a = y.1 ∨ a = y.2
  · rcases ha with ha | ha
    · have : y = (a, v) := by
        obtain ⟨y1, y2⟩ := y
        dsimp only at ha
        subst ha
        rw [next_unique hnd hy h.inn]
      exact Or.inl (e1 this)
    · by_cases hqa : q = f a
      · exact Or.inl ⟨hqa, Or.inr ha⟩
      · exfalso
        obtain ⟨z, y2⟩ := y
        dsimp only at ha hqy hv
        subst ha
        have hzu := (mem_cyc hy).1
        have hzc : z ≠ c := by rintro rfl; exact hca hy
        have hza : z ≠ a := by
          rintro rfl
          exact n1 (next_unique hnd hy h.inn)
        rcases ray_meet (segPts_comm hqy) hq hqa with hh | hh
        · rcases hempty z hzu (hin _ hh) with h' | h' | h'
          · exact hza h'
          · exact hv (Or.inl h'.symm)
          · exact hzc h'
        · rcases h.simple.vertex_on hcu hy (segPts_comm hh) with h' | h'
          · exact hzc h'.symm
          · exact n3 h'.symm
  by_cases hc : c = y.1 ∨ c = y.2
  · rcases hc with hc | hc
    · by_cases hqc : q = f c
      · exact Or.inr ⟨hqc, Or.inl hc⟩
      · exfalso
        obtain ⟨y1, z⟩ := y
        dsimp only at hc hqy hv
        subst hc
        have hzu := (mem_cyc hy).2
        have hza : z ≠ a := by rintro rfl; exact hca hy
        have hzc : z ≠ c := by
          rintro rfl
          exact n2 (prev_unique hnd hy h.out).symm
        rcases ray_meet hqy (segPts_comm hq) hqc with hh | hh
        · rcases hempty z hzu (hin _ (segPts_comm hh)) with h' | h' | h'
          · exact hza h'
          · exact hv (Or.inr h'.symm)
          · exact hzc h'
        · rcases h.simple.vertex_on hau hy hh with h' | h'
          · exact n3 h'
          · exact hza h'.symm
    · have : y = (v, c) := by
        obtain ⟨y1, y2⟩ := y
        dsimp only at hc
        subst hc
        rw [prev_unique hnd hy h.out]
      exact Or.inr (e2 this)
  · exfalso
    have key : ∀ e, (e = y.1 ∨ e = y.2) → 0 ≤ ori s (f c) (f a) (f e) → False := by
      intro e he hle
      have heu : e ∈ u := by
        rcases he with rfl | rfl
        · exact (mem_cyc hy).1
        · exact (mem_cyc hy).2
      have hi : ¬ InTri s (f a) (f v) (f c) (f e) := by
        intro hi
        rcases hempty e heu hi with rfl | rfl | rfl
        · exact ha he
        · exact hv he
        · exact hc he
      obtain ⟨r, hr, hside⟩ := leave h.pos (hin q hq) hi hle
      have hey : f e ∈ segPts (f y.1, f y.2) := by
        rcases he with rfl | rfl
        · exact left_mem_segPts _ _
        · exact right_mem_segPts _ _
      have hry := segPts_sub hqy hey hr
      rcases hside with hs | hs
      · obtain ⟨b, hb1, hb2, rfl⟩ := h.simple.meet y hy (a, v) h.inn (fun e => hv (by rw [e]; exact Or.inr rfl)) r hry hs
        rcases hb2 with rfl | rfl
        · exact ha hb1
        · exact hv hb1
      · obtain ⟨b, hb1, hb2, rfl⟩ := h.simple.meet y hy (v, c) h.out (fun e => hv (by rw [e]; exact Or.inl rfl)) r hry hs
        rcases hb2 with rfl | rfl
        · exact hv hb1
        · exact hc hb1
    rcases seg_higher (s := s) (a := f c) (b := f a) hqy with hh | hh
    · exact key y.1 (Or.inl rfl) (by rwa [hz0] at hh)
    · exact key y.2 (Or.inr rfl) (by rwa [hz0] at hh)

/-- The highest vertex in the triangle is seen from `v`. -/
theorem chord_high (h : Corner f u s a v c) {w : ℕ} (hw : w ∈ u) (hwa : w ≠ a) (hwv : w ≠ v) (hwc : w ≠ c)
    (hi : InTri s (f a) (f v) (f c) (f w))
    (hmax : ∀ z ∈ u, z ≠ a → z ≠ v → z ≠ c → InTri s (f a) (f v) (f c) (f z) → ori s (f c) (f a) (f z) ≤ ori s (f c) (f a) (f w)) :
    (0 < ori s (f a) (f v) (f w) ∧ 0 < ori s (f v) (f c) (f w)) ∧ Chord f u v w := by
  have p1 : 0 < ori s (f a) (f v) (f w) := by
    refine lt_of_le_of_ne hi.1 fun h0 => ?_
    rcases h.simple.vertex_on hw h.inn (side_of_zero h.pos hi h0.symm) with h' | h'
    · exact hwa h'
    · exact hwv h'
  have p2 : 0 < ori s (f v) (f c) (f w) := by
    refine lt_of_le_of_ne hi.2.1 fun h0 => ?_
    rcases h.simple.vertex_on hw h.out (side_of_zero (by rw [ori_rot]; exact h.pos) hi.rot h0.symm) with h' | h'
    · exact hwv h'
    · exact hwc h'
  refine ⟨⟨p1, p2⟩, ?_⟩
  intro y hy q hq hqy
  by_cases hqw : q = f w
  · right
    refine ⟨hqw, h.simple.vertex_on hw hy (by rwa [hqw] at hqy)⟩
  obtain ⟨t, t0, t1, rfl⟩ := hq
  dsimp only at hqy hqw ⊢
  by_cases hv : v = y.1 ∨ v = y.2
  · left
    refine ⟨?_, hv⟩
    have ht : t = 0 := by
      rcases h.incident hy hv with rfl | rfl
      · have := ori_seg (s := s) hqy
        rw [ori_lin, ori_right] at this
        have h2 : t * ori s (f a) (f v) (f w) = 0 := by linarith
        rcases mul_eq_zero.1 h2 with h3 | h3
        · exact h3
        · exact absurd h3 p1.ne'
      · have := ori_seg (s := s) hqy
        rw [ori_lin, ori_left] at this
        have h2 : t * ori s (f v) (f c) (f w) = 0 := by linarith
        rcases mul_eq_zero.1 h2 with h3 | h3
        · exact h3
        · exact absurd h3 p2.ne'
    rw [ht]; simp
  · exfalso
    have ht : t < 1 := by
      refine lt_of_le_of_ne t1 ?_
      rintro rfl
      exact hqw (by simp)
    have hsum := ori_add s (f a) (f v) (f c) (f w)
    have hcv : ori s (f c) (f a) (f v) = ori s (f a) (f v) (f c) := (ori_rot s (f c) (f a) (f v)).symm
    have h0 := hi.2.2
    have hpos := h.pos
    have hgt : ori s (f c) (f a) (f w) < ori s (f c) (f a) (f v + t • (f w - f v)) := by
      rw [ori_lin, hcv]
      nlinarith
    have hseg : f v + t • (f w - f v) ∈ segPts (f v, f w) := ⟨t, t0, t1, rfl⟩
    have hpi : InTri s (f a) (f v) (f c) (f v + t • (f w - f v)) :=
      ⟨ori_seg_nonneg hseg (by rw [ori_right]) hi.1, ori_seg_nonneg hseg (by rw [ori_left]) hi.2.1, h0.trans hgt.le⟩
    obtain ⟨e, heu, hei, hle, ea, ev, ec⟩ := h.high hy hv hpi (h0.trans_lt hgt) hqy
    exact absurd (hmax e heu ea ev ec hei) (not_le.2 (hgt.trans_le hle))

end Corner

omit [LinearOrder K] [IsStrictOrderedRing K] in
theorem bary_sum (s : K) (a b c q : Vec K) :
    ori s b c q • (a - q) + ori s c a q • (b - q) + ori s a b q • (c - q) = 0 := by
  ext <;> simp [ori, ccw] <;> ring

/-- An extreme point is not in a triangle. -/
theorem not_inTri_extreme {H : Vec K → Prop} (hH : Cone H) {s : K} {a b c q : Vec K} (hD : 0 < ori s a b c) (ha : H (a - q)) (hb : H (b - q))
    (hc : H (c - q)) : ¬ InTri s a b c q := by
  rintro ⟨h1, h2, h3⟩
  have e := bary_sum s a b c q
  have hsum := ori_add s a b c q
  rcases h2.lt_or_eq with p | z
  · have := hH.add_nonneg h1 (hH.add_nonneg h3 (hH.smul _ _ p ha) hb) hc
    rw [e] at this
    exact hH.zero this
  · rw [← z, zero_smul, zero_add] at e
    rcases h3.lt_or_eq with p | z'
    · have := hH.add_nonneg h1 (hH.smul _ _ p hb) hc
      rw [e] at this
      exact hH.zero this
    · rw [← z', zero_smul, zero_add] at e
      have p : 0 < ori s a b q := by linarith
      have := hH.smul _ _ p hc
      rw [e] at this
      exact hH.zero this

/-- An extreme vertex. -/
theorem exists_extreme {H : Vec K → Prop} (hH : Cone H) (htot : ∀ v, v ≠ 0 → H v ∨ H (-v)) (f : ℕ → Vec K) (L : List ℕ) (hL : L ≠ [])
    (hinj : ∀ a ∈ L, ∀ b ∈ L, f a = f b → a = b) : ∃ v ∈ L, ∀ z ∈ L, z ≠ v → H (f z - f v) := by
  induction L with
  | nil => exact absurd rfl hL
  | cons x L ih =>
    by_cases hn : L = []
    · subst hn
      exact ⟨x, by simp, fun z hz hne => absurd (List.mem_singleton.1 hz) hne⟩
    · obtain ⟨v, hv, hmin⟩ := ih hn fun a ha b hb => hinj a (List.mem_cons_of_mem _ ha) b (List.mem_cons_of_mem _ hb)
      have hv' := List.mem_cons_of_mem x hv
      by_cases hxv : x = v
      · subst hxv
        refine ⟨x, by simp, fun z hz hne => ?_⟩
        rcases List.mem_cons.1 hz with rfl | hz
        · exact absurd rfl hne
        · exact hmin z hz hne
      · rcases htot (f x - f v) (fun h0 => hxv (hinj x (by simp) v hv' (sub_eq_zero.1 h0))) with hh | hh
        · refine ⟨v, hv', fun z hz hne => ?_⟩
          rcases List.mem_cons.1 hz with rfl | hz
          · exact hh
          · exact hmin z hz hne
        · rw [neg_sub] at hh
          refine ⟨x, by simp, fun z hz hne => ?_⟩
          rcases List.mem_cons.1 hz with rfl | hz
          · exact absurd rfl hne
          · by_cases hzv : z = v
            · rw [hzv]; exact hh
            · have := hH.add _ _ (hmin z hz hzv) hh
              rwa [sub_add_sub_cancel] at this

/-- Parallel vectors in a half plane. -/
theorem Cone.parallel {H : Vec K → Prop} (hH : Cone H) {x y : Vec K} (hx : H x) (hy : H y) (h : ccw x y = 0) : ∃ k : K, 0 < k ∧ y = k • x := by
  have hx0 : x ≠ 0 := by rintro rfl; exact hH.zero hx
  have hk : ∃ k : K, y = k • x := by
    simp only [ccw] at h
    by_cases h1 : x.1 = 0
    · have h2 : x.2 ≠ 0 := fun h2 => hx0 (Prod.ext h1 h2)
      refine ⟨y.2 / x.2, ?_⟩
      rw [h1, zero_mul, zero_sub, neg_eq_zero] at h
      have h3 : y.1 = 0 := (mul_eq_zero.1 h).resolve_left h2
      ext
      · simp [h1, h3]
      · simp [h2]
    · refine ⟨y.1 / x.1, ?_⟩
      ext
      · simp [h1]
      · simp only [Prod.smul_snd, smul_eq_mul]
        field_simp
        linarith
  obtain ⟨k, rfl⟩ := hk
  refine ⟨k, ?_, rfl⟩
  by_contra hh
  have := hH.add_nonneg (neg_nonneg.2 (not_lt.1 hh)) hy hx
  rw [neg_smul, add_neg_cancel] at this
  exact hH.zero this

/-- Three vertices in a row at an extreme vertex are not on a line. -/
theorem extreme_turn {f : ℕ → Vec K} {u : List ℕ} (h : Simple f u) {H : Vec K → Prop} (hH : Cone H) {a v c : ℕ} (h1 : (a, v) ∈ cyc u)
    (h2 : (v, c) ∈ cyc u) (hac : a ≠ c) (ha : H (f a - f v)) (hc : H (f c - f v)) : ori 1 (f a) (f v) (f c) ≠ 0 := by
  intro h0
  have hav : a ≠ v := by rintro rfl; rw [sub_self] at ha; exact hH.zero ha
  have hcv : c ≠ v := by rintro rfl; rw [sub_self] at hc; exact hH.zero hc
  have h3 : ccw (f c - f v) (f a - f v) = 0 := by
    rw [← ori_rot] at h0
    simpa [ori] using h0
  obtain ⟨k, hk, he⟩ := Cone.parallel hH hc ha h3
  have hne : f c ≠ f v := fun e => hcv (h.inj _ (mem_cyc h2).2 _ (mem_cyc h2).1 e)
  rcases le_total k 1 with hk1 | hk1
  · have : f a ∈ segPts (f v, f c) := ⟨k, hk.le, hk1, by dsimp only; rw [← he]; abel⟩
    rcases h.vertex_on (mem_cyc h1).1 h2 this with h' | h'
    · exact hav h'
    · exact hac h'
  · have : f c ∈ segPts (f v, f a) := by
      refine ⟨1 / k, by positivity, (div_le_one hk).2 hk1, ?_⟩
      dsimp only
      rw [he, smul_smul, one_div, inv_mul_cancel₀ hk.ne', one_smul]; abel
    rcases h.vertex_on (mem_cyc h2).2 h1 (segPts_comm this) with h' | h'
    · exact hac h'.symm
    · exact hcv h'

theorem ori_one_ne {a v c : Vec K} (h : ori 1 a v c ≠ 0) : ∃ s : K, (s = 1 ∨ s = -1) ∧ 0 < ori s a v c := by
  rcases lt_or_gt_of_ne h with hh | hh
  · exact ⟨-1, Or.inr rfl, by rw [ori_neg]; linarith⟩
  · exact ⟨1, Or.inl rfl, hh⟩

/-- Signs with which something is positive agree. -/
theorem sign_unique {s s' : K} (h : s = 1 ∨ s = -1) (h' : s' = 1 ∨ s' = -1) {a b c : Vec K} (h1 : 0 < ori s a b c) (h2 : 0 < ori s' a b c) :
    s' = s := by
  rcases h with rfl | rfl <;> rcases h' with rfl | rfl
  · rfl
  · rw [ori_neg] at h2; linarith
  · rw [ori_neg] at h1; linarith
  · rfl

/-- What is left after clipping an extreme vertex has the same orientation. -/
theorem Corner.sign {f : ℕ → Vec K} {u u1 : List ℕ} {s s1 : K} {a v c : ℕ} {T : List Triple} (h : Corner f u s a v c) (hs : s = 1 ∨ s = -1)
    (hs1 : s1 = 1 ∨ s1 = -1)
    (hempty : ∀ z ∈ u, InTri s (f a) (f v) (f c) (f z) → z = a ∨ z = v ∨ z = c) (hT : Tri f s1 u1 T)
    (hu1 : ∀ y ∈ cyc u1, y = (a, c) ∨ (y ∈ cyc u ∧ ¬ (v = y.1 ∨ v = y.2))) (hac : (a, c) ∈ cyc u1) (hv : ¬ Region f s1 T (f v)) : s1 = s := by
  by_contra hne
  have hneg : s1 = -s := by
    rcases hs with rfl | rfl <;> rcases hs1 with rfl | rfl
    · exact absurd rfl hne
    · rfl
    · simp
    · exact absurd rfl hne
  obtain ⟨w, hw⟩ := hT.boundary hac
  have hD := hT.pos a c w hw
  have hpos := h.pos
  have hcav : ori s (f c) (f a) (f v) = ori s (f a) (f v) (f c) := (ori_rot s (f c) (f a) (f v)).symm
  have hacv : ori s1 (f a) (f c) (f v) = ori s (f a) (f v) (f c) := by rw [hneg, ori_neg, ori_swap, neg_neg]
  obtain ⟨q, hq⟩ : ∃ q, q = f a + (1 / 2 : K) • (f c - f a) := ⟨_, rfl⟩
  have o1 : ori s1 (f a) (f c) q = 0 := by rw [hq, ori_lin, ori_left, ori_right]; ring
  have o2 : 0 < ori s1 (f c) (f w) q := by
    rw [hq, ori_lin, ori_left]
    have : ori s1 (f c) (f w) (f a) = ori s1 (f a) (f c) (f w) := ori_rot _ _ _ _
    rw [this]; linarith
  have o3 : 0 < ori s1 (f w) (f a) q := by
    rw [hq, ori_lin, ori_right]
    have : ori s1 (f w) (f a) (f c) = ori s1 (f a) (f c) (f w) := (ori_rot _ _ _ _).symm
    rw [this]; linarith
  obtain ⟨e2, p2, q2⟩ := exists_eps o2 (s1 * ccw (f w - f c) (f v - q))
  obtain ⟨e3, p3, q3⟩ := exists_eps o3 (s1 * ccw (f a - f w) (f v - q))
  have he : 0 < min 1 (min e2 e3) := lt_min one_pos (lt_min p2 p3)
  have he1 : min 1 (min e2 e3) ≤ 1 := min_le_left _ _
  have he2 : min 1 (min e2 e3) ≤ e2 := (min_le_right _ _).trans (min_le_left _ _)
  have he3 : min 1 (min e2 e3) ≤ e3 := (min_le_right _ _).trans (min_le_right _ _)
  generalize min 1 (min e2 e3) = e at *
  have hx : Region f s1 T (q + e • (f v - q)) := by
    refine ⟨a, c, w, hw, ?_, ?_, ?_⟩
    · rw [ori_lin, o1, hacv]
      nlinarith
    · rw [ori_dir]; exact (q2 e he.le he2).le
    · rw [ori_dir]; exact (q3 e he.le he3).le
  refine hv (hT.stay hx fun r hr hb => ?_)
  have hqac : q ∈ segPts (f c, f a) := segPts_comm ⟨1 / 2, by norm_num, by norm_num, hq⟩
  have hqi := inTri_side h.pos hqac
  have hqv : ∀ x ∈ segPts (q, f v), InTri s (f a) (f v) (f c) x := fun x hx =>
    ⟨ori_seg_nonneg hx hqi.1 (by rw [ori_right]), ori_seg_nonneg hx hqi.2.1 (by rw [ori_left]), ori_seg_nonneg hx hqi.2.2 (by rw [hcav]; exact hpos.le)⟩
  have hxs : q + e • (f v - q) ∈ segPts (q, f v) := ⟨e, he.le, he1, rfl⟩
  have hrs : r ∈ segPts (q, f v) := segPts_sub hxs (right_mem_segPts _ _) hr
  have hrpos : 0 < ori s (f c) (f a) r := by
    have h1 : e * ori s (f a) (f v) (f c) ≤ ori s (f c) (f a) r := by
      refine ori_seg_le hr ?_ ?_
      · rw [ori_lin, ori_seg hqac, hcav]; linarith
      · rw [hcav]; nlinarith
    exact (mul_pos he hpos).trans_le h1
  obtain ⟨y, hy, hry⟩ := hb
  rcases hu1 y hy with rfl | ⟨hyu, hvy⟩
  · rw [ori_seg (segPts_comm hry)] at hrpos
    exact lt_irrefl _ hrpos
  · obtain ⟨z, hz, hzi, -, z1, z2, z3⟩ := h.high hyu hvy (hqv r hrs) hrpos hry
    rcases hempty z hz hzi with h' | h' | h'
    · exact z1 h'
    · exact z2 h'
    · exact z3 h'

/-- The highest vertex among some. -/
theorem exists_highest (g : ℕ → K) (L : List ℕ) (hL : L ≠ []) : ∃ w ∈ L, ∀ z ∈ L, g z ≤ g w := by
  induction L with
  | nil => exact absurd rfl hL
  | cons x L ih =>
    by_cases hn : L = []
    · subst hn
      exact ⟨x, by simp, fun z hz => by rw [List.mem_singleton.1 hz]⟩
    · obtain ⟨w, hw, hmax⟩ := ih hn
      rcases le_total (g x) (g w) with hh | hh
      · refine ⟨w, List.mem_cons_of_mem _ hw, fun z hz => ?_⟩
        rcases List.mem_cons.1 hz with rfl | hz
        · exact hh
        · exact hmax z hz
      · refine ⟨x, by simp, fun z hz => ?_⟩
        rcases List.mem_cons.1 hz with rfl | hz
        · exact le_rfl
        · exact (hmax z hz).trans hh

theorem mem_part1 {v w z : ℕ} {A B : List ℕ} (h : z ∈ v :: A ++ [w]) : z ∈ v :: A ++ w :: B := by
  rcases List.mem_append.1 h with h | h
  · exact List.mem_append_left _ h
  · rw [List.mem_singleton.1 h]; simp

theorem mem_part2 {v w z : ℕ} {A B : List ℕ} (h : z ∈ w :: B ++ [v]) : z ∈ v :: A ++ w :: B := by
  rcases List.mem_append.1 h with h | h
  · exact List.mem_append_right _ h
  · rw [List.mem_singleton.1 h]; simp

theorem split_nodup {v w : ℕ} {A B : List ℕ} (h : (v :: A ++ w :: B).Nodup) : v ∉ A ∧ v ∉ B ∧ w ∉ A ∧ w ∉ B := by
  have hd := List.disjoint_of_nodup_append h
  refine ⟨(List.nodup_cons.1 (List.Nodup.of_append_left h)).1, fun hh => hd (by simp) (List.mem_cons_of_mem _ hh),
    fun hh => hd (List.mem_cons_of_mem _ hh) (by simp), (List.nodup_cons.1 (List.Nodup.of_append_right h)).1⟩

/-- The edges on both sides of a diagonal only meet at its ends. -/
theorem Simple.cross {f : ℕ → Vec K} {v w : ℕ} {A B : List ℕ} (h : Simple f (v :: A ++ w :: B)) (hc : Chord f (v :: A ++ w :: B) v w)
    {x y : ℕ × ℕ} (hx : x ∈ chn (w :: B ++ [v])) (hy : y ∈ cyc (v :: A ++ [w])) {r : Vec K} (hrx : r ∈ segPts (f x.1, f x.2))
    (hry : r ∈ segPts (f y.1, f y.2)) : (r = f v ∧ (v = x.1 ∨ v = x.2)) ∨ (r = f w ∧ (w = x.1 ∨ w = x.2)) := by
  have hxu : x ∈ cyc (v :: A ++ w :: B) := by rw [cyc_split]; exact List.mem_append_right _ hx
  rw [cyc_snoc, List.mem_append, List.mem_singleton] at hy
  rcases hy with hy | rfl
  · have hyu : y ∈ cyc (v :: A ++ w :: B) := by rw [cyc_split]; exact List.mem_append_left _ hy
    have hne : x ≠ y := by
      rintro rfl
      have := cyc_nodup h.nodup
      rw [cyc_split] at this
      exact List.disjoint_of_nodup_append this hy hx
    obtain ⟨b, hb1, hb2, rfl⟩ := h.meet x hxu y hyu hne r hrx hry
    have m1 : b ∈ w :: B ++ [v] := by
      rcases hb1 with rfl | rfl
      · exact (mem_chn hx).1
      · exact (mem_chn hx).2
    have m2 : b ∈ v :: A ++ [w] := by
      rcases hb2 with rfl | rfl
      · exact (mem_chn hy).1
      · exact (mem_chn hy).2
    have hnd := h.nodup
    have hbvw : b = v ∨ b = w := by
      simp only [List.cons_append, List.mem_cons, List.mem_append, List.not_mem_nil, or_false] at m1 m2
      rcases m2 with h1 | h1 | h1
      · exact Or.inl h1
      · rcases m1 with h2 | h2 | h2
        · exact Or.inr h2
        · exfalso
          exact List.disjoint_of_nodup_append hnd (List.mem_cons_of_mem _ h1) (List.mem_cons_of_mem _ h2)
        · exact Or.inl h2
      · exact Or.inr h1
    rcases hbvw with rfl | rfl
    · exact Or.inl ⟨rfl, hb1⟩
    · exact Or.inr ⟨rfl, hb1⟩
  · exact hc x hxu r (segPts_comm hry) hrx

end Poly
end Flat
