import Verif.Lemmas.Segment
import Mathlib.Tactic.Linarith

/-!
# Triangles in the plane
-/

namespace Flat
variable {K : Type} [Field K] [LinearOrder K] [IsStrictOrderedRing K]

/-- The orientation of a triangle, times a sign. -/
def ori (s : K) (a b c : Vec K) : K := s * ccw (b - a) (c - a)

omit [LinearOrder K] [IsStrictOrderedRing K] in
theorem ori_rot (s : K) (a b c : Vec K) : ori s b c a = ori s a b c := by
  simp only [ori, ccw, Prod.fst_sub, Prod.snd_sub]; ring

omit [LinearOrder K] [IsStrictOrderedRing K] in
theorem ori_swap (s : K) (a b c : Vec K) : ori s a c b = -ori s a b c := by
  simp only [ori, ccw, Prod.fst_sub, Prod.snd_sub]; ring

omit [LinearOrder K] [IsStrictOrderedRing K] in
theorem ori_flip (s : K) (a b c : Vec K) : ori s b a c = -ori s a b c := by
  simp only [ori, ccw, Prod.fst_sub, Prod.snd_sub]; ring

omit [LinearOrder K] [IsStrictOrderedRing K] in
theorem ori_neg (s : K) (a b c : Vec K) : ori (-s) a b c = -ori s a b c := by
  simp only [ori]; ring

omit [LinearOrder K] [IsStrictOrderedRing K] in
theorem ori_left (s : K) (a b : Vec K) : ori s a b a = 0 := by
  simp only [ori, ccw, Prod.fst_sub, Prod.snd_sub]; ring

omit [LinearOrder K] [IsStrictOrderedRing K] in
theorem ori_right (s : K) (a b : Vec K) : ori s a b b = 0 := by
  simp only [ori, ccw, Prod.fst_sub, Prod.snd_sub]; ring

omit [LinearOrder K] [IsStrictOrderedRing K] in
theorem ori_add (s : K) (a b c q : Vec K) : ori s a b q + ori s b c q + ori s c a q = ori s a b c := by
  simp only [ori, ccw, Prod.fst_sub, Prod.snd_sub]; ring

omit [LinearOrder K] [IsStrictOrderedRing K] in
theorem ori_lin (s : K) (a b p q : Vec K) (t : K) :
    ori s a b (p + t • (q - p)) = ori s a b p + t * (ori s a b q - ori s a b p) := by
  simp only [ori, ccw, Prod.fst_sub, Prod.snd_sub, Prod.fst_add, Prod.snd_add, Prod.smul_fst, Prod.smul_snd, smul_eq_mul]; ring

omit [LinearOrder K] [IsStrictOrderedRing K] in
theorem ori_dir (s : K) (a b p d : Vec K) (t : K) : ori s a b (p + t • d) = ori s a b p + t * (s * ccw (b - a) d) := by
  simp only [ori, ccw, Prod.fst_sub, Prod.snd_sub, Prod.fst_add, Prod.snd_add, Prod.smul_fst, Prod.smul_snd, smul_eq_mul]; ring

omit [LinearOrder K] [IsStrictOrderedRing K] in
/-- Barycentric coordinates. -/
theorem bary (s : K) (a b c q : Vec K) :
    ori s a b c • (q - a) = ori s c a q • (b - a) + ori s a b q • (c - a) := by
  ext <;> simp only [ori, ccw, Prod.fst_sub, Prod.snd_sub, Prod.fst_add, Prod.snd_add, Prod.smul_fst, Prod.smul_snd, smul_eq_mul] <;> ring

omit [LinearOrder K] [IsStrictOrderedRing K] in
theorem bary' (s : K) (a b c q : Vec K) (h : ori s a b c ≠ 0) :
    q = a + (ori s c a q / ori s a b c) • (b - a) + (ori s a b q / ori s a b c) • (c - a) := by
  have := bary s a b c q
  generalize ori s a b c = D at *
  have h2 : q - a = (D⁻¹) • (D • (q - a)) := by rw [smul_smul, inv_mul_cancel₀ h, one_smul]
  rw [this, smul_add, smul_smul, smul_smul] at h2
  rw [div_eq_inv_mul, div_eq_inv_mul, add_assoc, ← h2]
  abel

/-- The points of a closed triangle. -/
def InTri (s : K) (a b c q : Vec K) : Prop := 0 ≤ ori s a b q ∧ 0 ≤ ori s b c q ∧ 0 ≤ ori s c a q

omit [IsStrictOrderedRing K] in
theorem InTri.rot {s : K} {a b c q : Vec K} (h : InTri s a b c q) : InTri s b c a q := ⟨h.2.1, h.2.2, h.1⟩

theorem ori_seg {s : K} {a b q : Vec K} (h : q ∈ segPts (a, b)) : ori s a b q = 0 := by
  obtain ⟨t, -, -, rfl⟩ := h
  rw [ori_lin, ori_left, ori_right]
  ring

/-- The points on a side. -/
theorem side_of_zero {s : K} {a b c q : Vec K} (hD : 0 < ori s a b c) (h : InTri s a b c q) (h0 : ori s a b q = 0) :
    q ∈ segPts (a, b) := by
  refine ⟨ori s c a q / ori s a b c, div_nonneg h.2.2 hD.le, ?_, ?_⟩
  · rw [div_le_one hD, ← ori_add s a b c q]
    linarith [h.1, h.2.1]
  · have := bary' s a b c q hD.ne'
    rw [h0, zero_div, zero_smul, add_zero] at this
    exact this

theorem corner_of_zero {s : K} {a b c q : Vec K} (hD : 0 < ori s a b c) (h0 : ori s a b q = 0) (h1 : ori s c a q = 0) : q = a := by
  have := bary' s a b c q hD.ne'
  rw [h0, h1, zero_div, zero_smul, zero_smul, add_zero, add_zero] at this
  exact this

theorem segPts_comm {a b q : Vec K} (h : q ∈ segPts (a, b)) : q ∈ segPts (b, a) := by
  obtain ⟨t, h0, h1, rfl⟩ := h
  refine ⟨1 - t, by linarith, by linarith, ?_⟩
  ext <;> simp <;> ring

theorem left_mem_segPts (a b : Vec K) : a ∈ segPts (a, b) := ⟨0, le_rfl, zero_le_one, by simp⟩

theorem right_mem_segPts (a b : Vec K) : b ∈ segPts (a, b) := ⟨1, zero_le_one, le_rfl, by simp⟩

/-- Parts of segments. -/
theorem segPts_sub {a b p q r : Vec K} (hp : p ∈ segPts (a, b)) (hq : q ∈ segPts (a, b)) (hr : r ∈ segPts (p, q)) : r ∈ segPts (a, b) := by
  obtain ⟨t, t0, t1, rfl⟩ := hp
  obtain ⟨u, u0, u1, rfl⟩ := hq
  obtain ⟨w, w0, w1, rfl⟩ := hr
  refine ⟨t + w * (u - t), ?_, ?_, ?_⟩
  · nlinarith [mul_nonneg (sub_nonneg.2 w1) t0, mul_nonneg w0 u0]
  · nlinarith [mul_nonneg (sub_nonneg.2 w1) (sub_nonneg.2 t1), mul_nonneg w0 (sub_nonneg.2 u1)]
  · ext <;> simp <;> ring

/-- One of the end points of a segment is at least as high as a given point. -/
theorem seg_higher {s : K} {a b p q x : Vec K} (h : x ∈ segPts (p, q)) :
    ori s a b x ≤ ori s a b p ∨ ori s a b x ≤ ori s a b q := by
  obtain ⟨t, h0, h1, rfl⟩ := h
  rw [ori_lin]
  dsimp only
  rcases le_total (ori s a b p) (ori s a b q) with hh | hh
  · right
    nlinarith [mul_nonneg (sub_nonneg.2 h1) (sub_nonneg.2 hh)]
  · left
    nlinarith [mul_nonneg h0 (sub_nonneg.2 hh)]

/-- Triangles are convex. -/
theorem ori_seg_nonneg {s : K} {a b p q x : Vec K} (h : x ∈ segPts (p, q)) (hp : 0 ≤ ori s a b p) (hq : 0 ≤ ori s a b q) :
    0 ≤ ori s a b x := by
  obtain ⟨t, h0, h1, rfl⟩ := h
  rw [ori_lin]
  dsimp only
  nlinarith [mul_nonneg h0 hq, mul_nonneg (sub_nonneg.2 h1) hp]

theorem ori_seg_le {s : K} {a b p q x : Vec K} {c : K} (h : x ∈ segPts (p, q)) (hp : c ≤ ori s a b p) (hq : c ≤ ori s a b q) :
    c ≤ ori s a b x := by
  obtain ⟨t, h0, h1, rfl⟩ := h
  rw [ori_lin]
  dsimp only
  nlinarith [mul_nonneg h0 (sub_nonneg.2 hq), mul_nonneg (sub_nonneg.2 h1) (sub_nonneg.2 hp)]

/-- Leaving a triangle `a`, `v`, `c` other than through the side `c`, `a`. -/
theorem leave {s : K} {a v c p x : Vec K} (hD : 0 < ori s a v c) (hp : InTri s a v c p) (hx : ¬ InTri s a v c x)
    (hc : 0 ≤ ori s c a x) : ∃ r, r ∈ segPts (p, x) ∧ (r ∈ segPts (a, v) ∨ r ∈ segPts (v, c)) := by
  obtain ⟨h1, h2, h3⟩ := hp
  -- the place where one of the quantities vanishes
  have zero : ∀ {α β : K}, 0 ≤ α → β < 0 → 0 ≤ α / (α - β) ∧ α / (α - β) ≤ 1 ∧ α + α / (α - β) * (β - α) = 0 := by
    intro α β hα hβ
    have hd : 0 < α - β := by linarith
    refine ⟨div_nonneg hα hd.le, (div_le_one hd).2 (by linarith), ?_⟩
    field_simp
    ring
  have nn : ∀ {α β t : K}, 0 ≤ α → 0 ≤ β → 0 ≤ t → t ≤ 1 → 0 ≤ α + t * (β - α) := fun hα hβ h0 h1 => by
    nlinarith [mul_nonneg h0 hβ, mul_nonneg (sub_nonneg.2 h1) hα]
  rcases lt_or_ge (ori s a v x) 0 with hα | hα
  · obtain ⟨t0, t1, tz⟩ := zero h1 hα
    rcases lt_or_ge (ori s v c x) 0 with hβ | hβ
    · obtain ⟨u0, u1, uz⟩ := zero h2 hβ
      rcases le_total (ori s a v p / (ori s a v p - ori s a v x)) (ori s v c p / (ori s v c p - ori s v c x)) with hle | hle
      · refine ⟨_, ⟨_, t0, t1, rfl⟩, Or.inl (side_of_zero hD ⟨?_, ?_, ?_⟩ ?_)⟩ <;> rw [ori_lin] <;> dsimp only
        · exact tz.ge
        · nlinarith [mul_nonneg (sub_nonneg.2 hle) (by linarith : (0 : K) ≤ ori s v c p - ori s v c x)]
        · exact nn h3 hc t0 t1
        · exact tz
      · refine ⟨_, ⟨_, u0, u1, rfl⟩, Or.inr (side_of_zero (c := a) (by rwa [ori_rot]) ⟨?_, ?_, ?_⟩ ?_)⟩ <;> rw [ori_lin] <;> dsimp only
        · exact uz.ge
        · exact nn h3 hc u0 u1
        · nlinarith [mul_nonneg (sub_nonneg.2 hle) (by linarith : (0 : K) ≤ ori s a v p - ori s a v x)]
        · exact uz
    · refine ⟨_, ⟨_, t0, t1, rfl⟩, Or.inl (side_of_zero hD ⟨?_, ?_, ?_⟩ ?_)⟩ <;> rw [ori_lin] <;> dsimp only
      · exact tz.ge
      · exact nn h2 hβ t0 t1
      · exact nn h3 hc t0 t1
      · exact tz
  · have hβ : ori s v c x < 0 := by
      by_contra hh
      exact hx ⟨hα, not_lt.1 hh, hc⟩
    obtain ⟨u0, u1, uz⟩ := zero h2 hβ
    refine ⟨_, ⟨_, u0, u1, rfl⟩, Or.inr (side_of_zero (c := a) (by rwa [ori_rot]) ⟨?_, ?_, ?_⟩ ?_)⟩ <;> rw [ori_lin] <;> dsimp only
    · exact uz.ge
    · exact nn h3 hc u0 u1
    · exact nn h1 hα u0 u1
    · exact uz

/-- Positive quantities stay positive for a while. -/
theorem exists_eps {x : K} (hx : 0 < x) (y : K) : ∃ e : K, 0 < e ∧ ∀ d, 0 ≤ d → d ≤ e → 0 < x + d * y := by
  rcases le_or_gt 0 y with hy | hy
  · exact ⟨1, one_pos, fun d h0 _ => by nlinarith [mul_nonneg h0 hy]⟩
  · have h2 : 0 < -(2 * y) := by linarith
    refine ⟨x / -(2 * y), div_pos hx h2, fun d h0 h1 => ?_⟩
    rw [le_div_iff₀ h2] at h1
    nlinarith

/-- The last time at which linear inequalities are true. -/
theorem last_time (L : List (K × K)) (t0 : K) (h0 : 0 ≤ t0) (h1 : t0 ≤ 1) (h : ∀ c ∈ L, 0 ≤ c.1 + t0 * c.2) :
    ∃ m, t0 ≤ m ∧ m ≤ 1 ∧ (∀ c ∈ L, 0 ≤ c.1 + m * c.2) ∧ ∀ t, m < t → t ≤ 1 → ¬ ∀ c ∈ L, 0 ≤ c.1 + t * c.2 := by
  induction L with
  | nil => exact ⟨1, h1, le_rfl, by simp, fun t ht ht' => absurd ht' (not_le.2 ht)⟩
  | cons x L ih =>
    obtain ⟨m, m1, m2, m3, m4⟩ := ih (fun c hc => h c (List.mem_cons_of_mem _ hc))
    have hx := h x (by simp)
    by_cases hm : 0 ≤ x.1 + m * x.2
    · refine ⟨m, m1, m2, ?_, fun t ht ht' hall => m4 t ht ht' fun c hc => hall c (List.mem_cons_of_mem _ hc)⟩
      intro c hc
      rcases List.mem_cons.1 hc with rfl | hc
      · exact hm
      · exact m3 c hc
    · rw [not_le] at hm
      have hneg : x.2 < 0 := by
        by_contra hh
        nlinarith [mul_nonneg (sub_nonneg.2 m1) (not_lt.1 hh)]
      have e1 : x.1 + -x.1 / x.2 * x.2 = 0 := by rw [div_mul_cancel₀ _ hneg.ne]; ring
      have le1 : t0 ≤ -x.1 / x.2 := by
        rw [le_div_iff_of_neg hneg]; linarith
      have le2 : -x.1 / x.2 < m := by
        rw [div_lt_iff_of_neg hneg]; linarith
      refine ⟨-x.1 / x.2, le1, le2.le.trans m2, ?_, ?_⟩
      · intro c hc
        rcases List.mem_cons.1 hc with rfl | hc
        · exact e1.ge
        · have a1 := h c (List.mem_cons_of_mem _ hc)
          have a2 := m3 c hc
          generalize -x.1 / x.2 = z at *
          rcases le_or_gt 0 c.2 with hc2 | hc2
          · nlinarith [mul_nonneg (sub_nonneg.2 le1) hc2]
          · nlinarith [mul_nonneg (sub_nonneg.2 le2.le) (neg_nonneg.2 hc2.le)]
      · intro t ht _ hall
        have := hall x (by simp)
        generalize -x.1 / x.2 = z at *
        nlinarith [mul_pos (sub_pos.2 ht) (neg_pos.2 hneg)]

/-- Finitely many things that are true for a while are true together for a while. -/
theorem common_eps {α : Type} (L : List α) (Q : α → K → Prop) (h : ∀ x ∈ L, ∃ e : K, 0 < e ∧ ∀ d, 0 < d → d ≤ e → Q x d) :
    ∃ e : K, 0 < e ∧ ∀ x ∈ L, ∀ d, 0 < d → d ≤ e → Q x d := by
  induction L with
  | nil => exact ⟨1, one_pos, by simp⟩
  | cons x L ih =>
    obtain ⟨e, he, hq⟩ := ih fun y hy => h y (List.mem_cons_of_mem _ hy)
    obtain ⟨e', he', hq'⟩ := h x (by simp)
    refine ⟨min e e', lt_min he he', fun y hy d hd hd' => ?_⟩
    rcases List.mem_cons.1 hy with rfl | hy
    · exact hq' d hd (hd'.trans (min_le_right _ _))
    · exact hq y hy d hd (hd'.trans (min_le_left _ _))

/-- Directions in a half plane. -/
structure Cone (H : Vec K → Prop) : Prop where
  zero : ¬ H 0
  add : ∀ v w, H v → H w → H (v + w)
  smul : ∀ (c : K) v, 0 < c → H v → H (c • v)

omit [LinearOrder K] [IsStrictOrderedRing K] in
theorem ccw_cycle (u v w : Vec K) : ccw u v • w + ccw v w • u + ccw w u • v = 0 := by
  ext <;> simp [ccw] <;> ring

theorem Cone.add_nonneg {H : Vec K → Prop} (h : Cone H) {v w : Vec K} {c : K} (hc : 0 ≤ c) (hv : H v) (hw : H w) : H (v + c • w) := by
  rcases hc.lt_or_eq with hc | rfl
  · exact h.add _ _ hv (h.smul _ _ hc hw)
  · simpa using hv

/-- In a half plane the order by angle is transitive. -/
theorem Cone.trans {H : Vec K → Prop} (h : Cone H) {s : K} {u v w : Vec K} (hu : H u) (hv : H v) (hw : H w) (h1 : 0 ≤ s * ccw u v)
    (h2 : 0 ≤ s * ccw v w) : 0 ≤ s * ccw u w := by
  by_contra hh
  rw [not_le] at hh
  have e : (s * ccw w u) • v + (s * ccw u v) • w + (s * ccw v w) • u = 0 := by
    have := congrArg (s • ·) (ccw_cycle u v w)
    simp only [smul_add, smul_smul, smul_zero] at this
    rw [← this]; abel
  have pos : 0 < s * ccw w u := by
    have : ccw w u = -ccw u w := by simp [ccw]; ring
    rw [this]; linarith
  have := h.add_nonneg h2 (h.add_nonneg h1 (h.smul _ _ pos hv) hw) hu
  rw [e] at this
  exact h.zero this

theorem Cone.trans_lt {H : Vec K → Prop} (h : Cone H) {s : K} {u v w : Vec K} (hu : H u) (hv : H v) (hw : H w) (h1 : 0 < s * ccw u v)
    (h2 : 0 ≤ s * ccw v w) : 0 < s * ccw u w := by
  by_contra hh
  rw [not_lt] at hh
  have e : (s * ccw u v) • w + (s * ccw v w) • u + (s * ccw w u) • v = 0 := by
    have := congrArg (s • ·) (ccw_cycle u v w)
    simp only [smul_add, smul_smul, smul_zero] at this
    rw [← this]
  have nn : 0 ≤ s * ccw w u := by
    have : ccw w u = -ccw u w := by simp [ccw]; ring
    rw [this]; linarith
  have := h.add_nonneg nn (h.add_nonneg h2 (h.smul _ _ h1 hw) hu) hv
  rw [e] at this
  exact h.zero this

theorem Cone.trans_lt' {H : Vec K → Prop} (h : Cone H) {s : K} {u v w : Vec K} (hu : H u) (hv : H v) (hw : H w) (h1 : 0 ≤ s * ccw u v)
    (h2 : 0 < s * ccw v w) : 0 < s * ccw u w := by
  by_contra hh
  rw [not_lt] at hh
  have e : (s * ccw v w) • u + (s * ccw u v) • w + (s * ccw w u) • v = 0 := by
    have := congrArg (s • ·) (ccw_cycle u v w)
    simp only [smul_add, smul_smul, smul_zero] at this
    rw [← this]; abel
  have nn : 0 ≤ s * ccw w u := by
    have : ccw w u = -ccw u w := by simp [ccw]; ring
    rw [this]; linarith
  have := h.add_nonneg nn (h.add_nonneg h1 (h.smul _ _ h2 hu) hw) hv
  rw [e] at this
  exact h.zero this

/-- The first direction among finitely many. -/
theorem Cone.first {H : Vec K → Prop} (h : Cone H) {s : K} (L : List (Vec K)) (hL : L ≠ []) (hH : ∀ x ∈ L, H x) :
    ∃ x ∈ L, ∀ y ∈ L, 0 ≤ s * ccw x y := by
  induction L with
  | nil => exact absurd rfl hL
  | cons x L ih =>
    have self : ∀ z : Vec K, 0 ≤ s * ccw z z := fun z => by simp [ccw, mul_comm]
    by_cases hn : L = []
    · subst hn
      exact ⟨x, by simp, fun y hy => by rw [List.mem_singleton.1 hy]; exact self x⟩
    · obtain ⟨z, hz, hmin⟩ := ih hn fun y hy => hH y (List.mem_cons_of_mem _ hy)
      rcases le_total 0 (s * ccw x z) with hh | hh
      · refine ⟨x, by simp, fun y hy => ?_⟩
        rcases List.mem_cons.1 hy with rfl | hy
        · exact self y
        · exact h.trans (hH x (by simp)) (hH z (List.mem_cons_of_mem _ hz)) (hH y (List.mem_cons_of_mem _ hy)) hh (hmin y hy)
      · refine ⟨z, List.mem_cons_of_mem _ hz, fun y hy => ?_⟩
        rcases List.mem_cons.1 hy with rfl | hy
        · have : ccw z y = -ccw y z := by simp [ccw]; ring
          rw [this]; linarith
        · exact hmin y hy

/-- The lexicographic order. -/
def LexPos (v : Vec K) : Prop := 0 < v.1 ∨ (v.1 = 0 ∧ 0 < v.2)

theorem lexPos_cone : Cone (LexPos : Vec K → Prop) where
  zero := by simp [LexPos]
  add := by
    rintro v w (hv | ⟨hv, hv'⟩) (hw | ⟨hw, hw'⟩)
    · exact Or.inl (add_pos hv hw)
    · exact Or.inl (by simpa [hw] using hv)
    · exact Or.inl (by simpa [hv] using hw)
    · exact Or.inr ⟨by simp [hv, hw], add_pos hv' hw'⟩
  smul := by
    rintro c v hc (hv | ⟨hv, hv'⟩)
    · exact Or.inl (mul_pos hc hv)
    · exact Or.inr ⟨by simp [hv], mul_pos hc hv'⟩

theorem lexNeg_cone : Cone (fun v : Vec K => LexPos (-v)) where
  zero := by simp [LexPos]
  add := fun v w hv hw => by
    rw [neg_add]
    exact lexPos_cone.add _ _ hv hw
  smul := fun c v hc hv => by
    rw [← smul_neg]
    exact lexPos_cone.smul _ _ hc hv

theorem lexPos_total (v : Vec K) (h : v ≠ 0) : LexPos v ∨ LexPos (-v) := by
  unfold LexPos
  rcases lt_trichotomy v.1 0 with h1 | h1 | h1
  · right; left; simpa using h1
  · rcases lt_trichotomy v.2 0 with h2 | h2 | h2
    · right; right; exact ⟨by simp [h1], by simpa using h2⟩
    · exact absurd (Prod.ext h1 h2) h
    · left; right; exact ⟨h1, h2⟩
  · left; left; exact h1

end Flat
