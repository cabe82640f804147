import Verif.Lemmas.ExistsTri

/-!
# Every simple polygon has a triangulation

... into triangles that do not overlap.
-/

namespace Flat
namespace Poly
variable {K : Type} [Field K] [LinearOrder K] [IsStrictOrderedRing K]

/-- In the interior of a triangle. -/
def InOpen (s : K) (a b c q : Vec K) : Prop := 0 < ori s a b q ∧ 0 < ori s b c q ∧ 0 < ori s c a q

theorem InOpen.inTri {s : K} {a b c q : Vec K} (h : InOpen s a b c q) : InTri s a b c q := ⟨h.1.le, h.2.1.le, h.2.2.le⟩

theorem InOpen.rot {s : K} {a b c q : Vec K} (h : InOpen s a b c q) : InOpen s b c a q := ⟨h.2.1, h.2.2, h.1⟩

theorem InOpen.near {s : K} {a b c q : Vec K} (h : InOpen s a b c q) (d : Vec K) :
    ∃ e : K, 0 < e ∧ ∀ r, 0 < r → r ≤ e → InOpen s a b c (q + r • d) := by
  obtain ⟨e1, p1, q1⟩ := exists_eps h.1 (s * ccw (b - a) d)
  obtain ⟨e2, p2, q2⟩ := exists_eps h.2.1 (s * ccw (c - b) d)
  obtain ⟨e3, p3, q3⟩ := exists_eps h.2.2 (s * ccw (a - c) d)
  refine ⟨min e1 (min e2 e3), lt_min p1 (lt_min p2 p3), fun r r0 r1 => ?_⟩
  have h1 : r ≤ e1 := r1.trans (min_le_left _ _)
  have h2 : r ≤ e2 := r1.trans ((min_le_right _ _).trans (min_le_left _ _))
  have h3 : r ≤ e3 := r1.trans ((min_le_right _ _).trans (min_le_right _ _))
  unfold InOpen
  rw [ori_dir, ori_dir, ori_dir]
  exact ⟨q1 r r0.le h1, q2 r r0.le h2, q3 r r0.le h3⟩

/-- The triangles do not overlap. -/
def Disj (f : ℕ → Vec K) (s : K) (T : List Triple) : Prop :=
  T.Pairwise (fun t t' => ∀ q, InOpen s (f t.1) (f t.2.1) (f t.2.2) q → ¬ InOpen s (f t'.1) (f t'.2.1) (f t'.2.2) q)

/-- A segment that leaves two sets of triangles meets one of the boundaries before. -/
theorem exit_both {f : ℕ → Vec K} {s : K} {u1 u2 : List ℕ} {T1 T2 : List Triple} (h1 : Tri f s u1 T1) (h2 : Tri f s u2 T2)
    {q g : Vec K} (q1 : Region f s T1 q) (q2 : Region f s T2 q) (hg : ¬ (Region f s T1 g ∧ Region f s T2 g)) :
    ∃ r ∈ segPts (q, g), Region f s T1 r ∧ Region f s T2 r ∧ (OnBd f u1 r ∨ OnBd f u2 r) := by
  have hpair : ∀ x, (Region f s T1 x ∧ Region f s T2 x) ↔ ∃ t ∈ T1 ×ˢ T2,
      InTri s (f t.1.1) (f t.1.2.1) (f t.1.2.2) x ∧ InTri s (f t.2.1) (f t.2.2.1) (f t.2.2.2) x := by
    intro x
    rw [region_iff, region_iff]
    constructor
    · rintro ⟨⟨t, ht, hi⟩, ⟨t', ht', hi'⟩⟩
      exact ⟨(t, t'), List.mem_product.2 ⟨ht, ht'⟩, hi, hi'⟩
    · rintro ⟨t, ht, hi, hi'⟩
      obtain ⟨a, b⟩ := List.mem_product.1 ht
      exact ⟨⟨_, a, hi⟩, ⟨_, b, hi'⟩⟩
  have hall := list_last (T1 ×ˢ T2) (fun t (x : K) => InTri s (f t.1.1) (f t.1.2.1) (f t.1.2.2) (q + x • (g - q)) ∧
      InTri s (f t.2.1) (f t.2.2.1) (f t.2.2.2) (q + x • (g - q))) ?_
  · simp only [← hpair] at hall
    rcases hall with hh | ⟨m, m0, m1, m2, m3⟩
    · exact absurd ⟨by simpa using q1, by simpa using q2⟩ (hh 0 le_rfl zero_le_one)
    · refine ⟨q + m • (g - q), ⟨m, m0, m1, rfl⟩, m2.1, m2.2, ?_⟩
      by_contra hb
      rw [not_or] at hb
      have hm : m < 1 := by
        refine lt_of_le_of_ne m1 ?_
        rintro rfl
        apply hg
        simpa using m2
      obtain ⟨e1, p1, r1⟩ := h1.interior m2.1 hb.1 (g - q)
      obtain ⟨e2, p2, r2⟩ := h2.interior m2.2 hb.2 (g - q)
      have he : 0 < min (1 - m) (min e1 e2) := lt_min (by linarith) (lt_min p1 p2)
      have he0 : min (1 - m) (min e1 e2) ≤ 1 - m := min_le_left _ _
      have he1 : min (1 - m) (min e1 e2) ≤ e1 := (min_le_right _ _).trans (min_le_left _ _)
      have he2 : min (1 - m) (min e1 e2) ≤ e2 := (min_le_right _ _).trans (min_le_right _ _)
      generalize min (1 - m) (min e1 e2) = e at *
      refine m3 (m + e) (by linarith) (by linarith) ?_
      rw [add_smul, ← add_assoc]
      exact ⟨r1 e he he1, r2 e he he2⟩
  · rintro ⟨⟨a, b, c⟩, ⟨a', b', c'⟩⟩ -
    dsimp only
    have key : ∀ t : K, (InTri s (f a) (f b) (f c) (q + t • (g - q)) ∧ InTri s (f a') (f b') (f c') (q + t • (g - q))) ↔
        ∀ x ∈ [(ori s (f a) (f b) q, s * ccw (f b - f a) (g - q)), (ori s (f b) (f c) q, s * ccw (f c - f b) (g - q)),
          (ori s (f c) (f a) q, s * ccw (f a - f c) (g - q)), (ori s (f a') (f b') q, s * ccw (f b' - f a') (g - q)),
          (ori s (f b') (f c') q, s * ccw (f c' - f b') (g - q)), (ori s (f c') (f a') q, s * ccw (f a' - f c') (g - q))],
          0 ≤ x.1 + t * x.2 := by
      intro t
      unfold InTri
      simp only [ori_dir, List.forall_mem_cons, List.not_mem_nil, false_imp_iff, implies_true, and_true, and_assoc]
    by_cases hex : ∃ t0 : K, 0 ≤ t0 ∧ t0 ≤ 1 ∧ InTri s (f a) (f b) (f c) (q + t0 • (g - q)) ∧ InTri s (f a') (f b') (f c') (q + t0 • (g - q))
    · obtain ⟨t0, h0, h1, hi⟩ := hex
      obtain ⟨m, m1, m2, m3, m4⟩ := last_time _ t0 h0 h1 ((key t0).1 hi)
      exact Or.inr ⟨m, h0.trans m1, m2, (key m).2 m3, fun t ht ht' hh => m4 t ht ht' ((key t).1 hh)⟩
    · left
      intro t t0 t1 hh
      exact hex ⟨t, t0, t1, hh⟩

theorem chn_end {v w : ℕ} {A : List ℕ} (hA : A ≠ []) {x : ℕ × ℕ} (hx : x ∈ chn (v :: A ++ [w])) : x.1 ∈ A ∨ x.2 ∈ A := by
  rcases List.eq_nil_or_concat A with rfl | ⟨A, b, rfl⟩
  · exact absurd rfl hA
  rw [List.concat_eq_append] at *
  have := chn_append (v :: A) b [w]
  simp only [List.cons_append, List.append_assoc, List.nil_append] at this hx
  rw [this, List.mem_append] at hx
  rcases hx with hx | hx
  · right
    unfold chn at hx
    simpa using (List.of_mem_zip hx).2
  · left
    simp only [chn, List.tail_cons, List.zip_cons_cons, List.zip_nil_right, List.mem_singleton] at hx
    rw [hx]; simp

omit [LinearOrder K] [IsStrictOrderedRing K] in
theorem smul_vec_zero {t : K} {d : Vec K} (h : t • d = 0) (hd : d ≠ 0) : t = 0 := by
  by_contra ht
  apply hd
  have := congrArg (t⁻¹ • ·) h
  simpa [smul_smul, inv_mul_cancel₀ ht] using this

theorem seg_end {a b r : Vec K} (hr : r ∈ segPts (a, b)) (h : a ∈ segPts (r, b)) : r = a := by
  obtain ⟨m, m0, m1, rfl⟩ := hr
  obtain ⟨t, t0, t1, ht⟩ := h
  dsimp only at ht ⊢
  by_cases hab : b - a = 0
  · rw [hab]; simp
  have e : (m + t * (1 - m)) • (b - a) = 0 := by
    have : (m + t * (1 - m)) • (b - a) = (a + m • (b - a) + t • (b - (a + m • (b - a)))) - a := by
      ext <;> simp <;> ring
    rw [this, ← ht, sub_self]
  have h0 := smul_vec_zero e hab
  have : m = 0 := le_antisymm (by nlinarith [mul_nonneg t0 (sub_nonneg.2 m1)]) m0
  rw [this]; simp

theorem cone_inTri {H : Vec K → Prop} (hH : Cone H) {f : ℕ → Vec K} {s : K} {u : List ℕ} {v a b c : ℕ} {q : Vec K}
    (hD : 0 < ori s (f a) (f b) (f c)) (hq : q ≠ f v) (hv : ∀ z ∈ u, z ≠ v → H (f z - f v)) (ha : a ∈ u) (hb : b ∈ u) (hc : c ∈ u)
    (hi : InTri s (f a) (f b) (f c) q) : H (q - f v) := by
  have h1 := bary_sum s (f a) (f b) (f c) q
  have h2 := ori_add s (f a) (f b) (f c) q
  obtain ⟨i1, i2, i3⟩ := hi
  have e : ori s (f a) (f b) (f c) • (q - f v) =
      ori s (f b) (f c) q • (f a - f v) + ori s (f c) (f a) q • (f b - f v) + ori s (f a) (f b) q • (f c - f v) := by
    rw [← h2]
    have e2 : ori s (f b) (f c) q • (f a - f v) + ori s (f c) (f a) q • (f b - f v) + ori s (f a) (f b) q • (f c - f v) =
      (ori s (f b) (f c) q • (f a - q) + ori s (f c) (f a) q • (f b - q) + ori s (f a) (f b) q • (f c - q)) +
      (ori s (f a) (f b) q + ori s (f b) (f c) q + ori s (f c) (f a) q) • (q - f v) := by
      ext <;> simp <;> ring
    rw [e2, h1, zero_add]
  have hadd : ∀ x y, (H x ∨ x = 0) → (H y ∨ y = 0) → (H (x + y) ∨ x + y = 0) := by
    rintro x y (hx | rfl) (hy | rfl)
    · exact Or.inl (hH.add _ _ hx hy)
    · rw [add_zero]; exact Or.inl hx
    · rw [zero_add]; exact Or.inl hy
    · rw [zero_add]; exact Or.inr rfl
  have hsm : ∀ (t : K) (x : ℕ), 0 ≤ t → x ∈ u → (H (t • (f x - f v)) ∨ t • (f x - f v) = 0) := by
    intro t x ht hx
    rcases ht.eq_or_lt with rfl | ht
    · right; simp
    · by_cases hxv : x = v
      · right; rw [hxv]; simp
      · exact Or.inl (hH.smul _ _ ht (hv x hx hxv))
  have := hadd _ _ (hadd _ _ (hsm _ a i2 ha) (hsm _ b i3 hb)) (hsm _ c i1 hc)
  rw [← e] at this
  rcases this with h' | h'
  · have := hH.smul _ _ (inv_pos.2 hD) h'
    rwa [smul_smul, inv_mul_cancel₀ hD.ne', one_smul] at this
  · exfalso
    have := smul_vec_zero h' (sub_ne_zero.2 hq)
    exact hD.ne' this

/-- The edges on one side of a diagonal are not in the triangles of the other side. -/
theorem Tri.off_chain {f : ℕ → Vec K} {s : K} {v w : ℕ} {A B : List ℕ} {T : List Triple} (h : Simple f (v :: A ++ w :: B))
    (hc : Chord f (v :: A ++ w :: B) v w) (hA : A ≠ []) (h2 : Tri f s (w :: B ++ [v]) T) (e2 : ∀ z ∈ A, ¬ Region f s T (f z))
    {x : ℕ × ℕ} (hx : x ∈ chn (v :: A ++ [w])) {r : Vec K} (hr : r ∈ segPts (f x.1, f x.2)) (hv : r ≠ f v) (hw : r ≠ f w) :
    ¬ Region f s T r := by
  intro hR
  have hr2 := split_rotated v w A B
  have hs2 := h.rotated hr2
  have hc2 := (hc.rotated hr2).symm
  obtain ⟨nv, -, nw, -⟩ := split_nodup h.nodup
  have key : ∀ z ∈ A, f z ∈ segPts (f x.1, f x.2) → (∀ k, (k = x.1 ∨ k = x.2) → k ≠ z → f k ∈ segPts (r, f z) → r = f k) → False := by
    intro z hz hzx hk
    refine e2 z hz (h2.stay hR ?_)
    rintro q hq ⟨y, hy, hqy⟩
    rcases hs2.cross hc2 hx hy (segPts_sub hr hzx hq) hqy with ⟨rfl, hh⟩ | ⟨rfl, hh⟩
    · exact hw (hk w hh (by rintro rfl; exact nw hz) hq)
    · exact hv (hk v hh (by rintro rfl; exact nv hz) hq)
  rcases chn_end hA hx with hz | hz
  · refine key _ hz (left_mem_segPts _ _) ?_
    rintro k (rfl | rfl) hk hh
    · exact absurd rfl hk
    · exact seg_end (segPts_comm hr) hh
  · refine key _ hz (right_mem_segPts _ _) ?_
    rintro k (rfl | rfl) hk hh
    · exact seg_end hr hh
    · exact absurd rfl hk

/-- The triangles on both sides of a diagonal at an extreme vertex do not overlap. -/
theorem Tri.overlap {f : ℕ → Vec K} {s : K} {v w : ℕ} {A B : List ℕ} {T1 T2 : List Triple} (h : Simple f (v :: A ++ w :: B))
    (hc : Chord f (v :: A ++ w :: B) v w) (hA : A ≠ []) (hB : B ≠ []) (h1 : Tri f s (v :: A ++ [w]) T1) (h2 : Tri f s (w :: B ++ [v]) T2)
    (e1 : ∀ z ∈ B, ¬ Region f s T1 (f z)) (e2 : ∀ z ∈ A, ¬ Region f s T2 (f z)) {H : Vec K → Prop} (hH : Cone H)
    (hv : ∀ z ∈ v :: A ++ w :: B, z ≠ v → H (f z - f v)) {q : Vec K} (q1 : Region f s T1 q) (q2 : Region f s T2 q) :
    ori s (f v) (f w) q = 0 := by
  by_contra hne
  have hr2 := split_rotated v w A B
  have hs2 := h.rotated hr2
  have hc2 := (hc.rotated hr2).symm
  have hsim1 := h.split hA hc
  have hsim2 := hs2.split hB hc2
  have hv1 : ∀ z ∈ v :: A ++ [w], z ≠ v → H (f z - f v) := fun z hz => hv z (mem_part1 hz)
  have hv2 : ∀ z ∈ w :: B ++ [v], z ≠ v → H (f z - f v) := fun z hz => hv z (mem_part2 hz)
  have m1 : (w, v) ∈ cyc (v :: A ++ [w]) := by rw [cyc_snoc]; simp
  have m3 : (v, w) ∈ cyc (w :: B ++ [v]) := by rw [cyc_snoc]; simp
  obtain ⟨n1, m2⟩ := exists_next (mem_cyc m1).2
  obtain ⟨n2, m4⟩ := exists_prev (mem_cyc m3).1
  have hqv : q ≠ f v := by rintro rfl; rw [ori_left] at hne; exact hne rfl
  have hHq : H (q - f v) := by
    obtain ⟨a, b, c, ht, hi⟩ := q1
    exact cone_inTri hH (h1.pos _ _ _ ht) hqv (fun x hx hne => hv1 x hx hne) (h1.mem _ _ _ ht) (h1.mem _ _ _ ht.rot)
      (h1.mem _ _ _ ht.rot.rot) hi
  -- a point close to `v`
  obtain ⟨d, d0, hd⟩ : ∃ d : K, 0 < d ∧ ¬ (Region f s T1 (f v + d • (q - f v)) ∧ Region f s T2 (f v + d • (q - f v))) := by
    rcases lt_or_gt_of_ne hne with hlt | hgt
    · obtain ⟨e, he, hq⟩ := h2.outside hsim2.nodup hH hv2 m4 m3 q hHq (Or.inr (by rw [ori_swap]; linarith))
      exact ⟨e, he, fun hh => hq e he le_rfl hh.2⟩
    · obtain ⟨e, he, hq⟩ := h1.outside hsim1.nodup hH hv1 m1 m2 q hHq (Or.inl hgt)
      exact ⟨e, he, fun hh => hq e he le_rfl hh.1⟩
  obtain ⟨r, ⟨t, t0, t1, hr⟩, r1, r2, hb⟩ := exit_both h1 h2 q1 q2 hd
  have hrne : ori s (f v) (f w) r ≠ 0 := by
    have e : ori s (f v) (f w) r = (1 - t + t * d) * ori s (f v) (f w) q := by
      rw [hr]
      dsimp only
      rw [ori_lin, ori_at]
      ring
    rw [e]
    refine mul_ne_zero ?_ hne
    rcases t0.eq_or_lt with rfl | t0
    · simp
    · have := mul_pos t0 d0
      linarith
  have hrv : r ≠ f v := by rintro rfl; rw [ori_left] at hrne; exact hrne rfl
  have hrw : r ≠ f w := by rintro rfl; rw [ori_right] at hrne; exact hrne rfl
  rcases hb with ⟨x, hx, hrx⟩ | ⟨x, hx, hrx⟩
  · rw [cyc_snoc, List.mem_append, List.mem_singleton] at hx
    rcases hx with hx | rfl
    · exact h2.off_chain h hc hA e2 hx hrx hrv hrw r2
    · exact hrne (ori_seg (segPts_comm hrx))
  · rw [cyc_snoc, List.mem_append, List.mem_singleton] at hx
    rcases hx with hx | rfl
    · exact h1.off_chain hs2 hc2 hB e1 hx hrx hrw hrv r1
    · exact hrne (ori_seg hrx)

theorem Disj.append {f : ℕ → Vec K} {s : K} {T1 T2 : List Triple} (h1 : Disj f s T1) (h2 : Disj f s T2)
    (h : ∀ t ∈ T1, ∀ t' ∈ T2, ∀ q, InOpen s (f t.1) (f t.2.1) (f t.2.2) q → ¬ InOpen s (f t'.1) (f t'.2.1) (f t'.2.2) q) :
    Disj f s (T1 ++ T2) := List.pairwise_append.2 ⟨h1, h2, h⟩

/-- Triangles that only overlap on a line do not overlap. -/
theorem disj_of_line {f : ℕ → Vec K} {s : K} (hs : s = 1 ∨ s = -1) {v w : Vec K} (hvw : v ≠ w) {T1 T2 : List Triple}
    (h : ∀ q, Region f s T1 q → Region f s T2 q → ori s v w q = 0) :
    ∀ t ∈ T1, ∀ t' ∈ T2, ∀ q, InOpen s (f t.1) (f t.2.1) (f t.2.2) q → ¬ InOpen s (f t'.1) (f t'.2.1) (f t'.2.2) q := by
  intro t ht t' ht' q hq hq'
  obtain ⟨e1, p1, q1⟩ := hq.near (-(w - v).2, (w - v).1)
  obtain ⟨e2, p2, q2⟩ := hq'.near (-(w - v).2, (w - v).1)
  have he : 0 < min e1 e2 := lt_min p1 p2
  have g0 := h q (region_iff.2 ⟨t, ht, hq.inTri⟩) (region_iff.2 ⟨t', ht', hq'.inTri⟩)
  have g1 := h _ (region_iff.2 ⟨t, ht, (q1 _ he (min_le_left _ _)).inTri⟩) (region_iff.2 ⟨t', ht', (q2 _ he (min_le_right _ _)).inTri⟩)
  rw [ori_dir, g0, zero_add] at g1
  have : s * ccw (w - v) (-(w - v).2, (w - v).1) = 0 := (mul_eq_zero.1 g1).resolve_left he.ne'
  have h2 : ccw (w - v) (-(w - v).2, (w - v).1) = 0 := by
    rcases hs with rfl | rfl <;> simpa using this
  simp only [ccw] at h2
  apply hvw
  have h3 : (w - v).1 * (w - v).1 + (w - v).2 * (w - v).2 = 0 := by linarith
  have h4 : (w - v).1 * (w - v).1 = 0 := by nlinarith [mul_self_nonneg (w - v).1, mul_self_nonneg (w - v).2]
  have h5 : (w - v).2 * (w - v).2 = 0 := by nlinarith [mul_self_nonneg (w - v).1, mul_self_nonneg (w - v).2]
  have h6 := mul_self_eq_zero.1 h4
  have h7 := mul_self_eq_zero.1 h5
  simp only [Prod.fst_sub, Prod.snd_sub] at h6 h7
  ext <;> linarith

/-- The triangle at a corner without other vertices does not overlap with the others. -/
theorem Corner.disj {f : ℕ → Vec K} {u u1 : List ℕ} {s : K} {a v c : ℕ} {T : List Triple} (h : Corner f u s a v c)
    (hempty : ∀ z ∈ u, InTri s (f a) (f v) (f c) (f z) → z = a ∨ z = v ∨ z = c) (hT : Tri f s u1 T)
    (hu1 : ∀ y ∈ cyc u1, y = (a, c) ∨ (y ∈ cyc u ∧ ¬ (v = y.1 ∨ v = y.2))) (hv : ¬ Region f s T (f v)) :
    ∀ t ∈ T, ∀ t' ∈ [(a, v, c)], ∀ q, InOpen s (f t.1) (f t.2.1) (f t.2.2) q → ¬ InOpen s (f t'.1) (f t'.2.1) (f t'.2.2) q := by
  rintro t ht t' ht' q hq hq'
  rw [List.mem_singleton.1 ht'] at hq'
  dsimp only at hq'
  have hcav : ori s (f c) (f a) (f v) = ori s (f a) (f v) (f c) := (ori_rot s (f c) (f a) (f v)).symm
  refine hv (hT.stay (region_iff.2 ⟨t, ht, hq.inTri⟩) fun r hr hb => ?_)
  have hri : InTri s (f a) (f v) (f c) r :=
    ⟨ori_seg_nonneg hr hq'.1.le (by rw [ori_right]), ori_seg_nonneg hr hq'.2.1.le (by rw [ori_left]),
      ori_seg_nonneg hr hq'.2.2.le (by rw [hcav]; exact h.pos.le)⟩
  have hrpos : 0 < ori s (f c) (f a) r := by
    have h1 : min (ori s (f c) (f a) q) (ori s (f a) (f v) (f c)) ≤ ori s (f c) (f a) r :=
      ori_seg_le hr (min_le_left _ _) (by rw [hcav]; exact min_le_right _ _)
    exact (lt_min hq'.2.2 h.pos).trans_le h1
  obtain ⟨y, hy, hry⟩ := hb
  rcases hu1 y hy with rfl | ⟨hyu, hvy⟩
  · rw [ori_seg (segPts_comm hry)] at hrpos
    exact lt_irrefl _ hrpos
  · obtain ⟨z, hz, hzi, -, z1, z2, z3⟩ := h.high hyu hvy hri hrpos hry
    rcases hempty z hz hzi with h' | h' | h'
    · exact z1 h'
    · exact z2 h'
    · exact z3 h'

/-- Every simple polygon has a triangulation by triangles of the same orientation. -/
theorem Simple.exists_tri_disj {f : ℕ → Vec K} {u : List ℕ} (h : Simple f u) :
    ∃ s : K, (s = 1 ∨ s = -1) ∧ ∃ T, Tri f s u T ∧ Disj f s T := by
  obtain ⟨n, hn⟩ : ∃ n, u.length = n := ⟨_, rfl⟩
  induction n using Nat.strong_induction_on generalizing u with
  | _ n ih =>
  -- an extreme vertex
  obtain ⟨v, hvu, hv⟩ := exists_extreme lexPos_cone lexPos_total f u (by have := h.len; intro e; rw [e] at this; simp at this) h.inj
  obtain ⟨l1, l2, rfl⟩ := List.append_of_mem hvu
  have hrot : (l1 ++ v :: l2) ~r (v :: (l2 ++ l1)) := List.isRotated_append
  suffices hh : ∃ s : K, (s = 1 ∨ s = -1) ∧ ∃ T, Tri f s (v :: (l2 ++ l1)) T ∧ Disj f s T by
    obtain ⟨s, hs, T, hT, hd⟩ := hh
    exact ⟨s, hs, T, hT.rotated hrot.symm, hd⟩
  have h := h.rotated hrot
  have hv : ∀ z ∈ v :: (l2 ++ l1), z ≠ v → LexPos (f z - f v) := fun z hz => hv z (hrot.mem_iff.2 hz)
  have hn : (v :: (l2 ++ l1)).length = n := by rw [← hrot.perm.length_eq]; exact hn
  clear hrot hvu
  generalize l2 ++ l1 = L at *
  cases L with
  | nil => have := h.len; simp at this
  | cons c L =>
  rcases List.eq_nil_or_concat L with rfl | ⟨R, a, rfl⟩
  · have := h.len; simp at this
  rw [List.concat_eq_append] at *
  -- the corner
  have hnd := h.nodup
  have hout : (v, c) ∈ cyc (v :: c :: (R ++ [a])) := by rw [cyc_cons]; simp
  have hin : (a, v) ∈ cyc (v :: c :: (R ++ [a])) := by
    have := cyc_snoc v a (c :: R)
    simp only [List.cons_append] at this
    rw [this]; simp
  have hav : a ≠ v := by rintro rfl; simp at hnd
  have hcv : c ≠ v := by rintro rfl; simp at hnd
  have hac : a ≠ c := by rintro rfl; simp at hnd
  obtain ⟨s, hs, hpos⟩ := ori_one_ne (extreme_turn h lexPos_cone hin hout hac (hv a (by simp) hav) (hv c (by simp) hcv))
  have hcor : Corner f (v :: c :: (R ++ [a])) s a v c := ⟨h, hin, hout, hpos⟩
  by_cases hR : R = []
  · subst hR
    refine ⟨s, hs, [(v, c, a)], tri_single ?_, List.pairwise_singleton _ _⟩
    rw [ori_rot]; exact hpos
  by_cases hempty : ∀ z ∈ R, ¬ InTri s (f a) (f v) (f c) (f z)
  · -- clip the corner
    have hempty' : ∀ z ∈ v :: c :: (R ++ [a]), InTri s (f a) (f v) (f c) (f z) → z = a ∨ z = v ∨ z = c := by
      intro z hz hi
      simp only [List.mem_cons, List.mem_append, List.not_mem_nil, or_false] at hz
      rcases hz with rfl | rfl | hz | rfl
      · simp
      · simp
      · exact absurd hi (hempty z hz)
      · simp
    have hca : (c, a) ∉ cyc (v :: c :: (R ++ [a])) := by
      intro hmem
      obtain ⟨r, R', rfl⟩ := List.exists_cons_of_ne_nil hR
      have h2 : (c, r) ∈ cyc (v :: c :: (r :: R' ++ [a])) := by
        rw [cyc_cons]; simp
      have := next_unique hnd hmem h2
      subst this
      simp at hnd
    have hchord := hcor.chord hca hempty'
    have hr2 : (v :: c :: (R ++ [a])) ~r (c :: R ++ a :: [v]) := by
      have : c :: R ++ a :: [v] = (c :: (R ++ [a])) ++ [v] := by simp
      rw [this]
      exact List.isRotated_append (l := [v]) (l' := c :: (R ++ [a]))
    have h' := h.rotated hr2
    have hchord' := (hchord.rotated hr2).symm
    have hsimple := h'.split hR hchord'
    obtain ⟨s1, hs1, T1, hT1, hD1⟩ := ih (c :: R ++ [a]).length (by rw [← hn]; simp) hsimple rfl
    have hvT : ¬ Region f s1 T1 (f v) := by
      rintro ⟨x, y, z, ht, hi⟩
      have hne : ∀ x ∈ c :: R ++ [a], x ≠ v := by
        rintro x hx rfl
        simp only [List.cons_append, List.mem_cons, List.mem_append, List.not_mem_nil, or_false] at hx
        simp only [List.nodup_cons, List.mem_cons, List.mem_append, List.not_mem_nil, or_false] at hnd
        exact hnd.1 hx
      have hc : ∀ x ∈ c :: R ++ [a], LexPos (f x - f v) := fun x hx => hv x (by simpa using Or.inr hx) (hne x hx)
      exact not_inTri_extreme lexPos_cone (hT1.pos _ _ _ ht) (hc _ (hT1.mem _ _ _ ht)) (hc _ (hT1.mem _ _ _ ht.rot))
        (hc _ (hT1.mem _ _ _ ht.rot.rot)) hi
    have hedges : ∀ y ∈ cyc (c :: R ++ [a]), y = (a, c) ∨ (y ∈ cyc (v :: c :: (R ++ [a])) ∧ ¬ (v = y.1 ∨ v = y.2)) := by
      · intro y hy
        rw [cyc_snoc, List.mem_append, List.mem_singleton] at hy
        rcases hy with hy | hy
        · right
          refine ⟨(cyc_perm hr2).mem_iff.2 ?_, ?_⟩
          · rw [cyc_split]; exact List.mem_append_left _ hy
          · have := mem_chn hy
            have hvn : v ∉ c :: R ++ [a] := by
              simp only [List.nodup_cons, List.mem_cons, List.mem_append, List.not_mem_nil, or_false] at hnd
              simpa using hnd.1
            rintro (rfl | rfl)
            · exact hvn this.1
            · exact hvn this.2
        · left; exact hy
    have hss : s1 = s := by
      refine hcor.sign hs hs1 hempty' hT1 hedges ?_ hvT
      rw [cyc_snoc]; simp
    subst hss
    refine ⟨s1, hs, T1 ++ [(a, v, c)], Tri.rotated ?_ hr2.symm, hD1.append (List.pairwise_singleton _ _) (hcor.disj hempty' hT1 hedges hvT)⟩
    refine hT1.join (tri_single (a := a) (b := v) (c := c) hpos) ?_ ?_
    · intro z hz
      rw [List.mem_singleton.1 hz]
      exact hvT
    · rintro z hz ⟨x, y, w, ht, hi⟩
      apply hempty z hz
      rcases ht with ht | ht | ht <;> simp only [List.mem_singleton, Prod.mk.injEq] at ht <;> obtain ⟨rfl, rfl, rfl⟩ := ht
      · exact hi
      · exact hi.rot
      · exact hi.rot.rot
  · -- cut along a diagonal at `v`
    push Not at hempty
    obtain ⟨z0, hz0, hi0⟩ := hempty
    classical
    obtain ⟨w, hw, hmax⟩ := exists_highest (fun z => ori s (f c) (f a) (f z)) (R.filter (fun z => decide (InTri s (f a) (f v) (f c) (f z))))
      (List.ne_nil_of_mem (List.mem_filter.2 ⟨hz0, by simpa using hi0⟩))
    rw [List.mem_filter, decide_eq_true_iff] at hw
    obtain ⟨hwR, hwi⟩ := hw
    obtain ⟨R1, R2, rfl⟩ := List.append_of_mem hwR
    have e0 : v :: c :: ((R1 ++ w :: R2) ++ [a]) = v :: (c :: R1) ++ w :: (R2 ++ [a]) := by simp
    have hwa : w ≠ a := by rintro rfl; simp [List.nodup_append] at hnd
    have hwv : w ≠ v := by rintro rfl; simp at hnd
    have hwc : w ≠ c := by rintro rfl; simp at hnd
    obtain ⟨⟨p1, p2⟩, hchord⟩ := hcor.chord_high (w := w) (by simp) hwa hwv hwc hwi (by
      intro z hz z1 z2 z3 hzi
      refine hmax z (List.mem_filter.2 ⟨?_, by simpa using hzi⟩)
      simp only [List.mem_cons, List.mem_append, List.not_mem_nil, or_false] at hz ⊢
      tauto)
    have p3 : 0 < ori s (f v) (f w) (f a) := by rw [ori_rot]; exact p1
    rw [e0] at h hn hv hnd hchord ⊢
    clear hcor
    have hr2 := split_rotated v w (c :: R1) (R2 ++ [a])
    have hs2 := h.rotated hr2
    have hc2 := (hchord.rotated hr2).symm
    have hsim1 := h.split (by simp) hchord
    have hsim2 := hs2.split (by simp) hc2
    obtain ⟨s1, hs1, T1, hT1, hD1⟩ := ih (v :: (c :: R1) ++ [w]).length (by rw [← hn]; simp) hsim1 rfl
    obtain ⟨s2, hs2', T2, hT2, hD2⟩ := ih (w :: (R2 ++ [a]) ++ [v]).length (by rw [← hn]; simp; omega) hsim2 rfl
    have hv1 : ∀ z ∈ v :: (c :: R1) ++ [w], z ≠ v → LexPos (f z - f v) := fun z hz => hv z (mem_part1 hz)
    have hv2 : ∀ z ∈ w :: (R2 ++ [a]) ++ [v], z ≠ v → LexPos (f z - f v) := fun z hz => hv z (mem_part2 hz)
    have m1 : (w, v) ∈ cyc (v :: (c :: R1) ++ [w]) := by rw [cyc_snoc]; simp
    have m2 : (v, c) ∈ cyc (v :: (c :: R1) ++ [w]) := by simp only [List.cons_append]; rw [cyc_cons]; simp
    have m3 : (v, w) ∈ cyc (w :: (R2 ++ [a]) ++ [v]) := by rw [cyc_snoc]; simp
    have hchn : chn (w :: (R2 ++ [a]) ++ [v]) = chn (w :: (R2 ++ [a])) ++ [(a, v)] := by
      have := chn_append (w :: R2) a [v]
      simpa [chn] using this
    have m4 : (a, v) ∈ cyc (w :: (R2 ++ [a]) ++ [v]) := by rw [cyc_snoc, hchn]; simp
    obtain rfl : s1 = s := sign_unique hs hs1 p2 (hT1.fan hsim1.nodup lexPos_cone hv1 m1 m2).2
    obtain rfl : s2 = s1 := sign_unique hs hs2' p3 (hT2.fan hsim2.nodup lexPos_cone hv2 m4 m3).2
    have e1 : ∀ z ∈ R2 ++ [a], ¬ Region f s2 T1 (f z) := by
      refine hT1.apart hsim1.nodup lexPos_cone hv1 m1 m2 (R2 ++ [a]) ?_ (a := a) (by simp) (hv a (by simp) hav) (Or.inl p3) ?_
      · rintro x hx r hr ⟨y, hy, hry⟩
        have hx' : x ∈ chn (w :: (R2 ++ [a]) ++ [v]) := by
          rw [hchn]
          refine List.mem_append_left _ ?_
          cases R2 with
          | nil => simp [chn] at hx
          | cons r R2 => exact List.mem_cons_of_mem _ hx
        have hmx := mem_chn hx
        obtain ⟨-, nv, -, nw⟩ := split_nodup hnd
        rcases h.cross hchord hx' hy hr hry with ⟨-, rfl | rfl⟩ | ⟨-, rfl | rfl⟩
        · exact nv hmx.1
        · exact nv hmx.2
        · exact nw hmx.1
        · exact nw hmx.2
      · rintro r hr ⟨y, hy, hry⟩
        rcases h.cross (x := (a, v)) hchord (by rw [hchn]; simp) hy (segPts_comm hr) hry with ⟨hh, -⟩ | ⟨-, hh | hh⟩
        · exact hh
        · exact absurd hh hwa
        · exact absurd hh hwv
    have e2 : ∀ z ∈ c :: R1, ¬ Region f s2 T2 (f z) := by
      refine hT2.apart hsim2.nodup lexPos_cone hv2 m4 m3 (c :: R1) ?_ (a := c) (by simp) (hv c (by simp) hcv) (Or.inr p2) ?_
      · rintro x hx r hr ⟨y, hy, hry⟩
        have hx' : x ∈ chn (v :: (c :: R1) ++ [w]) := by
          have : chn (v :: (c :: R1) ++ [w]) = (v, c) :: chn (c :: R1 ++ [w]) := rfl
          rw [this]
          refine List.mem_cons_of_mem _ ?_
          rcases List.eq_nil_or_concat (c :: R1) with hh | ⟨R', b, hh⟩
          · cases hh
          · rw [hh, List.concat_eq_append] at hx ⊢
            have := chn_append R' b [w]
            rw [List.append_assoc, List.singleton_append, this]
            exact List.mem_append_left _ hx
        have hmx := mem_chn hx
        obtain ⟨nv, -, nw, -⟩ := split_nodup hnd
        rcases hs2.cross hc2 hx' hy hr hry with ⟨-, rfl | rfl⟩ | ⟨-, rfl | rfl⟩
        · exact nw hmx.1
        · exact nw hmx.2
        · exact nv hmx.1
        · exact nv hmx.2
      · rintro r hr ⟨y, hy, hry⟩
        rcases hs2.cross (x := (v, c)) hc2 (by simp [chn]) hy hr hry with ⟨-, hh | hh⟩ | ⟨hh, -⟩
        · exact absurd hh hwv
        · exact absurd hh hwc
        · exact hh
    refine ⟨s2, hs, T1 ++ T2, hT1.join hT2 e1 e2, hD1.append hD2 (disj_of_line hs (v := f v) (w := f w) ?_ ?_)⟩
    · intro e
      exact hwv (h.inj w (by simp) v (by simp) e.symm)
    · intro q q1 q2
      exact Tri.overlap h hchord (by simp) (by simp) hT1 hT2 e1 e2 lexPos_cone hv q1 q2

theorem Simple.exists_tri {f : ℕ → Vec K} {u : List ℕ} (h : Simple f u) : ∃ s : K, (s = 1 ∨ s = -1) ∧ ∃ T, Tri f s u T := by
  obtain ⟨s, hs, T, hT, -⟩ := h.exists_tri_disj
  exact ⟨s, hs, T, hT⟩

end Poly
end Flat
