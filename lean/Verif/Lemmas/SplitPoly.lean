import Verif.Lemmas.SimplePoly

/-!
# Cutting a simple polygon along a diagonal
-/

namespace Flat
namespace Poly
variable {K : Type} [Field K] [LinearOrder K] [IsStrictOrderedRing K]

/-- The segment between two vertices only meets the edges at these vertices. -/
def Chord (f : ℕ → Vec K) (u : List ℕ) (v w : ℕ) : Prop :=
  ∀ y ∈ cyc u, ∀ q, q ∈ segPts (f v, f w) → q ∈ segPts (f y.1, f y.2) →
    (q = f v ∧ (v = y.1 ∨ v = y.2)) ∨ (q = f w ∧ (w = y.1 ∨ w = y.2))

theorem Chord.symm {f : ℕ → Vec K} {u : List ℕ} {v w : ℕ} (h : Chord f u v w) : Chord f u w v := fun y hy q hq hq' =>
  (h y hy q (segPts_comm hq) hq').symm

theorem Chord.rotated {f : ℕ → Vec K} {u u' : List ℕ} {v w : ℕ} (h : Chord f u v w) (hr : u ~r u') : Chord f u' v w :=
  fun y hy => h y ((cyc_perm hr).mem_iff.2 hy)

theorem split_rotated (v w : ℕ) (A B : List ℕ) : (v :: A ++ w :: B) ~r (w :: B ++ v :: A) := List.isRotated_append

/-- One of the two parts is simple. -/
theorem Simple.split {f : ℕ → Vec K} {v w : ℕ} {A B : List ℕ} (h : Simple f (v :: A ++ w :: B)) (hA : A ≠ [])
    (hc : Chord f (v :: A ++ w :: B) v w) : Simple f (v :: A ++ [w]) := by
  have hsub : (v :: A ++ [w]).Sublist (v :: A ++ w :: B) := List.Sublist.append_left (by simp) _
  have hmem : ∀ x ∈ chn (v :: A ++ [w]), x ∈ cyc (v :: A ++ w :: B) := fun x hx => by
    rw [cyc_split]; exact List.mem_append_left _ hx
  refine ⟨h.nodup.sublist hsub, ?_, fun a ha b hb => h.inj a (hsub.subset ha) b (hsub.subset hb), ?_⟩
  · cases A with
    | nil => exact absurd rfl hA
    | cons a A => simp
  · intro x hx y hy hne q hqx hqy
    rw [cyc_snoc, List.mem_append, List.mem_singleton] at hx hy
    rcases hx with hx | rfl
    · rcases hy with hy | rfl
      · exact h.meet x (hmem x hx) y (hmem y hy) hne q hqx hqy
      · rcases hc x (hmem x hx) q (segPts_comm hqy) hqx with ⟨h1, h2⟩ | ⟨h1, h2⟩
        · exact ⟨v, h2, Or.inr rfl, h1⟩
        · exact ⟨w, h2, Or.inl rfl, h1⟩
    · rcases hy with hy | rfl
      · rcases hc y (hmem y hy) q (segPts_comm hqx) hqy with ⟨h1, h2⟩ | ⟨h1, h2⟩
        · exact ⟨v, Or.inr rfl, h2, h1⟩
        · exact ⟨w, Or.inl rfl, h2, h1⟩
      · exact absurd rfl hne

theorem rot_append {T1 T2 : List Triple} {a b c : ℕ} : Rot (T1 ++ T2) a b c ↔ Rot T1 a b c ∨ Rot T2 a b c := by
  unfold Rot
  simp only [List.mem_append]
  tauto

/-- Triangulations of the parts that do not overlap give a triangulation. -/
theorem Tri.join {f : ℕ → Vec K} {s : K} {v w : ℕ} {A B : List ℕ} {T1 T2 : List Triple} (h1 : Tri f s (v :: A ++ [w]) T1)
    (h2 : Tri f s (w :: B ++ [v]) T2) (e1 : ∀ z ∈ B, ¬ Region f s T1 (f z)) (e2 : ∀ z ∈ A, ¬ Region f s T2 (f z)) :
    Tri f s (v :: A ++ w :: B) (T1 ++ T2) where
  len := by
    have a := h1.len
    have b := h2.len
    simp only [List.length_append, List.length_cons, List.length_nil] at a b ⊢
    omega
  perm := by
    obtain ⟨D1, hD1⟩ := h1.perm
    obtain ⟨D2, hD2⟩ := h2.perm
    refine ⟨(w, v) :: D1 ++ D2, ?_⟩
    rw [cyc_snoc] at hD1 hD2
    rw [cyc_split, List.flatMap_append]
    rw [List.perm_iff_count] at hD1 hD2 ⊢
    intro x
    have a := hD1 x
    have b := hD2 x
    simp only [List.count_append, List.map_append, List.map_cons, List.count_cons, List.count_nil, Prod.swap_prod_mk] at a b ⊢
    omega
  pos := fun a b c ht => (rot_append.1 ht).elim (h1.pos a b c) (h2.pos a b c)
  mem := fun a b c ht => by
    rcases rot_append.1 ht with ht | ht
    · have := h1.mem a b c ht
      simp only [List.cons_append, List.mem_cons, List.mem_append, List.not_mem_nil, or_false] at this ⊢
      tauto
    · have := h2.mem a b c ht
      simp only [List.cons_append, List.mem_cons, List.mem_append, List.not_mem_nil, or_false] at this ⊢
      tauto
  empty := fun a b c ht z hz hi => by
    have hz' : z = v ∨ z = w ∨ z ∈ A ∨ z ∈ B := by
      simp only [List.cons_append, List.mem_cons, List.mem_append] at hz
      tauto
    rcases rot_append.1 ht with ht | ht
    · by_cases hB : z ∈ B
      · exact absurd ⟨a, b, c, ht, hi⟩ (e1 z hB)
      · exact h1.empty a b c ht z (by simp only [List.cons_append, List.mem_cons, List.mem_append, List.not_mem_nil, or_false]; tauto) hi
    · by_cases hA : z ∈ A
      · exact absurd ⟨a, b, c, ht, hi⟩ (e2 z hA)
      · exact h2.empty a b c ht z (by simp only [List.cons_append, List.mem_cons, List.mem_append, List.not_mem_nil, or_false]; tauto) hi

/-- A single triangle. -/
theorem tri_single {f : ℕ → Vec K} {s : K} {a b c : ℕ} (h : 0 < ori s (f a) (f b) (f c)) : Tri f s [a, b, c] [(a, b, c)] where
  len := rfl
  perm := ⟨[], by simp [tEdges, cyc]⟩
  pos := fun x y z ht => by
    rcases ht with ht | ht | ht <;> simp only [List.mem_singleton, Prod.mk.injEq] at ht <;> obtain ⟨rfl, rfl, rfl⟩ := ht
    · exact h
    · rwa [← ori_rot]
    · rwa [ori_rot]
  mem := fun x y z ht => by
    rcases ht with ht | ht | ht <;> simp only [List.mem_singleton, Prod.mk.injEq] at ht <;> obtain ⟨rfl, rfl, rfl⟩ := ht <;> simp
  empty := fun x y z ht w hw _ => by
    simp only [List.mem_cons, List.not_mem_nil, or_false] at hw
    rcases ht with ht | ht | ht <;> simp only [List.mem_singleton, Prod.mk.injEq] at ht <;> obtain ⟨rfl, rfl, rfl⟩ := ht <;> tauto

/-- Walking along segments that do not meet the boundary. -/
theorem Tri.walk {f : ℕ → Vec K} {s : K} {u : List ℕ} {T : List Triple} (h : Tri f s u T) (B : List ℕ)
    (hB : ∀ x ∈ chn B, ∀ r ∈ segPts (f x.1, f x.2), ¬ OnBd f u r) {z z' : ℕ} (hz : z ∈ B) (hz' : z' ∈ B) (hr : Region f s T (f z)) :
    Region f s T (f z') := by
  have key : ∀ (b : ℕ) (B : List ℕ), (∀ x ∈ chn (b :: B), ∀ r ∈ segPts (f x.1, f x.2), ¬ OnBd f u r) →
      ∀ z ∈ b :: B, (Region f s T (f b) ↔ Region f s T (f z)) := by
    intro b B
    induction B generalizing b with
    | nil => intro _ z hz; rw [List.mem_singleton.1 hz]
    | cons b' B ih =>
      intro hh z hz
      have e : chn (b :: b' :: B) = (b, b') :: chn (b' :: B) := rfl
      rw [e] at hh
      rcases List.mem_cons.1 hz with rfl | hz
      · rfl
      · rw [← ih b' (fun x hx => hh x (List.mem_cons_of_mem _ hx)) z hz]
        have h0 := hh (b, b') (by simp)
        exact ⟨fun hr => h.stay hr h0, fun hr => h.stay hr fun r hr' => h0 r (segPts_comm hr')⟩
  cases B with
  | nil => cases hz
  | cons b B =>
    exact (key b B hB z' hz').1 ((key b B hB z hz).2 hr)

omit [LinearOrder K] [IsStrictOrderedRing K] in
theorem ori_at (s : K) (v x a : Vec K) (d : K) : ori s v x (v + d • (a - v)) = d * ori s v x a := by
  rw [ori_lin, ori_left]; ring

/-- Close to an extreme vertex, a direction that is not between the two edges is not in the triangles. -/
theorem Tri.outside {f : ℕ → Vec K} {s : K} {u : List ℕ} {T : List Triple} (h : Tri f s u T) (hu : u.Nodup) {H : Vec K → Prop} (hH : Cone H)
    {v : ℕ} (hv : ∀ z ∈ u, z ≠ v → H (f z - f v)) {prv nxt : ℕ} (h1 : (prv, v) ∈ cyc u) (h2 : (v, nxt) ∈ cyc u) (a : Vec K)
    (ha : H (a - f v)) (hd : 0 < ori s (f v) (f prv) a ∨ 0 < ori s (f v) a (f nxt)) :
    ∃ e : K, 0 < e ∧ ∀ d, 0 < d → d ≤ e → ¬ Region f s T (f v + d • (a - f v)) := by
  obtain ⟨hfan, hpn⟩ := h.fan hu hH hv h1 h2
  have hpv : H (f prv - f v) := by
    refine hv prv (mem_cyc h1).1 ?_
    rintro rfl
    rw [ori_left] at hpn
    exact lt_irrefl _ hpn
  have hnv : H (f nxt - f v) := by
    refine hv nxt (mem_cyc h2).2 ?_
    rintro rfl
    simp [ori, ccw] at hpn
  have hvu := (mem_cyc h1).2
  -- triangles with corner `v`
  have corner : ∀ x y, Rot T v x y → ∀ d : K, 0 < d → ¬ InTri s (f v) (f x) (f y) (f v + d • (a - f v)) := by
    rintro x y ht d hd0 ⟨i1, -, i3⟩
    have hpos := h.pos v x y ht
    have hx : H (f x - f v) := by
      refine hv x (h.mem x y v ht.rot) ?_
      rintro rfl
      simp [ori, ccw] at hpos
    have hy : H (f y - f v) := by
      refine hv y (h.mem y v x ht.rot.rot) ?_
      rintro rfl
      rw [ori_left] at hpos
      exact lt_irrefl _ hpos
    rw [ori_at] at i1
    rw [ori_flip, ori_at] at i3
    have j1 : 0 ≤ ori s (f v) (f x) a := nonneg_of_mul_nonneg_right i1 hd0
    have j3 : ori s (f v) (f y) a ≤ 0 := by
      by_contra hh
      have := mul_pos hd0 (not_le.1 hh)
      linarith
    obtain ⟨k1, k2⟩ := hfan x y ht
    rcases hd with hd | hd
    · exact absurd (hH.trans_lt' hy hpv ha k2 hd) (not_lt.2 j3)
    · have := hH.trans_lt ha hnv hx hd k1
      rw [← ori, ori_swap] at this
      linarith
  have hall := common_eps T (fun t (d : K) => ¬ InTri s (f t.1) (f t.2.1) (f t.2.2) (f v + d • (a - f v))) ?_
  · obtain ⟨e, he, hq⟩ := hall
    refine ⟨e, he, fun d d0 d1 hr => ?_⟩
    obtain ⟨t, ht, hi⟩ := region_iff.1 hr
    exact hq t ht d d0 d1 hi
  · rintro ⟨x, y, z⟩ ht
    dsimp only
    by_cases e1 : v = x
    · subst e1
      exact ⟨1, one_pos, fun d d0 _ => corner y z (Or.inl ht) d d0⟩
    by_cases e2 : v = y
    · subst e2
      exact ⟨1, one_pos, fun d d0 _ hi => corner z x (Or.inr (Or.inr ht)) d d0 hi.rot⟩
    by_cases e3 : v = z
    · subst e3
      exact ⟨1, one_pos, fun d d0 _ hi => corner x y (Or.inr (Or.inl ht)) d d0 hi.rot.rot⟩
    have hno : ¬ InTri s (f x) (f y) (f z) (f v) := by
      intro hi
      rcases h.empty x y z (Or.inl ht) v hvu hi with h | h | h
      · exact e1 h
      · exact e2 h
      · exact e3 h
    have neg : ∀ x y : ℕ, ori s (f x) (f y) (f v) < 0 → ∃ e : K, 0 < e ∧ ∀ d, 0 < d → d ≤ e → ori s (f x) (f y) (f v + d • (a - f v)) < 0 := by
      intro x y hneg
      obtain ⟨e, he, hq⟩ := exists_eps (neg_pos.2 hneg) (-(s * ccw (f y - f x) (a - f v)))
      refine ⟨e, he, fun d d0 d1 => ?_⟩
      have := hq d d0.le d1
      rw [ori_dir]
      linarith
    unfold InTri at hno
    by_cases g1 : 0 ≤ ori s (f x) (f y) (f v)
    · by_cases g2 : 0 ≤ ori s (f y) (f z) (f v)
      · have g3 : ori s (f z) (f x) (f v) < 0 := by
          by_contra hh
          exact hno ⟨g1, g2, not_lt.1 hh⟩
        obtain ⟨e, he, hq⟩ := neg _ _ g3
        exact ⟨e, he, fun d d0 d1 hi => absurd hi.2.2 (not_le.2 (hq d d0 d1))⟩
      · obtain ⟨e, he, hq⟩ := neg _ _ (not_le.1 g2)
        exact ⟨e, he, fun d d0 d1 hi => absurd hi.2.1 (not_le.2 (hq d d0 d1))⟩
    · obtain ⟨e, he, hq⟩ := neg _ _ (not_le.1 g1)
      exact ⟨e, he, fun d d0 d1 hi => absurd hi.1 (not_le.2 (hq d d0 d1))⟩

/-- A walk that ends outside does not enter the triangles. -/
theorem Tri.apart {f : ℕ → Vec K} {s : K} {u : List ℕ} {T : List Triple} (h : Tri f s u T) (hu : u.Nodup) {H : Vec K → Prop} (hH : Cone H)
    {v : ℕ} (hv : ∀ z ∈ u, z ≠ v → H (f z - f v)) {prv nxt : ℕ} (h1 : (prv, v) ∈ cyc u) (h2 : (v, nxt) ∈ cyc u) (B : List ℕ)
    (hB : ∀ x ∈ chn B, ∀ r ∈ segPts (f x.1, f x.2), ¬ OnBd f u r) {a : ℕ} (haB : a ∈ B) (ha : H (f a - f v))
    (hd : 0 < ori s (f v) (f prv) (f a) ∨ 0 < ori s (f v) (f a) (f nxt))
    (hlast : ∀ r ∈ segPts (f v, f a), OnBd f u r → r = f v) : ∀ z ∈ B, ¬ Region f s T (f z) := by
  intro z hz hr
  have hra := h.walk B hB hz haB hr
  obtain ⟨e, he, hq⟩ := h.outside hu hH hv h1 h2 (f a) ha hd
  have hd0 : 0 < min e 1 := lt_min he one_pos
  refine hq _ hd0 (min_le_left _ _) (h.stay hra fun r hr hb => ?_)
  have hmem : f v + min e 1 • (f a - f v) ∈ segPts (f v, f a) := ⟨_, hd0.le, min_le_right _ _, rfl⟩
  have hrv := hlast r (segPts_sub (right_mem_segPts _ _) hmem hr) hb
  obtain ⟨t, t0, t1, ht⟩ := hr
  have hne : f a - f v ≠ 0 := fun h0 => by rw [h0] at ha; exact hH.zero ha
  rw [hrv] at ht
  dsimp only at ht
  have : (1 - t * (1 - min e 1)) • (f a - f v) = 0 := by
    have : (1 - t * (1 - min e 1)) • (f a - f v) = (f a + t • (f v + min e 1 • (f a - f v) - f a)) - f v := by
      ext <;> simp <;> ring
    rw [this, ← ht, sub_self]
  have h3 : 1 - t * (1 - min e 1) = 0 := by
    by_contra hh
    apply hne
    have h4 := congrArg ((1 - t * (1 - min e 1))⁻¹ • ·) this
    simpa [smul_smul, inv_mul_cancel₀ hh] using h4
  nlinarith [mul_nonneg (sub_nonneg.2 t1) (sub_nonneg.2 (min_le_right e 1)), min_le_right e 1]

end Poly
end Flat
