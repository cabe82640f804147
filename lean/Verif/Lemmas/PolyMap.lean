import Verif.Lemmas.Triangles
import Verif.Props.JoinPolygons

/-!
# Images of polygons under affine maps
-/

namespace Flat

namespace Mat2
variable {K : Type} [Field K]

theorem mulVec_inj {g : Mat2 K} (hg : g.det ≠ 0) {u v : Vec K} (h : g.mulVec u = g.mulVec v) : u = v := by
  obtain ⟨u1, u2⟩ := u
  obtain ⟨v1, v2⟩ := v
  simp only [mulVec, Prod.mk.injEq] at h
  obtain ⟨h1, h2⟩ := h
  simp only [det] at hg
  ext
  · exact mul_left_cancel₀ hg (by simp only; linear_combination g.d * h1 - g.b * h2)
  · exact mul_left_cancel₀ hg (by simp only; linear_combination g.a * h2 - g.c * h1)

theorem mulVec_smul (g : Mat2 K) (c : K) (v : Vec K) : g.mulVec (c • v) = c • g.mulVec v := by
  ext <;> simp [mulVec] <;> ring

theorem mulVec_neg (g : Mat2 K) (v : Vec K) : g.mulVec (-v) = -g.mulVec v := by
  ext <;> simp [mulVec] <;> ring

theorem mulVec_zero (g : Mat2 K) : g.mulVec 0 = 0 := by
  ext <;> simp [mulVec]

theorem mulVec_add (g : Mat2 K) (v w : Vec K) : g.mulVec (v + w) = g.mulVec v + g.mulVec w := by
  ext <;> simp [mulVec] <;> ring

theorem mulVec_mul (g h : Mat2 K) (v : Vec K) : (g.mul h).mulVec v = g.mulVec (h.mulVec v) := by
  ext <;> simp [mulVec, mul] <;> ring

end Mat2

namespace Poly
variable {K : Type} [Field K] [LinearOrder K] [IsStrictOrderedRing K]

theorem Valid.ne_nil {p : Poly K} (h : Valid p) : p ≠ [] := by
  rintro rfl
  have := h.len3
  simp at this

theorem isAntiParallel_image {g : Mat2 K} (hg : g.det ≠ 0) {u v : Vec K} (hu : u ≠ 0) (h : isAntiParallel u v = false) :
    isAntiParallel (g.mulVec u) (g.mulVec v) = false := by
  by_contra hc
  have hgu : g.mulVec u ≠ 0 := fun h0 => hu (Mat2.mulVec_inj hg (by rw [h0, Mat2.mulVec_zero]))
  rw [Bool.not_eq_false, C05_isAntiParallel_iff _ _ hgu] at hc
  obtain ⟨t, ht, h1⟩ := hc
  have := (C05_isAntiParallel_iff u v hu).2 ⟨t, ht, Mat2.mulVec_inj hg (by rw [h1, Mat2.mulVec_smul])⟩
  rw [h] at this
  cases this

theorem isAntiParallel_neg_swap {u v : Vec K} (hu : u ≠ 0) (hv : v ≠ 0) (h : isAntiParallel u v = false) :
    isAntiParallel (-v) (-u) = false := by
  by_contra hc
  rw [Bool.not_eq_false, C05_isAntiParallel_iff _ _ (neg_ne_zero.2 hv)] at hc
  obtain ⟨t, ht, h1⟩ := hc
  have := (C05_isAntiParallel_iff u v hu).2 ⟨t⁻¹, inv_lt_zero.2 ht, by
    have h2 : u = t • v := by rw [smul_neg] at h1; exact neg_inj.1 h1
    rw [h2, smul_smul, inv_mul_cancel₀ ht.ne, one_smul]⟩
  rw [h] at this
  cases this

/-- The segment between two images is the image of the segment. -/
theorem mem_segPts_image {F : Vec K → Vec K} {g : Mat2 K} (hF : ∀ a b, F b - F a = g.mulVec (b - a)) {a b x : Vec K}
    (h : x ∈ segPts (F a, F b)) : ∃ y ∈ segPts (a, b), x = F y := by
  obtain ⟨t, h0, h1, h2⟩ := h
  refine ⟨a + t • (b - a), ⟨t, h0, h1, rfl⟩, ?_⟩
  have := hF a (a + t • (b - a))
  rw [add_sub_cancel_left, Mat2.mulVec_smul, ← hF a b] at this
  rw [h2]
  simp only
  rw [← this]
  abel

theorem image_inj {F : Vec K → Vec K} {g : Mat2 K} (hF : ∀ a b, F b - F a = g.mulVec (b - a)) (hg : g.det ≠ 0) {x y : Vec K}
    (h : F x = F y) : x = y := by
  have := hF x y
  rw [h, sub_self] at this
  have h2 := Mat2.mulVec_inj hg (this.symm.trans (Mat2.mulVec_zero g).symm)
  exact (sub_eq_zero.1 h2).symm

theorem Valid.image {p q : Poly K} (h : Valid p) {F : Vec K → Vec K} {g : Mat2 K} (hF : ∀ a b, F b - F a = g.mulVec (b - a))
    (hg : g.det ≠ 0) (hl : q.length = p.length) (ha : 0 < q.area) (hv : ∀ i, q.vertex i = F (p.vertex i)) : Valid q := by
  have he : ∀ i, q.edge i = g.mulVec (p.edge i) := by
    intro i
    unfold edge
    rw [hv, hv, hF]
  refine ⟨by rw [hl]; exact h.len3, ha, fun i h0 => ?_, fun i => ?_, fun i j hij => ?_⟩
  · rw [he] at h0
    exact h.edge_ne i (Mat2.mulVec_inj hg (by rw [h0, Mat2.mulVec_zero]))
  · rw [he, he]
    exact isAntiParallel_image hg (h.edge_ne i) (h.turn i)
  · rw [hl] at hij
    have := h.simple i j hij
    rw [Set.eq_empty_iff_forall_notMem] at this ⊢
    rintro x ⟨hx1, hx2⟩
    unfold side at hx1 hx2
    rw [hv, hv] at hx1 hx2
    obtain ⟨y1, hy1, e1⟩ := mem_segPts_image hF hx1
    obtain ⟨y2, hy2, e2⟩ := mem_segPts_image hF hx2
    have : y1 = y2 := image_inj hF hg (e1.symm.trans e2)
    subst this
    exact this y1 ⟨hy1, hy2⟩

theorem Valid.image_reverse {p q : Poly K} (h : Valid p) {F : Vec K → Vec K} {g : Mat2 K} (hF : ∀ a b, F b - F a = g.mulVec (b - a))
    (hg : g.det ≠ 0) (hl : q.length = p.length) (ha : 0 < q.area)
    (hv : ∀ i m, (m + i) % p.length = 0 → q.vertex i = F (p.vertex m)) : Valid q := by
  have hn := h.len3
  have hm : ∀ i, ∃ m, (m + i) % p.length = 0 := by
    intro i
    refine ⟨(p.length - 1) * i, ?_⟩
    have : (p.length - 1) * i + i = p.length * i := by
      obtain ⟨n, hn⟩ : ∃ n, p.length = n + 1 := ⟨p.length - 1, by omega⟩
      rw [hn, Nat.add_sub_cancel]; ring
    rw [this]
    simp
  have he : ∀ i m, (m + 1 + i) % p.length = 0 → q.edge i = g.mulVec (-p.edge m) := by
    intro i m h1
    unfold edge
    rw [hv (i + 1) m (by rw [← h1]; congr 1; omega), hv i (m + 1) h1, hF, neg_sub]
  have hm1 : ∀ i, ∃ m, (m + 1 + i) % p.length = 0 := by
    intro i
    obtain ⟨m, h1⟩ := hm (i + 1)
    exact ⟨m, by rw [← h1]; congr 1; omega⟩
  refine ⟨by rw [hl]; exact h.len3, ha, fun i h0 => ?_, fun i => ?_, fun i j hij => ?_⟩
  · obtain ⟨m, h1⟩ := hm1 i
    rw [he i m h1] at h0
    have := Mat2.mulVec_inj hg (h0.trans (Mat2.mulVec_zero g).symm)
    exact h.edge_ne m (neg_eq_zero.1 this)
  · obtain ⟨m, h1⟩ := hm1 (i + 1)
    rw [he i (m + 1) (by rw [← h1]; congr 1; omega), he (i + 1) m h1]
    exact isAntiParallel_image hg (neg_ne_zero.2 (h.edge_ne _)) (isAntiParallel_neg_swap (h.edge_ne _) (h.edge_ne _) (h.turn m))
  · obtain ⟨m, h1⟩ := hm1 i
    obtain ⟨m', h1'⟩ := hm1 j
    have hap : Apart p.length m m' := by
      rw [hl] at hij
      have key : ∀ a b c d : ℕ, (a + c) % p.length = 0 → (b + d) % p.length = 0 → (c % p.length ≠ d % p.length) → a % p.length ≠ b % p.length := by
        intro a b c d k1 k2 k3 k4
        apply k3
        have : (a + c) ≡ (a + d) [MOD p.length] := by
          unfold Nat.ModEq
          rw [k1, ← k2, Nat.add_mod b, Nat.add_mod a, k4]
        exact Nat.ModEq.add_left_cancel' a this
      refine ⟨key m m' (i + 1) (j + 1) (by rw [← h1]; congr 1; omega) (by rw [← h1']; congr 1; omega) ?_,
        key (m + 1) m' i (j + 1) h1 (by rw [← h1']; congr 1; omega) hij.2.2, key m (m' + 1) (i + 1) j (by rw [← h1]; congr 1; omega) h1' hij.2.1⟩
      intro hc
      exact hij.1 (Nat.ModEq.add_right_cancel' 1 hc)
    have := h.simple m m' hap
    rw [Set.eq_empty_iff_forall_notMem] at this ⊢
    rintro x ⟨hx1, hx2⟩
    unfold side at hx1 hx2
    rw [hv (i + 1) m (by rw [← h1]; congr 1; omega), hv i (m + 1) h1, segPts_swap] at hx1
    rw [hv (j + 1) m' (by rw [← h1']; congr 1; omega), hv j (m' + 1) h1', segPts_swap] at hx2
    obtain ⟨y1, hy1, e1⟩ := mem_segPts_image hF hx1
    obtain ⟨y2, hy2, e2⟩ := mem_segPts_image hF hx2
    have : y1 = y2 := image_inj hF hg (e1.symm.trans e2)
    subst this
    exact this y1 ⟨hy1, hy2⟩

/-- The vertices of the image under an orientation reversing matrix. -/
theorem vertex_mul_neg {g : Mat2 K} {p q : Poly K} (hp : p ≠ []) (h : mul g p = some q) (hd : g.det < 0) (i m : ℕ)
    (hm : (m + i) % p.length = 0) : q.vertex i = g.mulVec (p.vertex m) := by
  obtain ⟨hlen, _, _, hneg⟩ := C10_vertices g p q hp h
  have hpl : 0 < p.length := List.length_pos_iff.2 hp
  have hlt := Nat.mod_lt i hpl
  rw [← vertex_mod q i, hlen, hneg hd _ hlt.le]
  congr 1
  refine vertex_congr p ?_
  obtain ⟨t, ht⟩ := Nat.dvd_of_mod_eq_zero hm
  have hi := Nat.mod_add_div i p.length
  have : p.length - i % p.length + p.length * t = m + p.length * (1 + i / p.length) := by
    rw [Nat.mul_add, Nat.mul_one]
    omega
  calc (p.length - i % p.length) % p.length
      = (p.length - i % p.length + p.length * t) % p.length := by simp
    _ = m % p.length := by rw [this]; simp

/-- **C10.** The image of a valid polygon under an invertible matrix is a valid polygon. -/
theorem C10_mul_valid {g : Mat2 K} {p q : Poly K} (h : Valid p) (hm : mul g p = some q) : Valid q := by
  have hp := h.ne_nil
  obtain ⟨hlen, _, hpos, hneg⟩ := C10_vertices g p q hp hm
  have hd := (mul_eq g p hp q hm).1
  have hF : ∀ a b : Vec K, g.mulVec b - g.mulVec a = g.mulVec (b - a) := fun a b => mulVec_sub g b a
  have ha := C10_counterclockwise g p q hp hm h.area_pos
  rcases lt_or_gt_of_ne hd with h1 | h1
  · exact h.image_reverse hF hd hlen ha (fun i m => vertex_mul_neg hp hm h1 i m)
  · exact h.image hF hd hlen ha (hpos h1)

/-- The image of a valid polygon under an orientation preserving similarity is a valid polygon. -/
theorem Valid.map_call {p : Poly K} (h : Valid p) {g : Similarity K} (hg : g.WF) (hs : g.sign = 1) : Valid (p.map g.call) := by
  have hdet : g.det = g.a * g.a + g.b * g.b := by simp [Similarity.det, hs]
  have hpos : 0 < g.det := by
    rw [hdet]
    exact lt_of_le_of_ne (add_nonneg (mul_self_nonneg _) (mul_self_nonneg _)) (Ne.symm hg.1)
  have hd : g.derivative.det = g.det := by rw [hdet]; simp [Similarity.derivative, Mat2.det, hs]
  refine h.image (F := g.call) (g := g.derivative) (fun a b => call_sub hs b a) (by rw [hd]; exact hpos.ne') (List.length_map ..) ?_
    (fun i => vertex_map _ _ h.ne_nil i)
  rw [area_map_call p hs]
  exact mul_pos hpos h.area_pos

end Poly
end Flat
