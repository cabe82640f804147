import Verif.Lemmas.SaddleTerm
import Verif.Props.SaddleConstructor

/-!
# Strips of polygons

A two-sided infinite sequence of polygons, each glued to the next, unfolded into the plane, and lines that run through all the edges between
them.
-/

namespace Flat
variable {L K : Type} [Field K] [LinearOrder K] [IsStrictOrderedRing K]

namespace Poly

/-- Between two points of a convex polygon that are not on a common side, the line runs inside of the polygon. -/
theorem Convex.between_interior {p : Poly K} (hv : p.Valid) (hc : p.Convex) {X u : Vec K} {τ : K} (hX : ∀ k, 0 ≤ p.left X k)
    (hY : ∀ k, 0 ≤ p.left (X + τ • u) k) (hn : ∀ k, p.left X k = 0 → p.left (X + τ • u) k ≠ 0) {r : K} (r0 : 0 < r) (r1 : r < τ) :
    p.pointPosition (X + r • u) = .interior := by
  refine (C12_interior hv hc _).1.2 fun k => ?_
  have e := left_line p X u k 0 r τ
  rw [zero_smul, add_zero, sub_zero, sub_zero] at e
  have h1 : 0 < τ * p.left (X + r • u) k := by
    rw [e]
    rcases (hX k).lt_or_eq with h | h
    · exact add_pos_of_pos_of_nonneg (mul_pos (sub_pos.2 r1) h) (mul_nonneg r0.le (hY k))
    · exact add_pos_of_nonneg_of_pos (mul_nonneg (sub_pos.2 r1).le (hX k)) (mul_pos r0 (lt_of_le_of_ne (hY k) (Ne.symm (hn k h.symm))))
  exact (pos_iff_pos_of_mul_pos h1).1 (r0.trans r1)

/-- A side that meets a line along another side of a convex polygon from inside is parallel to it. -/
theorem Convex.open_parallel {p : Poly K} (hc : p.Convex) {e k : ℕ} {X : Vec K} (hX : X ∈ p.openSide e) (h : p.left X k = 0) :
    ccw (p.edge k) (p.edge e) = 0 := by
  obtain ⟨t, t0, t1, rfl⟩ := hX
  have h1 : 0 ≤ p.left (p.vertex e) k := hc k e
  have h2 : 0 ≤ p.left (p.vertex (e + 1)) k := hc k (e + 1)
  have h3 : p.left (p.vertex e + t • p.edge e) k = (1 - t) * p.left (p.vertex e) k + t * p.left (p.vertex (e + 1)) k := by
    unfold left edge ccw
    simp only [Prod.fst_sub, Prod.snd_sub, Prod.fst_add, Prod.snd_add, Prod.smul_fst, Prod.smul_snd, smul_eq_mul]
    ring
  have h4 : ccw (p.edge k) (p.edge e) = p.left (p.vertex (e + 1)) k - p.left (p.vertex e) k := by
    unfold left edge ccw
    simp only [Prod.fst_sub, Prod.snd_sub]
    ring
  rw [h3] at h
  have h5 := mul_nonneg (sub_pos.2 t1).le h1
  have h6 := mul_nonneg t0.le h2
  have h7 : p.left (p.vertex e) k = 0 := by
    rcases mul_eq_zero.1 (show (1 - t) * p.left (p.vertex e) k = 0 by linarith) with h | h
    · linarith
    · exact h
  have h8 : p.left (p.vertex (e + 1)) k = 0 := by
    rcases mul_eq_zero.1 (show t * p.left (p.vertex (e + 1)) k = 0 by linarith) with h | h
    · linarith
    · exact h
  rw [h4, h7, h8, sub_zero]

omit [LinearOrder K] [IsStrictOrderedRing K] in
theorem left_add (p : Poly K) (X u : Vec K) (τ : K) (k : ℕ) : p.left (X + τ • u) k = p.left X k + τ * ccw (p.edge k) u := by
  unfold left ccw
  simp only [Prod.fst_sub, Prod.snd_sub, Prod.fst_add, Prod.snd_add, Prod.smul_fst, Prod.smul_snd, smul_eq_mul]
  ring

theorem parallel_trans {a b c : Vec K} (ha : a ≠ 0) (h1 : ccw a b = 0) (h2 : ccw a c = 0) : ccw b c = 0 := by
  have hN := (_root_.Flat.normSq_pos' ha).ne'
  have : (a.1 * a.1 + a.2 * a.2) * ccw b c = 0 := by
    unfold ccw at *
    linear_combination (-(a.1 * c.1 + a.2 * c.2)) * h1 + (a.1 * b.1 + a.2 * b.2) * h2
  exact (mul_eq_zero.1 this).resolve_left hN

/-- A line that crosses a side does not run along a side. -/
theorem Convex.not_along {p : Poly K} (hv : p.Valid) (hc : p.Convex) {e k : ℕ} {X u : Vec K} {τ : K} (τ0 : τ ≠ 0) (h : X ∈ p.openSide e ∨ X + τ • u ∈ p.openSide e)
    (hu : ccw u (p.edge e) ≠ 0) (hk : p.left X k = 0) : p.left (X + τ • u) k ≠ 0 := by
  intro hk'
  have h1 : ccw (p.edge k) u = 0 := by
    rw [left_add, hk, zero_add] at hk'
    exact (mul_eq_zero.1 hk').resolve_left τ0
  have h2 : ccw (p.edge k) (p.edge e) = 0 := by
    rcases h with h | h
    · exact hc.open_parallel h hk
    · exact hc.open_parallel h hk'
  exact hu (parallel_trans (hv.edge_ne k) h1 h2)

end Poly

namespace RSurf
open Poly
variable {S : RSurf L K} {valid : L → Prop}

/-- A sequence of polygons, each glued to the next along an edge, with the maps that unfold them into the plane. -/
structure Strip (S : RSurf L K) (valid : L → Prop) (l : ℤ → L) (p : ℤ → Poly K) (e e' : ℤ → ℕ) (g G : ℤ → Similarity K) : Prop where
  valid : ∀ i, valid (l i)
  polygon : ∀ i, S.polygon (l i) = .ok (p i)
  convex : ∀ i, (p i).Convex
  lt : ∀ i, e i < (p i).length
  lt' : ∀ i, e' i < (p (i + 1)).length
  glues : ∀ i, S.GluesTo (l i) (e i) (l (i + 1)) (e' i) (g i)
  wf : ∀ i, (G i).WF
  sign : ∀ i, (G i).sign = 1
  step : ∀ i, G (i + 1) = (G i).mul (g i).inv

/-- The start of the edge that is crossed, in the plane. -/
def gateA (p : ℤ → Poly K) (e : ℤ → ℕ) (G : ℤ → Similarity K) (i : ℤ) : Vec K := (G i).call ((p i).vertex (e i))

/-- The end of the edge that is crossed, in the plane. -/
def gateB (p : ℤ → Poly K) (e : ℤ → ℕ) (G : ℤ → Similarity K) (i : ℤ) : Vec K := (G i).call ((p i).vertex (e i + 1))

namespace Strip
variable {l : ℤ → L} {p : ℤ → Poly K} {e e' : ℤ → ℕ} {g G : ℤ → Similarity K}

theorem valid_poly (hB : S.Bordered valid) (h : S.Strip valid l p e e' g G) (i : ℤ) : (p i).Valid := hB.valid_of_polygon (h.valid i) (h.polygon i)

theorem glue_ends (h : S.Strip valid l p e e' g G) (i : ℤ) :
    (g i).call ((p i).vertex (e i)) = (p (i + 1)).vertex (e' i + 1) ∧ (g i).call ((p i).vertex (e i + 1)) = (p (i + 1)).vertex (e' i) := by
  obtain ⟨q, q', hq, hq', -, h1, h2⟩ := (h.glues i).ends
  rw [h.polygon] at hq hq'
  injection hq with hq; injection hq' with hq'
  subst hq; subst hq'
  exact ⟨h1, h2⟩

theorem next_call (h : S.Strip valid l p e e' g G) (i : ℤ) (x : Vec K) : (G (i + 1)).call ((g i).call x) = (G i).call x := by
  have hgi : (g i).inv.sign = 1 := (h.glues i).sign
  rw [h.step, mul_call (h.sign i) hgi, inv_call (h.glues i).wf (h.glues i).sign rfl]

theorem inv_next (h : S.Strip valid l p e e' g G) (i : ℤ) (x : Vec K) : (g i).call ((G i).inv.call x) = (G (i + 1)).inv.call x := by
  have hs : (G i).inv.sign = 1 := h.sign i
  have e1 : (G i).call ((G i).inv.call x) = x := by
    have := inv_call (Similarity.C01_inv_wf _ (h.wf i)) hs (v := x) rfl
    rwa [inv_inv_call (h.wf i)] at this
  have e2 := h.next_call i ((G i).inv.call x)
  rw [e1] at e2
  exact (inv_call (h.wf _) (h.sign _) e2).symm

theorem gateA_next (h : S.Strip valid l p e e' g G) (i : ℤ) : (G (i + 1)).call ((p (i + 1)).vertex (e' i + 1)) = gateA p e G i := by
  rw [← (h.glue_ends i).1, h.next_call]; rfl

theorem gateB_next (h : S.Strip valid l p e e' g G) (i : ℤ) : (G (i + 1)).call ((p (i + 1)).vertex (e' i)) = gateB p e G i := by
  rw [← (h.glue_ends i).2, h.next_call]; rfl

/-- The strip in the other direction. -/
theorem reverse (hB : S.Bordered valid) (h : S.Strip valid l p e e' g G) :
    S.Strip valid (fun i => l (-i)) (fun i => p (-i)) (fun i => e' (-i - 1)) (fun i => e (-i - 1)) (fun i => (g (-i - 1)).inv) (fun i => G (-i)) where
  valid i := h.valid _
  polygon i := h.polygon _
  convex i := h.convex _
  lt i := by have := h.lt' (-i - 1); rwa [sub_add_cancel] at this
  lt' i := by rw [show -(i + 1) = -i - 1 by ring]; exact h.lt _
  glues i := by
    have := (gluesTo_symm hB (h.valid _) (h.glues (-i - 1))).1
    rw [sub_add_cancel] at this
    rw [show -(i + 1) = -i - 1 by ring]
    exact this
  wf i := h.wf _
  sign i := h.sign _
  step i := by
    have h1 := h.step (-i - 1)
    rw [sub_add_cancel] at h1
    rw [show -(i + 1) = -i - 1 by ring, h1, inv_inv_call (h.glues _).wf, Similarity.C01_mul_assoc _ _ _ (h.wf _) (Similarity.C01_inv_wf _ (h.glues _).wf),
      Similarity.C01_inv_mul _ (h.glues _).wf, Similarity.C01_mul_one]

/-- The line in the direction `v` at height `y` runs between the ends of all the edges; it may run through their starts. -/
def Wide (p : ℤ → Poly K) (e : ℤ → ℕ) (G : ℤ → Similarity K) (v : Vec K) (y : K) : Prop :=
  ∀ i, ccw v (gateA p e G i) ≤ y ∧ y < ccw v (gateB p e G i)

/-- The position on the edge at which the line crosses it. -/
def ratio (p : ℤ → Poly K) (e : ℤ → ℕ) (G : ℤ → Similarity K) (v : Vec K) (y : K) (i : ℤ) : K :=
  (y - ccw v (gateA p e G i)) / (ccw v (gateB p e G i) - ccw v (gateA p e G i))

/-- The point at which the line crosses the edge. -/
def hit (p : ℤ → Poly K) (e : ℤ → ℕ) (G : ℤ → Similarity K) (v : Vec K) (y : K) (i : ℤ) : Vec K :=
  gateA p e G i + ratio p e G v y i • (gateB p e G i - gateA p e G i)

variable {v : Vec K} {y : K}

theorem ratio_mem (hw : Wide p e G v y) (i : ℤ) : 0 ≤ ratio p e G v y i ∧ ratio p e G v y i < 1 := by
  obtain ⟨h1, h2⟩ := hw i
  have hd : 0 < ccw v (gateB p e G i) - ccw v (gateA p e G i) := by linarith
  unfold ratio
  exact ⟨div_nonneg (by linarith) hd.le, by rw [div_lt_one hd]; linarith⟩

theorem ratio_pos (hw : Wide p e G v y) {i : ℤ} (hi : ccw v (gateA p e G i) < y) : 0 < ratio p e G v y i := by
  obtain ⟨h1, h2⟩ := hw i
  exact div_pos (by linarith) (by linarith)

theorem hit_start {i : ℤ} (hi : ccw v (gateA p e G i) = y) : hit p e G v y i = gateA p e G i := by
  unfold hit ratio
  rw [hi, sub_self, zero_div, zero_smul, add_zero]

theorem hit_height (hw : Wide p e G v y) (i : ℤ) : ccw v (hit p e G v y i) = y := by
  obtain ⟨h1, h2⟩ := hw i
  have hd : ccw v (gateB p e G i) - ccw v (gateA p e G i) ≠ 0 := by intro h; linarith
  have e1 : ccw v (hit p e G v y i) = ccw v (gateA p e G i) + ratio p e G v y i * (ccw v (gateB p e G i) - ccw v (gateA p e G i)) := by
    unfold hit ccw
    simp only [Prod.fst_sub, Prod.snd_sub, Prod.fst_add, Prod.snd_add, Prod.smul_fst, Prod.smul_snd, smul_eq_mul]
    ring
  rw [e1]
  unfold ratio
  rw [div_mul_cancel₀ _ hd]
  ring

theorem inv_call_line {H : Similarity K} (hw : H.WF) (hs : H.sign = 1) (a b : Vec K) (t : K) {x z : Vec K} (hx : H.call x = a) (hz : H.call z = b) :
    H.inv.call (a + t • (b - a)) = x + t • (z - x) := by
  apply inv_call hw hs
  rw [← hx, ← hz]
  unfold Similarity.call
  simp only [if_pos hs]
  ext <;> simp <;> ring

/-- The point at which the line crosses the edge, in the coordinates of the polygon before the edge. -/
theorem hit_before (h : S.Strip valid l p e e' g G) (v : Vec K) (y : K) (i : ℤ) :
    (G i).inv.call (hit p e G v y i) = (p i).vertex (e i) + ratio p e G v y i • (p i).edge (e i) :=
  inv_call_line (h.wf i) (h.sign i) _ _ _ rfl rfl

/-- The point at which the line crosses the edge, in the coordinates of the polygon after the edge. -/
theorem hit_after (h : S.Strip valid l p e e' g G) (v : Vec K) (y : K) (i : ℤ) :
    (G (i + 1)).inv.call (hit p e G v y i) = (p (i + 1)).vertex (e' i) + (1 - ratio p e G v y i) • (p (i + 1)).edge (e' i) := by
  have := inv_call_line (h.wf _) (h.sign _) _ _ (ratio p e G v y i) (h.gateA_next i) (h.gateB_next i)
  unfold hit
  rw [this]
  unfold edge
  module

theorem v_ne (hw : Wide p e G v y) : v ≠ 0 := by
  rintro rfl
  obtain ⟨h1, h2⟩ := hw 0
  simp [ccw] at h1 h2
  linarith

/-- The direction of the line in the coordinates of a polygon. -/
def dir (G : ℤ → Similarity K) (v : Vec K) (i : ℤ) : Vec K := (G i).inv.derivative.mulVec v

theorem dir_ne (h : S.Strip valid l p e e' g G) (hw : Wide p e G v y) (i : ℤ) : dir G v i ≠ 0 :=
  Similarity.derivative_ne (Similarity.C01_inv_wf _ (h.wf i)) (h.sign i) (v_ne hw)

theorem ccw_dir (h : S.Strip valid l p e e' g G) (v x z : Vec K) (i : ℤ) :
    ((G i).a * (G i).a + (G i).b * (G i).b) * ccw (dir G v i) (x - z) = ccw v ((G i).call x) - ccw v ((G i).call z) := by
  rw [← Similarity.ccw_derivative (h.sign i)]
  unfold dir
  rw [(inv_deriv (h.wf i) (h.sign i) v).2, ← call_sub (h.sign i)]
  unfold ccw
  simp only [Prod.fst_sub, Prod.snd_sub]
  ring

theorem scale_pos (h : S.Strip valid l p e e' g G) (i : ℤ) : 0 < (G i).a * (G i).a + (G i).b * (G i).b := (h.wf i).normSq_pos

/-- The line leaves the polygon through the edge. -/
theorem dir_leave (h : S.Strip valid l p e e' g G) (hw : Wide p e G v y) (i : ℤ) : 0 < ccw (dir G v i) ((p i).edge (e i)) := by
  refine (pos_iff_pos_of_mul_pos (a := (G i).a * (G i).a + (G i).b * (G i).b) ?_).1 (h.scale_pos i)
  unfold edge
  rw [h.ccw_dir]
  obtain ⟨h1, h2⟩ := hw i
  exact sub_pos.2 (lt_of_le_of_lt h1 h2)

/-- The line enters the polygon through the edge. -/
theorem dir_enter (h : S.Strip valid l p e e' g G) (hw : Wide p e G v y) (i : ℤ) : 0 < ccw ((p (i + 1)).edge (e' i)) (dir G v (i + 1)) := by
  refine (pos_iff_pos_of_mul_pos (a := (G (i + 1)).a * (G (i + 1)).a + (G (i + 1)).b * (G (i + 1)).b) ?_).1 (h.scale_pos _)
  rw [ccw_swap, mul_neg]
  unfold edge
  rw [h.ccw_dir, h.gateA_next, h.gateB_next]
  obtain ⟨h1, h2⟩ := hw i
  linarith

/-- The line does not leave through the edge through which it came. -/
theorem edge_ne (h : S.Strip valid l p e e' g G) (hw : Wide p e G v y) (i : ℤ) : e' i ≠ e (i + 1) := by
  intro he
  have h1 := h.gateB_next i
  rw [he] at h1
  have h2 : gateA p e G (i + 1) = gateB p e G i := h1
  have h3 := (hw (i + 1)).1
  have h4 := (hw i).2
  rw [h2] at h3
  linarith

theorem hit_left (h : S.Strip valid l p e e' g G) (hw : Wide p e G v y) (i : ℤ) (k : ℕ) : 0 ≤ (p i).left ((G i).inv.call (hit p e G v y i)) k := by
  refine (h.convex i).side_left (i := e i) ?_ k
  rw [h.hit_before]
  obtain ⟨h1, h2⟩ := ratio_mem hw i
  exact ⟨ratio p e G v y i, h1, h2.le, rfl⟩

theorem hit_left' (h : S.Strip valid l p e e' g G) (hw : Wide p e G v y) (i : ℤ) (k : ℕ) : 0 ≤ (p (i + 1)).left ((G (i + 1)).inv.call (hit p e G v y i)) k := by
  refine (h.convex _).side_left (i := e' i) ?_ k
  rw [h.hit_after]
  obtain ⟨h1, h2⟩ := ratio_mem hw i
  exact ⟨1 - ratio p e G v y i, by linarith, by linarith, rfl⟩

/-- How far it is from one edge to the next. -/
theorem exists_step (h : S.Strip valid l p e e' g G) (hw : Wide p e G v y) (i : ℤ) :
    ∃ τ : K, 0 ≤ τ ∧ hit p e G v y (i + 1) = hit p e G v y i + τ • v ∧
      (G (i + 1)).inv.call (hit p e G v y (i + 1)) = (G (i + 1)).inv.call (hit p e G v y i) + τ • dir G v (i + 1) := by
  obtain ⟨τ, hτ⟩ := on_ray (p := hit p e G v y i) (x := hit p e G v y (i + 1)) (v_ne hw) (by
    have h1 := hit_height hw i
    have h2 := hit_height hw (i + 1)
    unfold ccw at *
    simp only [Prod.fst_sub, Prod.snd_sub]
    linarith)
  have hlin : (G (i + 1)).inv.call (hit p e G v y (i + 1)) = (G (i + 1)).inv.call (hit p e G v y i) + τ • dir G v (i + 1) := by
    have hs : (G (i + 1)).inv.sign = 1 := h.sign _
    rw [hτ]
    have := Similarity.call_add hs (hit p e G v y i) (τ • v)
    rw [sub_eq_iff_eq_add'] at this
    rw [this]
    congr 1
    unfold dir Mat2.mulVec
    ext <;> simp <;> ring
  refine ⟨τ, ?_, hτ, hlin⟩
  have h1 := h.hit_left hw (i + 1) (e' i)
  rw [hlin, left_add] at h1
  have h2 : (p (i + 1)).left ((G (i + 1)).inv.call (hit p e G v y i)) (e' i) = 0 := by
    rw [h.hit_after]
    unfold left ccw
    simp only [Prod.fst_sub, Prod.snd_sub, Prod.fst_add, Prod.snd_add, Prod.smul_fst, Prod.smul_snd, smul_eq_mul]
    ring
  rw [h2, zero_add] at h1
  by_contra hn
  have := mul_neg_of_neg_of_pos (not_le.1 hn) (h.dir_enter hw i)
  linarith

theorem hit_open (h : S.Strip valid l p e e' g G) (hw : Wide p e G v y) {i : ℤ} (hi : ccw v (gateA p e G i) < y) :
    (G i).inv.call (hit p e G v y i) ∈ (p i).openSide (e i) :=
  ⟨_, ratio_pos hw hi, (ratio_mem hw i).2, h.hit_before v y i⟩

theorem hit_open' (h : S.Strip valid l p e e' g G) (hw : Wide p e G v y) {i : ℤ} (hi : ccw v (gateA p e G i) < y) :
    (G (i + 1)).inv.call (hit p e G v y i) ∈ (p (i + 1)).openSide (e' i) :=
  ⟨_, by linarith [(ratio_mem hw i).2], by linarith [ratio_pos hw hi], h.hit_after v y i⟩

/-- The segment of the line from one edge to the next. -/
def seg (l : ℤ → L) (p : ℤ → Poly K) (e : ℤ → ℕ) (G : ℤ → Similarity K) (v : Vec K) (y : K) (i : ℤ) : Seg L K where
  start := ⟨l (i + 1), (G (i + 1)).inv.call (hit p e G v y i), dir G v (i + 1), (p (i + 1)).pointPosition ((G (i + 1)).inv.call (hit p e G v y i))⟩
  stop := ⟨l (i + 1), (G (i + 1)).inv.call (hit p e G v y (i + 1)), -dir G v (i + 1), (p (i + 1)).pointPosition ((G (i + 1)).inv.call (hit p e G v y (i + 1)))⟩

/-- If the line crosses one of the two edges between its ends then it runs inside of the polygon. -/
theorem seg_chord (hB : S.Bordered valid) (h : S.Strip valid l p e e' g G) (hw : Wide p e G v y) {i : ℤ}
    (hi : ccw v (gateA p e G i) < y ∨ ccw v (gateA p e G (i + 1)) < y) :
    ∃ τ : K, S.IsChord valid (seg l p e G v y i) (p (i + 1)) τ ∧ hit p e G v y (i + 1) = hit p e G v y i + τ • v := by
  obtain ⟨τ, τ0, h1, h2⟩ := h.exists_step hw i
  have hv := h.valid_poly hB (i + 1)
  have hc := h.convex (i + 1)
  have hne : τ ≠ 0 := by
    rintro rfl
    rw [zero_smul, add_zero] at h2
    rcases hi with hi | hi
    · have h3 := h.hit_open' hw hi
      have h4 : (G (i + 1)).inv.call (hit p e G v y i) ∈ (p (i + 1)).side (e (i + 1)) := by
        rw [← h2, h.hit_before]
        exact ⟨_, (ratio_mem hw _).1, (ratio_mem hw _).2.le, rfl⟩
      have := hv.openSide_unique h3 h4
      rw [Nat.mod_eq_of_lt (h.lt' i), Nat.mod_eq_of_lt (h.lt _)] at this
      exact h.edge_ne hw i this
    · have h3 := h.hit_open hw hi
      have h4 : (G (i + 1)).inv.call (hit p e G v y (i + 1)) ∈ (p (i + 1)).side (e' i) := by
        rw [h2, h.hit_after]
        exact ⟨_, by linarith [(ratio_mem hw i).2], by linarith [(ratio_mem hw i).1], rfl⟩
      have := hv.openSide_unique h3 h4
      rw [Nat.mod_eq_of_lt (h.lt' i), Nat.mod_eq_of_lt (h.lt _)] at this
      exact h.edge_ne hw i this.symm
  have τp : 0 < τ := lt_of_le_of_ne τ0 (Ne.symm hne)
  refine ⟨τ, ?_, h1⟩
  exact {
    valid := h.valid _
    polygon := h.polygon _
    label := rfl
    vector := rfl
    ne := h.dir_ne hw _
    pos := τp
    stop := h2
    side := ⟨e' i, by
      show (G (i + 1)).inv.call (hit p e G v y i) ∈ _
      rw [h.hit_after]
      exact ⟨_, by linarith [(ratio_mem hw i).2], by linarith [(ratio_mem hw i).1], rfl⟩⟩
    side' := ⟨e (i + 1), by
      show (G (i + 1)).inv.call (hit p e G v y (i + 1)) ∈ _
      rw [h.hit_before]
      exact ⟨_, (ratio_mem hw _).1, (ratio_mem hw _).2.le, rfl⟩⟩
    interior := by
      intro r r0 r1
      refine hc.between_interior hv (h.hit_left' hw i) (by change ∀ k, 0 ≤ (p (i + 1)).left ((G (i + 1)).inv.call (hit p e G v y i) + τ • dir G v (i + 1)) k; rw [← h2]; exact h.hit_left hw (i + 1)) (fun k hk => ?_) r0 r1
      rcases hi with hi | hi
      · refine hc.not_along hv hne (.inl (h.hit_open' hw hi)) ?_ hk
        intro hz
        have := h.dir_enter hw i
        have hz' : ccw (dir G v (i + 1)) ((p (i + 1)).edge (e' i)) = 0 := hz
        rw [ccw_swap, hz', neg_zero] at this
        exact lt_irrefl _ this
      · exact hc.not_along hv hne (.inr (by change (G (i + 1)).inv.call (hit p e G v y i) + τ • dir G v (i + 1) ∈ _; rw [← h2]; exact h.hit_open hw hi)) (h.dir_leave hw _).ne' hk
    position := rfl
    position' := rfl }

theorem seg_stop (hB : S.Bordered valid) (h : S.Strip valid l p e e' g G) (hw : Wide p e G v y) {i : ℤ} (hi : ccw v (gateA p e G (i + 1)) < y) :
    (seg l p e G v y i).stop.position = .edgeInterior (e (i + 1)) :=
  (C12_edge (h.valid_poly hB (i + 1)) _ _).2 ⟨h.lt _, h.hit_open hw hi⟩

theorem seg_start (hB : S.Bordered valid) (h : S.Strip valid l p e e' g G) (hw : Wide p e G v y) {i : ℤ} (hi : ccw v (gateA p e G i) < y) :
    (seg l p e G v y i).start.position = .edgeInterior (e' i) :=
  (C12_edge (h.valid_poly hB (i + 1)) _ _).2 ⟨h.lt' _, h.hit_open' hw hi⟩

theorem dir_next (h : S.Strip valid l p e e' g G) (v : Vec K) (i : ℤ) : (g i).derivative.mulVec (dir G v i) = dir G v (i + 1) := by
  have hs : (G i).inv.sign = 1 := h.sign i
  unfold dir
  rw [h.step, mul_inv_rev (h.wf i) (Similarity.C01_inv_wf _ (h.glues i).wf), inv_inv_call (h.glues i).wf, mul_deriv (h.glues i).sign hs]

/-- Segments of the line follow each other. -/
theorem seg_follows (hS : S.Closed valid) (h : S.Strip valid l p e e' g G) (hw : Wide p e G v y) {i : ℤ} (hi : ccw v (gateA p e G (i + 1)) < y) :
    S.Follows (seg l p e G v y i) (seg l p e G v y (i + 1)) := by
  have hB := hS.bordered
  obtain ⟨τ, hch, -⟩ := h.seg_chord hB hw (.inr hi)
  have hstop := h.seg_stop hB hw hi
  have hns : (seg l p e G v y i).stop.singular = false := by unfold TVec.singular; rw [hstop]
  have hc : 0 < ccw ((p (i + 1)).edge (e (i + 1))) (seg l p e G v y i).stop.vector := by
    have h1 := h.dir_leave hw (i + 1)
    show 0 < ccw ((p (i + 1)).edge (e (i + 1))) (-dir G v (i + 1))
    unfold ccw at h1 ⊢
    simp only [Prod.fst_neg, Prod.snd_neg]
    linarith
  obtain ⟨h1, -⟩ := cross_at hS (C67_ends hB (.inl ⟨_, _, hch⟩)).2 (h.polygon (i + 1)) hstop hc (h.glues (i + 1))
  refine ⟨hns, h1.trans ?_⟩
  congr 1
  have h3 := h.seg_start hB hw hi
  unfold seg at h3 ⊢
  dsimp only at h3 ⊢
  rw [neg_neg, h.inv_next, h.dir_next, h3]

end Strip
end RSurf
end Flat
