import Verif.Lemmas.CylinderQuad

/-!
# The polygons of a cylinder
-/

namespace Flat
variable {L K : Type} [Field K] [LinearOrder K] [IsStrictOrderedRing K]

namespace RSurf
open Poly
variable {S : RSurf L K} {valid : L → Prop} {l : ℤ → L} {p : ℤ → Poly K} {e e' : ℤ → ℕ} {g G : ℤ → Similarity K} {v : Vec K} {lo hi : K}

/-- All edges reach across the heights between `lo` and `hi`. -/
structure Spans (p : ℤ → Poly K) (e : ℤ → ℕ) (G : ℤ → Similarity K) (v : Vec K) (lo hi : K) : Prop where
  lt : lo < hi
  low : ∀ i, ccw v (gateA p e G i) ≤ lo
  high : ∀ i, hi ≤ ccw v (gateB p e G i)

namespace Spans

theorem wide (h : Spans p e G v lo hi) {y : K} (h1 : lo ≤ y) (h2 : y < hi) : Strip.Wide p e G v y :=
  fun i => ⟨(h.low i).trans h1, h2.trans_le (h.high i)⟩

theorem isOpen (h : Spans p e G v lo hi) {y : K} (h1 : lo < y) (h2 : y < hi) : Loop.Open p e G v y :=
  fun i => ⟨(h.low i).trans_lt h1, h2.trans_le (h.high i)⟩

theorem gap (h : Spans p e G v lo hi) (i : ℤ) : 0 < ccw v (gateB p e G i) - ccw v (gateA p e G i) := by
  have := h.low i; have := h.high i; have := h.lt; linarith

/-- The height of the point at which the line crosses an edge. -/
theorem height (h : Spans p e G v lo hi) (y : K) (i : ℤ) : ccw v (Strip.hit p e G v y i) = y := by
  have hd := (h.gap i).ne'
  have e1 : ccw v (Strip.hit p e G v y i) = ccw v (gateA p e G i) + Strip.ratio p e G v y i * (ccw v (gateB p e G i) - ccw v (gateA p e G i)) := by
    unfold Strip.hit ccw
    simp only [Prod.fst_sub, Prod.snd_sub, Prod.fst_add, Prod.snd_add, Prod.smul_fst, Prod.smul_snd, smul_eq_mul]
    ring
  rw [e1]
  unfold Strip.ratio
  rw [div_mul_cancel₀ _ hd]
  ring

/-- The crossing moves along the edge at constant speed. -/
theorem hit_between (h : Spans p e G v lo hi) (t : K) (i : ℤ) :
    Strip.hit p e G v (lo + t * (hi - lo)) i = Strip.hit p e G v lo i + t • (Strip.hit p e G v hi i - Strip.hit p e G v lo i) := by
  have hd := (h.gap i).ne'
  have e1 : Strip.ratio p e G v (lo + t * (hi - lo)) i = Strip.ratio p e G v lo i + t * (Strip.ratio p e G v hi i - Strip.ratio p e G v lo i) := by
    unfold Strip.ratio
    generalize ccw v (gateB p e G i) - ccw v (gateA p e G i) = d at hd
    field_simp
    ring
  unfold Strip.hit
  rw [e1]
  module

/-- How far it is from one edge to the next on the two sides. -/
theorem steps (hB : S.Bordered valid) (h : S.Strip valid l p e e' g G) (hs : Spans p e G v lo hi) (i : ℤ) :
    ∃ τ σ : K, 0 ≤ τ ∧ 0 ≤ σ ∧ 0 < τ + σ ∧ Strip.hit p e G v lo (i + 1) = Strip.hit p e G v lo i + τ • v ∧
      Strip.hit p e G v hi (i + 1) = Strip.hit p e G v hi i + σ • v := by
  have hlt := hs.lt
  obtain ⟨τ, τ0, h1, -⟩ := h.exists_step (hs.wide le_rfl hlt) i
  have m1 : lo < lo + 1 / 2 * (hi - lo) := by linarith
  have m2 : lo + 1 / 2 * (hi - lo) < hi := by linarith
  have hw := hs.wide m1.le m2
  obtain ⟨μ, hch, h2⟩ := h.seg_chord hB hw (i := i) (.inl ((hs.low i).trans_lt m1))
  have μ0 := hch.pos
  rw [hs.hit_between, hs.hit_between, h1] at h2
  have h3 : Strip.hit p e G v hi (i + 1) = Strip.hit p e G v hi i + (2 * μ - τ) • v := by
    have e2 : Strip.hit p e G v hi (i + 1) - Strip.hit p e G v hi i - (2 * μ - τ) • v = (2 : K) •
      ((Strip.hit p e G v lo i + τ • v + (1 / 2 : K) • (Strip.hit p e G v hi (i + 1) - (Strip.hit p e G v lo i + τ • v))) -
        (Strip.hit p e G v lo i + (1 / 2 : K) • (Strip.hit p e G v hi i - Strip.hit p e G v lo i) + μ • v)) := by module
    rw [h2, sub_self, smul_zero] at e2
    rw [sub_eq_zero] at e2
    rw [← e2]; abel
  refine ⟨τ, 2 * μ - τ, τ0, ?_, by linarith, h1, h3⟩
  by_contra hn
  push Not at hn
  generalize hσ : 2 * μ - τ = σ at *
  -- a line on which the crossings would be in the wrong order
  have hd : 0 < τ - σ := by linarith
  obtain ⟨t, ht⟩ : ∃ t : K, t = (τ - σ / 2) / (τ - σ) := ⟨_, rfl⟩
  have ht1 : t < 1 := by rw [ht, div_lt_one hd]; linarith
  have ht0 : 0 ≤ t := by rw [ht]; exact div_nonneg (by linarith) hd.le
  have hv : τ + t * (σ - τ) = σ / 2 := by
    have : t * (τ - σ) = τ - σ / 2 := by rw [ht, div_mul_cancel₀ _ hd.ne']
    linarith
  have hw' := hs.wide (y := lo + t * (hi - lo)) (by nlinarith) (by nlinarith)
  obtain ⟨ρ, ρ0, h4, -⟩ := h.exists_step hw' i
  rw [hs.hit_between, hs.hit_between, h1, h3] at h4
  have h5 : (σ / 2 - ρ) • v = 0 := by
    rw [← hv]
    rw [← sub_eq_zero] at h4
    rw [← h4]
    module
  rcases smul_eq_zero.1 h5 with h6 | h6
  · linarith
  · exact Strip.v_ne hw h6

theorem back_line {H : Similarity K} (hs : H.sign = 1) (v x : Vec K) (τ : K) : H.inv.call (x + τ • v) = H.inv.call x + τ • H.inv.derivative.mulVec v := by
  have hs' : H.inv.sign = 1 := hs
  have := Similarity.call_add hs' x (τ • v)
  rw [sub_eq_iff_eq_add'] at this
  rw [this]
  congr 1
  unfold Mat2.mulVec
  ext <;> simp <;> ring

theorem back_between {H : Similarity K} (hs : H.sign = 1) (x z : Vec K) (t : K) : H.inv.call (x + t • (z - x)) = H.inv.call x + t • (H.inv.call z - H.inv.call x) := by
  rw [back_line hs, inv_deriv_sub hs]

/-- The part of a polygon that is in the cylinder. -/
def part (p : ℤ → Poly K) (e : ℤ → ℕ) (G : ℤ → Similarity K) (v : Vec K) (lo hi : K) (i : ℤ) : Poly K :=
  cutPoly ((G (i + 1)).inv.call (Strip.hit p e G v hi i)) ((G (i + 1)).inv.call (Strip.hit p e G v lo i))
    ((G (i + 1)).inv.call (Strip.hit p e G v lo (i + 1))) ((G (i + 1)).inv.call (Strip.hit p e G v hi (i + 1)))

theorem part_spec (hB : S.Bordered valid) (h : S.Strip valid l p e e' g G) (hs : Spans p e G v lo hi) (i : ℤ) :
    (part p e G v lo hi i).Valid ∧
    (∀ τ σ : K, Strip.hit p e G v lo (i + 1) = Strip.hit p e G v lo i + τ • v → Strip.hit p e G v hi (i + 1) = Strip.hit p e G v hi i + σ • v →
      2 * ((G (i + 1)).a * (G (i + 1)).a + (G (i + 1)).b * (G (i + 1)).b) * (part p e G v lo hi i).area = (τ + σ) * (hi - lo)) ∧
    ∀ X, (part p e G v lo hi i).pointPosition X = .interior ↔ ∃ y s : K, lo < y ∧ y < hi ∧ 0 < s ∧ s < 1 ∧
      X = (Strip.seg l p e G v y i).start.point + s • ((Strip.seg l p e G v y i).stop.point - (Strip.seg l p e G v y i).start.point) := by
  obtain ⟨τ, σ, τ0, σ0, hpos, h1, h2⟩ := steps hB h hs i
  have hlt := hs.lt
  have hsg := h.sign (i + 1)
  have hc : 0 < ccw (Strip.dir G v (i + 1)) ((G (i + 1)).inv.call (Strip.hit p e G v hi i) - (G (i + 1)).inv.call (Strip.hit p e G v lo i)) ∧
      ((G (i + 1)).a * (G (i + 1)).a + (G (i + 1)).b * (G (i + 1)).b) *
        ccw (Strip.dir G v (i + 1)) ((G (i + 1)).inv.call (Strip.hit p e G v hi i) - (G (i + 1)).inv.call (Strip.hit p e G v lo i)) = hi - lo := by
    have e1 : ∀ x, (G (i + 1)).call ((G (i + 1)).inv.call x) = x := by
      intro x
      have := inv_call (Similarity.C01_inv_wf _ (h.wf (i + 1))) (hsg : (G (i + 1)).inv.sign = 1) (v := x) rfl
      rwa [inv_inv_call (h.wf _)] at this
    have e2 := h.ccw_dir v ((G (i + 1)).inv.call (Strip.hit p e G v hi i)) ((G (i + 1)).inv.call (Strip.hit p e G v lo i)) (i + 1)
    rw [e1, e1, hs.height, hs.height] at e2
    refine ⟨?_, e2⟩
    refine (pos_iff_pos_of_mul_pos (a := (G (i + 1)).a * (G (i + 1)).a + (G (i + 1)).b * (G (i + 1)).b) ?_).1 (h.scale_pos _)
    rw [e2]; linarith
  have e3 : (G (i + 1)).inv.call (Strip.hit p e G v lo (i + 1)) = (G (i + 1)).inv.call (Strip.hit p e G v lo i) + τ • Strip.dir G v (i + 1) := by
    rw [h1, back_line hsg]; rfl
  have e4 : (G (i + 1)).inv.call (Strip.hit p e G v hi (i + 1)) = (G (i + 1)).inv.call (Strip.hit p e G v hi i) + σ • Strip.dir G v (i + 1) := by
    rw [h2, back_line hsg]; rfl
  obtain ⟨k1, k2, k3⟩ := cutPoly_spec hc.1 τ0 σ0 hpos
  have hvne : v ≠ 0 := Strip.v_ne (hs.wide le_rfl hlt)
  have uniq : ∀ {x : Vec K} {a b : K}, x + a • v = x + b • v → a = b := by
    intro x a b hab
    have : (a - b) • v = 0 := by rw [sub_smul, sub_eq_zero]; exact add_left_cancel hab
    exact sub_eq_zero.1 ((smul_eq_zero.1 this).resolve_right hvne)
  unfold part
  rw [e3, e4]
  refine ⟨k1, ?_, fun X => ?_⟩
  · intro τ' σ' h1' h2'
    obtain rfl := uniq (h1.symm.trans h1')
    obtain rfl := uniq (h2.symm.trans h2')
    linear_combination ((G (i + 1)).a * (G (i + 1)).a + (G (i + 1)).b * (G (i + 1)).b) * k2 + (τ + σ) * hc.2
  · rw [k3 X, ← e3, ← e4]
    have hseg : ∀ t : K, (Strip.seg l p e G v (lo + t * (hi - lo)) i).start.point = (G (i + 1)).inv.call (Strip.hit p e G v lo i) +
        t • ((G (i + 1)).inv.call (Strip.hit p e G v hi i) - (G (i + 1)).inv.call (Strip.hit p e G v lo i)) ∧
        (Strip.seg l p e G v (lo + t * (hi - lo)) i).stop.point = (G (i + 1)).inv.call (Strip.hit p e G v lo (i + 1)) +
        t • ((G (i + 1)).inv.call (Strip.hit p e G v hi (i + 1)) - (G (i + 1)).inv.call (Strip.hit p e G v lo (i + 1))) := by
      intro t
      unfold Strip.seg
      dsimp only
      rw [hs.hit_between, hs.hit_between, back_between hsg, back_between hsg]
      exact ⟨rfl, rfl⟩
    have hd : 0 < hi - lo := by linarith
    constructor
    · rintro ⟨t, s, t0, t1, s0, s1, hX⟩
      refine ⟨lo + t * (hi - lo), s, by nlinarith, by nlinarith, s0, s1, ?_⟩
      rw [(hseg t).1, (hseg t).2]
      exact hX
    · rintro ⟨y, s, y0, y1, s0, s1, hX⟩
      have hy : y = lo + (y - lo) / (hi - lo) * (hi - lo) := by rw [div_mul_cancel₀ _ hd.ne']; ring
      refine ⟨(y - lo) / (hi - lo), s, div_pos (by linarith) hd, by rw [div_lt_one hd]; linarith, s0, s1, ?_⟩
      rw [hy, (hseg _).1, (hseg _).2] at hX
      exact hX

/-- Where the code cuts an edge. -/
theorem gatePoint_eq (h : Spans p e G v lo hi) (x : Vec K) (i : ℤ) :
    gatePoint v (gateA p e G i, gateB p e G i) x = .ok (Strip.hit p e G v (ccw v x) i) := by
  have hd := h.gap i
  have e1 : -v.1 * (gateB p e G i - gateA p e G i).2 + v.2 * (gateB p e G i - gateA p e G i).1 = -(ccw v (gateB p e G i) - ccw v (gateA p e G i)) := by
    unfold ccw; simp only [Prod.fst_sub, Prod.snd_sub]; ring
  have hne : -(ccw v (gateB p e G i) - ccw v (gateA p e G i)) ≠ 0 := neg_ne_zero.2 hd.ne'
  unfold gatePoint solve
  dsimp only
  rw [e1, if_neg hne]
  dsimp only
  have e2 : v.2 * (x.1 - (gateA p e G i).1) + v.1 * ((gateA p e G i).2 - x.2) = -(ccw v x - ccw v (gateA p e G i)) := by
    unfold ccw; ring
  rw [e2, neg_div_neg_eq]
  rfl

end Spans
end RSurf
end Flat
