import Verif.Lemmas.StripLoop

/-!
# Closed straight lines in strips that close up
-/

namespace Flat
variable {L K : Type} [Field K] [LinearOrder K] [IsStrictOrderedRing K]

namespace RSurf
open Poly
variable {S : RSurf L K} {valid : L → Prop}

/-- A closed straight line on the surface that starts in the polygon `l` and leaves the polygons through the edges `es`; unfolded into the plane
it comes back translated by `v`. -/
structure IsCore (S : RSurf L K) (valid : L → Prop) (ss : List (Seg L K)) (l : L) (es : List ℕ) (v : Vec K) (first : Seg L K) : Prop where
  head : ss.head? = some first
  label : first.start.label = l
  chord : ∀ s ∈ ss, ∃ p τ, S.IsChord valid s p τ
  chain : (ss ++ [first]).IsChain S.Follows
  crosses : List.Forall₂ (fun s e => s.stop.position = .edgeInterior e) ss es
  develops : S.Develops (ss ++ [first]) (.ofVec v)

/-- Lines through the edges of polygons that are unfolded into the plane. -/
theorem unfold_line (hS : S.Closed valid) {t : Seg L K} {es : List ℕ} {ss : List (Seg L K)} (hcr : List.Forall₂ (fun s e => s.stop.position = .edgeInterior e) ss es) :
    ∀ {first : Seg L K} {D G : Similarity K}, (ss ++ [t]).head? = some first → valid t.start.label → (∀ s ∈ ss, ∃ p τ, S.IsChord valid s p τ) →
      (ss ++ [t]).IsChain S.Follows → S.Develops (ss ++ [t]) D → G.WF → G.sign = 1 →
      ∃ xs, S.Unfolds valid first.start.label G es xs ∧ xs.getLast? = some (t.start.label, G.mul D) ∧
        (∃ T : K, 0 ≤ T ∧ (ss ≠ [] → 0 < T) ∧ (G.mul D).call t.start.point = G.call first.start.point + T • G.derivative.mulVec first.start.vector) ∧
        ∀ (r : ℕ) (hr : r < es.length) (hs : r < ss.length) (hx : r < xs.length), ∃ p, S.polygon xs[r].1 = .ok p ∧ ss[r].start.label = xs[r].1 ∧
          (∃ T T' : K, xs[r].2.call ss[r].stop.point = G.call first.start.point + T • G.derivative.mulVec first.start.vector ∧
            xs[r].2.call ss[r].start.point = G.call first.start.point + T' • G.derivative.mulVec first.start.vector) ∧
          ss[r].stop.point ∈ p.openSide es[r] ∧ 0 < ccw (G.derivative.mulVec first.start.vector) (xs[r].2.derivative.mulVec (p.edge es[r])) := by
  have hB := hS.bordered
  induction hcr with
  | nil =>
    intro first D G h1 hv hch hf hD hG hs
    rw [List.nil_append, List.head?_cons] at h1
    injection h1 with h1; subst h1
    cases hD with
    | single =>
      refine ⟨[(t.start.label, G)], .nil hv, by rw [Similarity.C01_mul_one]; rfl, ⟨0, le_rfl, fun h => absurd rfl h, by simp [Similarity.C01_mul_one]⟩, ?_⟩
      intro r hr
      cases hr
  | @cons s e ss es he hcr ih =>
    intro first D G h1 hv hch hf hD hG hs
    rw [List.cons_append, List.head?_cons] at h1
    injection h1 with h1; subst h1
    obtain ⟨s', rest, hrest⟩ : ∃ s' rest, ss ++ [t] = s' :: rest := by
      cases ss with
      | nil => exact ⟨_, _, rfl⟩
      | cons a b => exact ⟨_, _, rfl⟩
    rw [List.cons_append, hrest] at hf hD
    rw [List.isChain_cons_cons] at hf
    obtain ⟨p, τ, hc⟩ := hch s (by simp)
    cases hD with
    | @cons _ _ _ e1 e1' g D' hpos hpos' hg hD' =>
      rw [he] at hpos; injection hpos with hpos; subst hpos
      obtain ⟨e2, e2', g2, k1, k2, k3, k4, k5⟩ := follows_glue hS hc hf.1
      rw [he] at k1; injection k1 with k1; subst k1
      obtain ⟨-, -, hgg⟩ := glueTo_ext hB (by rw [hc.label]; exact hc.valid) hg k3
      rw [hgg] at k4 k5
      have hgi : g.inv.sign = 1 := hg.sign
      have hgw := Similarity.C01_inv_wf _ hg.wf
      obtain ⟨xs, m1, m2, ⟨T, T0, -, hT⟩, m4⟩ := ih (first := s') (G := G.mul g.inv) (D := D') (by rw [hrest]; rfl) hv (fun x hx => hch x (by simp [hx])) (by rw [hrest]; exact hf.2)
        (by rw [hrest]; exact hD') (Similarity.C01_mul_wf _ _ hG hgw) (mul_sign hs hgi)
      have a1 : (G.mul g.inv).call s'.start.point = G.call s.stop.point := by
        rw [k4, mul_call hs hgi, inv_call hg.wf hg.sign rfl]
      have a2 : (G.mul g.inv).derivative.mulVec s'.start.vector = G.derivative.mulVec s.start.vector := by
        rw [k5, mul_deriv hs hgi, (inv_deriv hg.wf hg.sign _).1]
      have a3 : G.call s.stop.point = G.call s.start.point + τ • G.derivative.mulVec s.start.vector := by
        rw [hc.stop]
        have := Similarity.call_add hs s.start.point (τ • s.start.vector)
        rw [sub_eq_iff_eq_add'] at this
        rw [this]
        congr 1
        unfold Mat2.mulVec
        ext <;> simp <;> ring
      rw [a1, a2, a3] at m4 hT
      have hsl : valid s.start.label := hc.valid
      rw [hc.label] at hg
      refine ⟨(s.start.label, G) :: xs, .cons hsl hg m1, ?_, ⟨τ + T, add_nonneg hc.pos.le T0, fun _ => add_pos_of_pos_of_nonneg hc.pos T0, ?_⟩, ?_⟩
      · obtain ⟨y, hy⟩ := m1.head
        rw [hy] at m2 ⊢
        rw [List.getLast?_cons_cons, m2, Similarity.C01_mul_assoc _ _ _ hG hgw]
      · rw [← Similarity.C01_mul_assoc _ _ _ hG hgw, hT, add_smul, add_assoc]
      · intro r hr hs' hx
        cases r with
        | zero =>
          refine ⟨p, hc.polygon, rfl, ⟨τ, 0, a3, by simp⟩, ?_, ?_⟩
          · have hval := hB.valid_of_polygon hc.valid hc.polygon
            have := hc.position'
            rw [he] at this
            exact ((C12_edge hval _ _).1 this.symm).2
          · show 0 < ccw (G.derivative.mulVec s.start.vector) (G.derivative.mulVec (p.edge e))
            rw [Similarity.ccw_derivative hs]
            refine mul_pos hG.normSq_pos ?_
            have hns : s.invert.start.singular = false := hf.1.1
            obtain ⟨e3, q, hq, -, hpos3, hc3, -⟩ := isSeg_start hB (isSeg_invert hB (.inl ⟨p, τ, hc⟩)) hns
            have hpos3 : s.stop.position = .edgeInterior e3 := hpos3
            rw [he] at hpos3; injection hpos3 with hpos3; subst hpos3
            have hq : S.polygon s.stop.label = .ok q := hq
            rw [hc.label, hc.polygon] at hq; injection hq with hq; subst hq
            have hc3 : 0 < ccw (p.edge e) s.stop.vector := hc3
            rw [hc.vector] at hc3
            unfold ccw at hc3 ⊢
            simp only [Prod.fst_neg, Prod.snd_neg] at hc3
            linarith
        | succ r =>
          simp only [List.length_cons] at hr hs' hx
          obtain ⟨q, n1, n2, ⟨T1, T2, n3, n4⟩, n5, n6⟩ := m4 r (by omega) (by omega) (by omega)
          exact ⟨q, n1, n2, ⟨τ + T1, τ + T2, by simpa [add_smul, add_assoc] using n3, by simpa [add_smul, add_assoc] using n4⟩, n5, n6⟩

namespace Loop
variable {n : ℕ} {v : Vec K} {l : ℤ → L} {p : ℤ → Poly K} {e e' : ℤ → ℕ} {g G : ℤ → Similarity K} {y : K}

theorem call_add (h : S.Loop valid n v l p e e' g G) (i : ℤ) (x : Vec K) : (G (i + n)).call x = (G i).call x + v := by
  rw [h.per_G, mul_call rfl (h.sign i), ofVec_call]

theorem inv_call_add (h : S.Loop valid n v l p e e' g G) (i : ℤ) (x : Vec K) : (G (i + n)).inv.call (x + v) = (G i).inv.call x := by
  apply inv_call (h.wf _) (h.sign _)
  have e1 : (G i).call ((G i).inv.call x) = x := by
    have := inv_call (Similarity.C01_inv_wf _ (h.wf i)) (h.sign i : (G i).inv.sign = 1) (v := x) rfl
    rwa [inv_inv_call (h.wf i)] at this
  rw [h.call_add, e1]

theorem gateA_add (h : S.Loop valid n v l p e e' g G) (i : ℤ) : gateA p e G (i + n) = gateA p e G i + v := by
  unfold gateA
  rw [h.per_p, h.per_e, h.call_add]

theorem gateB_add (h : S.Loop valid n v l p e e' g G) (i : ℤ) : gateB p e G (i + n) = gateB p e G i + v := by
  unfold gateB
  rw [h.per_p, h.per_e, h.call_add]

theorem ccw_add (x : Vec K) : ccw v (x + v) = ccw v x := by
  unfold ccw
  simp only [Prod.fst_add, Prod.snd_add]
  ring

theorem ccwA_add (h : S.Loop valid n v l p e e' g G) (i : ℤ) : ccw v (gateA p e G (i + n)) = ccw v (gateA p e G i) := by rw [h.gateA_add, ccw_add]

theorem ccwB_add (h : S.Loop valid n v l p e e' g G) (i : ℤ) : ccw v (gateB p e G (i + n)) = ccw v (gateB p e G i) := by rw [h.gateB_add, ccw_add]

theorem hit_add (h : S.Loop valid n v l p e e' g G) (y : K) (i : ℤ) : Strip.hit p e G v y (i + n) = Strip.hit p e G v y i + v := by
  unfold Strip.hit Strip.ratio
  rw [h.ccwA_add, h.ccwB_add, h.gateA_add, h.gateB_add, add_sub_add_right_eq_sub, add_right_comm]

theorem dir_add (h : S.Loop valid n v l p e e' g G) (w : Vec K) (i : ℤ) : Strip.dir G w (i + n) = Strip.dir G w i := by
  have h1 : ∀ x, (G (i + n)).derivative.mulVec x = (G i).derivative.mulVec x := by
    intro x
    rw [h.per_G, mul_deriv rfl (h.sign i), ofVec_deriv]
  apply deriv_inj (h.wf i) (h.sign i)
  unfold Strip.dir
  rw [← h1, (inv_deriv (h.wf _) (h.sign _) _).2, (inv_deriv (h.wf _) (h.sign _) _).2]

theorem seg_add (h : S.Loop valid n v l p e e' g G) (y : K) (i : ℤ) : Strip.seg l p e G v y (i + n) = Strip.seg l p e G v y i := by
  unfold Strip.seg
  rw [show i + (n : ℤ) + 1 = i + 1 + n by ring, h.per_l, h.per_p, h.hit_add, h.hit_add, h.inv_call_add, h.inv_call_add, h.dir_add]

/-- What holds for one round holds always. -/
theorem all_of_range (hn : 0 < n) {Q : ℤ → Prop} (hper : ∀ i, Q (i + n) ↔ Q i) (h : ∀ r : ℕ, r < n → Q r) (i : ℤ) : Q i := by
  have key : ∀ (q : ℕ) (i : ℤ), Q (i + n * q) ↔ Q i := by
    intro q
    induction q with
    | zero => intro i; simp
    | succ q ih =>
      intro i
      rw [← ih i, ← hper (i + n * q)]
      push_cast
      rw [show i + (n : ℤ) * (q + 1) = i + n * q + n by ring]
  have h3 := Int.mul_ediv_add_emod i n
  have h1 := Int.emod_lt_of_pos i (b := n) (by omega)
  have h2 := Int.emod_nonneg i (b := n) (by omega)
  have h4 : Q (i % n) := by
    have := h (i % n).toNat (by omega)
    rwa [Int.toNat_of_nonneg h2] at this
  rcases Int.eq_nat_or_neg (i / n) with ⟨q, hq | hq⟩
  · rw [← h3, hq, add_comm]
    exact (key q _).2 h4
  · have : i % n = i + n * q := by rw [hq] at h3; linarith
    rw [this] at h4
    exact (key q _).1 h4

/-- The line at this height runs between the ends of all the edges. -/
def Open (p : ℤ → Poly K) (e : ℤ → ℕ) (G : ℤ → Similarity K) (v : Vec K) (y : K) : Prop :=
  ∀ i, ccw v (gateA p e G i) < y ∧ y < ccw v (gateB p e G i)

theorem Open.wide (h : Open p e G v y) : Strip.Wide p e G v y := fun i => ⟨(h i).1.le, (h i).2⟩

theorem open_of_range (h : S.Loop valid n v l p e e' g G) (hn : 0 < n) (hr : ∀ r : ℕ, r < n → ccw v (gateA p e G r) < y ∧ y < ccw v (gateB p e G r)) :
    Open p e G v y :=
  all_of_range hn (fun i => by rw [h.ccwA_add, h.ccwB_add]) hr

theorem segs_append (l : ℤ → L) (p : ℤ → Poly K) (e : ℤ → ℕ) (G : ℤ → Similarity K) (v : Vec K) (y : K) (n : ℕ) : ∀ i : ℤ,
    Strip.segs l p e G v y i (n + 1) = Strip.segs l p e G v y i n ++ [Strip.seg l p e G v y (i + n + 1)] := by
  induction n with
  | zero => intro i; simp [Strip.segs]
  | succ n ih =>
    intro i
    rw [Strip.segs, ih (i + 1), Strip.segs, List.cons_append]
    push_cast
    rw [show i + 1 + (n : ℤ) + 1 = i + (n + 1) + 1 by ring]

theorem segs_get (l : ℤ → L) (p : ℤ → Poly K) (e : ℤ → ℕ) (G : ℤ → Similarity K) (v : Vec K) (y : K) (n : ℕ) :
    ∀ (i : ℤ) (r : ℕ) (hr : r < (Strip.segs l p e G v y i n).length), (Strip.segs l p e G v y i n)[r] = Strip.seg l p e G v y (i + r) := by
  induction n with
  | zero =>
    intro i r hr
    simp only [Strip.segs, List.length_singleton] at hr
    have : r = 0 := by omega
    subst this
    simp [Strip.segs]
  | succ n ih =>
    intro i r hr
    cases r with
    | zero => simp [Strip.segs]
    | succ r =>
      simp only [Strip.segs, List.length_cons] at hr
      simp only [Strip.segs, List.getElem_cons_succ]
      rw [ih (i + 1) r (by omega)]
      push_cast
      ring_nf

/-- The line at a height between the ends of all edges is closed. -/
theorem core_of_open (hS : S.Closed valid) (h : S.Loop valid (n + 1) v l p e e' g G) (h0 : G 0 = .one) (hy : Open p e G v y) {es : List ℕ} (hlen : es.length = n + 1)
    (hes : ∀ r : ℕ, ∀ hr : r < es.length, e r = es[r]) :
    S.IsCore valid (Strip.segs l p e G v y (-1) n) (l 0) es v (Strip.seg l p e G v y (-1)) := by
  have hB := hS.bordered
  have hw := hy.wide
  obtain ⟨r, hr⟩ := Strip.segs_cons l p e G v y (-1) n
  have happ := segs_append l p e G v y n (-1)
  have hlast : Strip.seg l p e G v y (-1 + n + 1) = Strip.seg l p e G v y (-1) := by
    have := h.seg_add y (-1)
    push_cast at this
    rw [← this]
    ring_nf
  rw [hlast] at happ
  obtain ⟨c1, c2⟩ := h.toStrip.segs_chain hS hw (n + 1) (-1) (fun m _ _ => (hy _).1)
  rw [happ] at c1 c2
  refine ⟨by rw [hr]; rfl, rfl, ?_, c1, ?_, ?_⟩
  · intro s hs
    obtain ⟨m, -, rfl⟩ := (Strip.segs_mem n _ s).1 hs
    obtain ⟨τ, hτ, -⟩ := h.toStrip.seg_chord hB hw (i := -1 + (m : ℤ)) (.inl (hy _).1)
    exact ⟨_, τ, hτ⟩
  · have hl : (Strip.segs l p e G v y (-1) n).length = es.length := by rw [Strip.segs_length, hlen]
    refine List.forall₂_iff_get.2 ⟨hl, fun i h1 h2 => ?_⟩
    rw [List.get_eq_getElem, List.get_eq_getElem, segs_get, h.toStrip.seg_stop hB hw (hy _).1]
    rw [show (-1 : ℤ) + i + 1 = i by ring, hes i h2]
  · rw [show (-1 : ℤ) + 1 = 0 by ring, h0, show (-1 : ℤ) + ((n + 1 : ℕ) : ℤ) + 1 = 0 + ((n + 1 : ℕ) : ℤ) by ring, h.per_G, h0, Similarity.C01_mul_one] at c2
    have : (Similarity.one : Similarity K).inv = .one := by
      have h1 := Similarity.C01_mul_inv (Similarity.one : Similarity K) one_wf
      rwa [Similarity.C01_one_mul] at h1
    rwa [this, Similarity.C01_one_mul] at c2

theorem vec_eq_of_line {a b x v : Vec K} {t : K} (ht : 0 ≤ t) (hd : ccw v (b - a) ≠ 0) (hx : x = a + t • (b - a)) :
    x = a + ((ccw v x - ccw v a) / (ccw v b - ccw v a)) • (b - a) := by
  have h1 : ccw v b - ccw v a = ccw v (b - a) := by unfold ccw; simp only [Prod.fst_sub, Prod.snd_sub]; ring
  have h2 : ccw v x - ccw v a = t * ccw v (b - a) := by
    rw [hx]; unfold ccw; simp only [Prod.fst_sub, Prod.snd_sub, Prod.fst_add, Prod.snd_add, Prod.smul_fst, Prod.smul_snd, smul_eq_mul]; ring
  rw [h1, h2, mul_div_assoc, div_self hd, mul_one]
  exact hx

end Loop

/-- The polygons that a closed straight line crosses. -/
theorem IsCore.unfolds (hS : S.Closed valid) {ss : List (Seg L K)} {l0 : L} {es : List ℕ} {v : Vec K} {first : Seg L K} (h : S.IsCore valid ss l0 es v first) :
    es ≠ [] ∧ ∃ xs, S.Unfolds valid l0 .one es xs ∧ xs.getLast? = some (l0, .ofVec v) ∧ (∃ T : K, 0 < T ∧ v = T • first.start.vector) ∧
      ∀ (r : ℕ) (hr : r < es.length) (hs : r < ss.length) (hx : r < xs.length), ∃ p, S.polygon xs[r].1 = .ok p ∧ ss[r].start.label = xs[r].1 ∧
          (∃ T T' : K, xs[r].2.call ss[r].stop.point = first.start.point + T • v ∧ xs[r].2.call ss[r].start.point = first.start.point + T' • v) ∧
          ss[r].stop.point ∈ p.openSide es[r] ∧ 0 < ccw v (xs[r].2.derivative.mulVec (p.edge es[r])) := by
  have hB := hS.bordered
  have hne : ss ≠ [] := by rintro rfl; have := h.head; simp at this
  have hfm : first ∈ ss := List.mem_of_head? h.head
  obtain ⟨q, τ, hq⟩ := h.chord _ hfm
  refine ⟨by rintro rfl; cases h.crosses; exact hne rfl, ?_⟩
  obtain ⟨xs, h1, h2, ⟨T, -, T0, h3⟩, h4⟩ := unfold_line hS h.crosses (first := first) (G := .one) (D := .ofVec v) (t := first) (by
      rw [List.head?_append, h.head]; rfl) hq.valid h.chord h.chain h.develops one_wf rfl
  rw [h.label] at h1 h2
  rw [Similarity.C01_one_mul] at h2 h3
  have o1 : ∀ x : Vec K, (Similarity.one : Similarity K).call x = x := by intro x; unfold Similarity.one Similarity.call; ext <;> simp
  have o2 : ∀ x : Vec K, (Similarity.one : Similarity K).derivative.mulVec x = x := by
    intro x; unfold Similarity.derivative Mat2.mulVec Similarity.one; ext <;> simp
  simp only [o1, o2] at h3 h4
  have T0 := T0 hne
  have hv : v = T • first.start.vector := by
    rw [ofVec_call] at h3
    exact add_left_cancel h3
  have hu : first.start.vector = T⁻¹ • v := by rw [hv, smul_smul, inv_mul_cancel₀ T0.ne', one_smul]
  refine ⟨xs, h1, h2, ⟨T, T0, hv⟩, fun r hr hs hx => ?_⟩
  obtain ⟨p, k1, k2, ⟨T1, T2, k3, k4⟩, k5, k6⟩ := h4 r hr hs hx
  refine ⟨p, k1, k2, ⟨T1 * T⁻¹, T2 * T⁻¹, by rw [k3, hu, smul_smul], by rw [k4, hu, smul_smul]⟩, k5, ?_⟩
  rw [hv, ccw_smul_left]
  exact mul_pos T0 k6

/-- A closed straight line through the edges of a strip is the line at some height. -/
theorem IsCore.in_loop (hS : S.Closed valid) {n : ℕ} {v : Vec K} {l : ℤ → L} {p : ℤ → Poly K} {e e' : ℤ → ℕ} {g G : ℤ → Similarity K}
    (hL : S.Loop valid (n + 1) v l p e e' g G) {ss : List (Seg L K)} {l0 : L} {es : List ℕ} {first : Seg L K} (h : S.IsCore valid ss l0 es v first)
    (hlen : es.length = n + 1) {xs : List (L × Similarity K)} (hU : S.Unfolds valid l0 .one es xs)
    (hes : ∀ r : ℕ, ∀ hr : r < es.length, e r = es[r]) (hxs : ∀ r : ℕ, ∀ hr : r < xs.length, (l r, G r) = xs[r]) :
    Loop.Open p e G v (ccw v first.start.point) ∧ ∀ (r : ℕ) (hr : r < ss.length),
      ss[r].start.label = l r ∧ ss[r].start.point = (Strip.seg l p e G v (ccw v first.start.point) (r - 1)).start.point ∧
      ss[r].stop.point = (Strip.seg l p e G v (ccw v first.start.point) (r - 1)).stop.point := by
  have hB := hS.bordered
  obtain ⟨-, ys, h1, h2, ⟨T, T0, hv⟩, h3⟩ := h.unfolds hS
  have hxy : xs = ys := by
    have a := hU.labels hS
    rw [h1.labels hS] at a
    injection a with a
    exact a.symm
  subst hxy
  have hxl := hU.length
  have hsl : ss.length = es.length := h.crosses.length_eq
  have hG : ∀ r : ℕ, ∀ hr : r < xs.length, l r = xs[r].1 ∧ G r = xs[r].2 := fun r hr => by rw [← hxs r hr]; exact ⟨rfl, rfl⟩
  have key : ∀ (r : ℕ) (hr : r < es.length) (hs : r < ss.length), ccw v (gateA p e G r) < ccw v first.start.point ∧ ccw v first.start.point < ccw v (gateB p e G r) ∧
      (G r).call ss[r].stop.point = Strip.hit p e G v (ccw v first.start.point) r ∧ ss[r].start.label = l r := by
    intro r hr hs
    obtain ⟨q, k1, k2, ⟨T1, T2, k3, k4⟩, k5, k6⟩ := h3 r hr hs (by omega)
    obtain ⟨g1, g2⟩ := hG r (by omega)
    rw [← g1] at k1 k2
    rw [← g2] at k3 k4 k6
    rw [hL.polygon] at k1; injection k1 with k1; subst k1
    rw [← hes r hr] at k5 k6
    obtain ⟨t, t0, t1, ht⟩ := k5
    have e1 : (G r).call ss[r].stop.point = gateA p e G r + t • (gateB p e G r - gateA p e G r) := by
      rw [ht]
      unfold gateA gateB edge Similarity.call
      simp only [if_pos (hL.sign r)]
      ext <;> simp <;> ring
    have e2 : (G r).derivative.mulVec ((p r).edge (e r)) = gateB p e G r - gateA p e G r := by
      unfold gateA gateB edge
      rw [call_sub (hL.sign r)]
    have e3 : ccw v (first.start.point + T1 • v) = ccw v first.start.point := by
      unfold ccw; simp only [Prod.fst_add, Prod.snd_add, Prod.smul_fst, Prod.smul_snd, smul_eq_mul]; ring
    rw [e2] at k6
    have e4 : ccw v (gateB p e G r - gateA p e G r) = ccw v (gateB p e G r) - ccw v (gateA p e G r) := by
      unfold ccw; simp only [Prod.fst_sub, Prod.snd_sub]; ring
    have e5 : ccw v first.start.point = ccw v (gateA p e G r) + t * (ccw v (gateB p e G r) - ccw v (gateA p e G r)) := by
      rw [← e3, ← k3, e1]
      unfold ccw; simp only [Prod.fst_sub, Prod.snd_sub, Prod.fst_add, Prod.snd_add, Prod.smul_fst, Prod.smul_snd, smul_eq_mul]; ring
    have k7 := k6
    rw [e4] at k7
    refine ⟨by nlinarith, by nlinarith, ?_, k2⟩
    have := Loop.vec_eq_of_line t0.le k6.ne' e1
    rw [this, k3, e3]
    rfl
  refine ⟨hL.open_of_range (by omega) fun r hr => ?_, ?_⟩
  · obtain ⟨k1, k2, -⟩ := key r (by omega) (by omega)
    exact ⟨k1, k2⟩
  · set y := ccw v first.start.point with hy
    have hnext : ∀ (r : ℕ) (hr : r < ss.length), ((ss ++ [first])[r + 1]'(by simp; omega)).start.point = (G (r + 1)).inv.call (Strip.hit p e G v y r) := by
      intro r hr
      have hf := List.isChain_iff_getElem.1 h.chain r (by simp; omega)
      have hr1 : (ss ++ [first])[r]'(by simp; omega) = ss[r] := List.getElem_append_left hr
      rw [hr1] at hf
      obtain ⟨q, τ, hc⟩ := h.chord _ (List.getElem_mem hr)
      obtain ⟨e2, e2', g2, k1, k2, k3, k4, k5⟩ := follows_glue hS hc hf
      obtain ⟨-, -, k6, k7⟩ := key r (by omega) hr
      have hpos := (List.forall₂_iff_get.1 h.crosses).2 r hr (by omega)
      simp only [List.get_eq_getElem] at hpos
      rw [hpos] at k1; injection k1 with k1
      rw [hc.label, k7, ← k1, ← hes r (by omega)] at k3
      obtain ⟨-, -, k8⟩ := glueTo_ext hB (hL.valid r) (hL.glues r) k3
      rw [k4, k8, ← hL.inv_next, ← k6, inv_call (hL.wf r) (hL.sign r) rfl]
    intro r hr
    obtain ⟨-, -, k6, k7⟩ := key r (by omega) hr
    refine ⟨k7, ?_, ?_⟩
    · unfold Strip.seg
      dsimp only
      rw [sub_add_cancel]
      cases r with
      | zero =>
        have h0 := hnext n (by omega)
        have hl : (ss ++ [first])[n + 1]'(by simp; omega) = first := by
          rw [List.getElem_append_right (by omega)]
          simp
        rw [hl] at h0
        have hs0 : ss[0] = first := by
          have := h.head
          rw [List.head?_eq_getElem?, List.getElem?_eq_getElem hr] at this
          exact Option.some.inj this
        rw [hs0, h0]
        have h4 := hL.hit_add y (-1)
        have h5 := hL.inv_call_add 0 (Strip.hit p e G v y (-1))
        push_cast at h4 h5 ⊢
        rw [← h4] at h5
        simp only [zero_add, zero_sub, neg_add_cancel_comm_assoc, neg_add_cancel_left] at h5 ⊢
        rw [← h5]
      | succ r =>
        have h0 := hnext r (by omega)
        rw [List.getElem_append_left (by omega)] at h0
        rw [h0]
        push_cast
        rw [add_sub_cancel_right]
    · unfold Strip.seg
      dsimp only
      rw [sub_add_cancel, ← k6, inv_call (hL.wf r) (hL.sign r) rfl]

end RSurf
end Flat
