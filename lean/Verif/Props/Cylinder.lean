import Verif.Lemmas.CylinderEmbedded

/-!
# C69: cylinders

`IsCore` (Lemmas/StripCore.lean) describes a closed straight line on the surface: segments through the insides of polygons that follow each
other, the last of which is followed by the first.  It crosses the edges `es`, starting in the polygon `l`, and `v` is its holonomy.
-/

namespace Flat
variable {L K : Type} [Field K] [LinearOrder K] [IsStrictOrderedRing K]

namespace RSurf
open Poly
variable {S : RSurf L K} {valid : L → Prop}

omit [IsStrictOrderedRing K] in
theorem AllStrict.convex (h : S.AllStrict valid) : S.AllConvex valid := fun l p hl hp => (h l p hl hp).1

/-- The strip around a closed straight line. -/
theorem IsCore.strip (hS : S.Closed valid) (hc : S.AllConvex valid) {ss : List (Seg L K)} {l0 : L} {es : List ℕ} {v : Vec K} {first : Seg L K}
    (h : S.IsCore valid ss l0 es v first) :
    ∃ n l p e e' g G xs, es.length = n + 1 ∧ S.Unfolds valid l0 .one es xs ∧ xs.getLast? = some (l0, .ofVec v) ∧ S.Loop valid (n + 1) v l p e e' g G ∧
      (∀ r : ℕ, ∀ hr : r < es.length, e r = es[r]) ∧ (∀ r : ℕ, ∀ hr : r < xs.length, (l r, G r) = xs[r]) ∧ l 0 = l0 ∧ G 0 = .one := by
  obtain ⟨hes0, xs, hU, hx, -, -⟩ := h.unfolds hS
  obtain ⟨n, hn⟩ : ∃ n, es.length = n + 1 := ⟨es.length - 1, by have := List.length_pos_iff.2 hes0; omega⟩
  obtain ⟨l, p, e, e', g, G, hL, hes, hxs⟩ := exists_loop hS hc hU hes0 hx
  rw [hn] at hL
  obtain ⟨r, hr⟩ := hU.head
  have h0 := hxs 0 (by rw [hr]; simp)
  simp only [hr, List.getElem_cons_zero] at h0
  obtain ⟨h1, h2⟩ := Prod.mk.inj h0
  exact ⟨n, l, p, e, e', g, G, xs, hn, hU, hx, hL, hes, hxs, h1, h2⟩

/-- The closed straight lines through the same edges are the lines that cross all the edges of the strip. -/
theorem core_iff (hS : S.Closed valid) {n : ℕ} {l : ℤ → L} {p : ℤ → Poly K} {e e' : ℤ → ℕ} {g G : ℤ → Similarity K} {l0 : L} {es : List ℕ} {v : Vec K}
    {xs : List (L × Similarity K)} (hn : es.length = n + 1) (hU : S.Unfolds valid l0 .one es xs) (hL : S.Loop valid (n + 1) v l p e e' g G)
    (hes : ∀ r : ℕ, ∀ hr : r < es.length, e r = es[r]) (hxs : ∀ r : ℕ, ∀ hr : r < xs.length, (l r, G r) = xs[r]) (hl0 : l 0 = l0) (hG0 : G 0 = .one) (y : K) :
    (∃ ss first, S.IsCore valid ss l0 es v first ∧ ccw v first.start.point = y) ↔ Loop.Open p e G v y := by
  constructor
  · rintro ⟨ss, first, h, rfl⟩
    exact (h.in_loop hS hL hn hU hes hxs).1
  · intro hy
    refine ⟨_, _, hl0 ▸ Loop.core_of_open hS hL hG0 hy hn hes, ?_⟩
    have : (Strip.seg l p e G v y (-1)).start.point = Strip.hit p e G v y (-1) := by
      unfold Strip.seg
      dsimp only
      rw [show (-1 : ℤ) + 1 = 0 by ring]
      apply inv_call (hL.wf 0) (hL.sign 0)
      rw [hG0]
      simp [Similarity.one, Similarity.call]
    rw [this]
    exact Strip.hit_height hy.wide _

/-- What repeats is determined by the position. -/
theorem periodic_pos {α : Type} {n : ℕ} (hn : 0 < n) {f : ℤ → α} (hf : ∀ i, f (i + n) = f i) (i : ℤ) : f i = f (pos n i : ℕ) := by
  refine Loop.all_of_range hn (Q := fun i => f i = f (pos n i : ℕ)) (fun i => ?_) (fun r hr => ?_) i
  · rw [hf, pos_add]
  · rw [pos_of_lt hr]

theorem Spans.steps_le (hB : S.Bordered valid) {l : ℤ → L} {p : ℤ → Poly K} {e e' : ℤ → ℕ} {g G : ℤ → Similarity K} {v : Vec K} {lo hi : K}
    (h : S.Strip valid l p e e' g G) (hs : Spans p e G v lo hi) (m : ℕ) (i : ℤ) :
    ∃ τ σ : K, 0 ≤ τ ∧ 0 ≤ σ ∧ Strip.hit p e G v lo (i + m) = Strip.hit p e G v lo i + τ • v ∧ Strip.hit p e G v hi (i + m) = Strip.hit p e G v hi i + σ • v := by
  induction m with
  | zero => exact ⟨0, 0, le_rfl, le_rfl, by simp, by simp⟩
  | succ m ih =>
    obtain ⟨τ, σ, h1, h2, h3, h4⟩ := ih
    obtain ⟨τ', σ', k1, k2, -, k3, k4⟩ := Spans.steps hB h hs (i + m)
    refine ⟨τ + τ', σ + σ', by linarith, by linarith, ?_, ?_⟩
    · push_cast
      rw [← add_assoc, k3, h3, add_smul, add_assoc]
    · push_cast
      rw [← add_assoc, k4, h4, add_smul, add_assoc]

theorem cutPoly_mem (a b c d : Vec K) : a ∈ cutPoly a b c d ∧ b ∈ cutPoly a b c d ∧ c ∈ cutPoly a b c d ∧ d ∈ cutPoly a b c d := by
  unfold cutPoly
  refine ⟨by simp, by simp, ?_, ?_⟩
  · by_cases h : c = b
    · simp [h]
    · simp [h]
  · by_cases h : d = a
    · simp [h]
    · simp [h]

/-- A vector along the strip, compared with a segment of a closed line. -/
theorem along_seg (hB : S.Bordered valid) {l : ℤ → L} {p : ℤ → Poly K} {e e' : ℤ → ℕ} {g G : ℤ → Similarity K} {v : Vec K} {y : K}
    (h : S.Strip valid l p e e' g G) (hy : Loop.Open p e G v y) (i : ℤ) (T : K) :
    ∃ t : K, (0 < T → 0 < t) ∧ (T < 0 → t < 0) ∧ (G (i + 1)).inv.derivative.mulVec (T • v) =
      t • ((Strip.seg l p e G v y i).stop.point - (Strip.seg l p e G v y i).start.point) := by
  obtain ⟨τ, hch, -⟩ := h.seg_chord hB hy.wide (i := i) (.inl (hy i).1)
  refine ⟨T / τ, fun hT => div_pos hT hch.pos, fun hT => div_neg_of_neg_of_pos hT hch.pos, ?_⟩
  rw [hch.stop, add_sub_cancel_left, smul_smul, div_mul_cancel₀ _ hch.pos.ne']
  unfold Strip.seg Strip.dir Mat2.mulVec
  ext <;> simp <;> ring

omit [IsStrictOrderedRing K] in
/-- Segments of a closed line that start at different points, in the strip. -/
theorem core_distinct {l : ℤ → L} {p : ℤ → Poly K} {e : ℤ → ℕ} {G : ℤ → Similarity K} {v : Vec K} {ss : List (Seg L K)} {y : K} {n : ℕ} (hlen : ss.length = n)
    (hseg : ∀ (r : ℕ) (hr : r < ss.length), ss[r].start.label = l r ∧ ss[r].start.point = (Strip.seg l p e G v y (r - 1)).start.point ∧
      ss[r].stop.point = (Strip.seg l p e G v y (r - 1)).stop.point) (hd : (ss.map fun s => (s.start.label, s.start.point)).Nodup) :
    ∀ r r' : ℕ, r < n → r' < n → r ≠ r' → ((Strip.seg l p e G v y (r - 1)).start.label, (Strip.seg l p e G v y (r - 1)).start.point) ≠
      ((Strip.seg l p e G v y (r' - 1)).start.label, (Strip.seg l p e G v y (r' - 1)).start.point) := by
  intro r r' hr hr' hne heq
  obtain ⟨a1, a2, -⟩ := hseg r (by omega)
  obtain ⟨b1, b2, -⟩ := hseg r' (by omega)
  have c1 : (Strip.seg l p e G v y ((r : ℤ) - 1)).start.label = l r := by unfold Strip.seg; rw [sub_add_cancel]
  have c2 : (Strip.seg l p e G v y ((r' : ℤ) - 1)).start.label = l r' := by unfold Strip.seg; rw [sub_add_cancel]
  rw [c1, c2, ← a1, ← b1, ← a2, ← b2] at heq
  apply hne
  have := (List.nodup_iff_injective_getElem.1 hd) (a₁ := ⟨r, by rw [List.length_map]; omega⟩) (a₂ := ⟨r', by rw [List.length_map]; omega⟩) (by
    simpa using heq)
  exact congrArg Fin.val this

variable [DecidableEq L]

/-- **C69.** If a cylinder can be created from a label and a list of edges then there is a closed straight line that starts in the polygon with
this label and crosses these edges. -/
theorem C69_core (hS : S.Closed valid) (hE : S.EdgesOnly valid) (hc : S.AllConvex valid) {kinds : Kinds} {l0 : L} (hl : valid l0) {es : List ℕ} {c : Cyl L K}
    (hcyl : S.cylinder kinds l0 es = .ok c) : ∃ ss v first, S.IsCore valid ss l0 es v first := by
  obtain ⟨n, v, l, p, e, e', g, G, xs, y, hn, hU, hx, hL, hes, hxs, hy⟩ := cylinder_open hS hE hc hl hcyl
  obtain ⟨r, hr⟩ := hU.head
  have h0 := hxs 0 (by rw [hr]; simp)
  simp only [hr, List.getElem_cons_zero] at h0
  obtain ⟨h1, h2⟩ := Prod.mk.inj h0
  obtain ⟨ss, first, h, -⟩ := (core_iff hS hn hU hL hes hxs h1 h2 y).2 hy
  exact ⟨ss, v, first, h⟩

/-- **C69.** The cylinder around a closed straight line that crosses at most 1001 edges can be created.  On its right side are saddle
connections in the direction of the line, on its left side are saddle connections in the opposite direction; each of them starts at a vertex of
a polygon of the surface that is also a vertex of the part of this polygon that is in the cylinder. -/
theorem C69_constructor (hS : S.Closed valid) (hA : S.AllStrict valid) {kinds : Kinds} (hk : kinds.positive = true → S.PositiveDilation valid)
    {ss : List (Seg L K)} {l0 : L} {es : List ℕ} {v : Vec K} {first : Seg L K} (h : S.IsCore valid ss l0 es v first) (hlim : es.length ≤ 1001) :
    ∃ c, S.cylinder kinds l0 es = .ok c ∧ c.label0 = l0 ∧ c.edges = es ∧
      (∀ σ ∈ c.right, ∃ a u b w, S.IsSaddle valid a u b w ∧ σ = saddleOf a u b w ∧ ∃ (r : ℕ) (hr : r < ss.length) (hr' : r < c.polygons.length) (p : Poly K) (t : K),
        a.1 = ss[r].start.label ∧ S.polygon a.1 = .ok p ∧ p.vertex a.2 ∈ c.polygons[r].2 ∧ 0 < t ∧ u = t • (ss[r].stop.point - ss[r].start.point)) ∧
      (∀ σ ∈ c.left, ∃ a u b w, S.IsSaddle valid a u b w ∧ σ = saddleOf a u b w ∧ ∃ (r : ℕ) (hr : r < ss.length) (hr' : r < c.polygons.length) (p : Poly K) (t : K),
        a.1 = ss[r].start.label ∧ S.polygon a.1 = .ok p ∧ p.vertex a.2 ∈ c.polygons[r].2 ∧ t < 0 ∧ u = t • (ss[r].stop.point - ss[r].start.point)) := by
  obtain ⟨n, l, p, e, e', g, G, xs, hn, hU, hx, hL, hes, hxs, hl0, hG0⟩ := h.strip hS hA.convex
  obtain ⟨hy, hseg⟩ := h.in_loop hS hL hn hU hes hxs
  obtain ⟨lo, hi, σs, τs, j, k, h1, h2, h3, h4, h5⟩ := cylinder_spec hS hA hk hL hn hU hx hes hxs hy (by omega)
  have hB := hS.bordered
  have hlen : ss.length = n + 1 := by rw [h.crosses.length_eq, hn]
  have hn0 : 0 < n + 1 := Nat.succ_pos n
  -- the part of the polygon with the index `i`
  have hpart : ∀ i : ℤ, Spans.part p e G v lo hi (i - 1) = Spans.part p e G v lo hi ((pos (n + 1) i : ℕ) - 1) := by
    refine periodic_pos hn0 (f := fun i => Spans.part p e G v lo hi (i - 1)) fun i => ?_
    rw [show i + ((n + 1 : ℕ) : ℤ) - 1 = i - 1 + (n + 1 : ℕ) by ring]
    unfold Spans.part
    rw [show i - 1 + ((n + 1 : ℕ) : ℤ) + 1 = i - 1 + 1 + (n + 1 : ℕ) by ring, hL.hit_add, hL.hit_add, hL.hit_add, hL.hit_add, hL.inv_call_add, hL.inv_call_add,
      hL.inv_call_add, hL.inv_call_add]
  have hlab : ∀ i : ℤ, l i = l (pos (n + 1) i : ℕ) := periodic_pos hn0 hL.per_l
  have hsg : ∀ i : ℤ, Strip.seg l p e G v (ccw v first.start.point) (i - 1) = Strip.seg l p e G v (ccw v first.start.point) ((pos (n + 1) i : ℕ) - 1) := by
    refine periodic_pos hn0 (f := fun i => Strip.seg l p e G v (ccw v first.start.point) (i - 1)) fun i => ?_
    rw [show i + ((n + 1 : ℕ) : ℤ) - 1 = i - 1 + (n + 1 : ℕ) by ring, hL.seg_add]
  have hne0 : ∀ i, p i ≠ [] := by
    intro i h0
    have := (hL.valid_poly hB i).len3
    rw [h0] at this
    simp at this
  have hdelta : ∀ {i i' : ℤ}, i < i' → ∃ τ σ : K, 0 ≤ τ ∧ 0 ≤ σ ∧ Strip.hit p e G v lo i' = Strip.hit p e G v lo i + τ • v ∧
      Strip.hit p e G v hi i' = Strip.hit p e G v hi i + σ • v := by
    intro i i' hii
    have := Spans.steps_le hB hL.toStrip h2 (i' - i).toNat i
    rwa [show i + ((i' - i).toNat : ℤ) = i' by omega] at this
  have hitB : ∀ {i : ℤ}, ccw v (gateB p e G i) = hi → Strip.hit p e G v hi i = gateB p e G i := by
    intro i hi'
    have hgap := (h2.gap i).ne'
    unfold Strip.hit Strip.ratio
    rw [← hi', div_self hgap, one_smul]
    abel
  refine ⟨_, h1, rfl, rfl, ?_, ?_⟩
  · intro σ hσ
    obtain ⟨m, m', -, -, hon, hAne, b, w, hsad, rfl⟩ := h4.mem σ ((addSaddle_subset σs [] σ hσ).resolve_left (by simp))
    refine ⟨_, _, b, w, hsad, rfl, pos (n + 1) (m + 1), by rw [hlen]; exact pos_lt hn0 _, by rw [List.length_map, List.length_range]; exact pos_lt hn0 _, p (m + 1), ?_⟩
    obtain ⟨a1, a2, a3⟩ := hseg (pos (n + 1) (m + 1)) (by rw [hlen]; exact pos_lt hn0 _)
    have e1 : Strip.hit p e G v lo m = gateA p e G m := Strip.hit_start hon.left
    have e2 : Strip.hit p e G v lo m' = gateA p e G m' := Strip.hit_start hon.right
    obtain ⟨T, -, T0, -, hT, -⟩ := hdelta hon.lt
    rw [e1, e2] at hT
    have hT0 : 0 < T := by
      refine lt_of_le_of_ne T0 ?_
      rintro rfl
      rw [zero_smul, add_zero] at hT
      exact hAne hT.symm
    obtain ⟨t, t1, -, t3⟩ := along_seg hB hL.toStrip hy m T
    refine ⟨t, ?_, hL.polygon _, ?_, t1 hT0, ?_⟩
    · rw [a1, ← hlab]
    · rw [vertex_mod]
      simp only [List.getElem_map, List.getElem_range]
      rw [← hpart, add_sub_cancel_right]
      have : (p (m + 1)).vertex (e' m + 1) = (G (m + 1)).inv.call (Strip.hit p e G v lo m) := by
        rw [e1]
        exact (inv_call (hL.wf _) (hL.sign _) (hL.gateA_next m)).symm
      rw [this]
      exact (cutPoly_mem _ _ _ _).2.1
    · rw [a2, a3, ← hsg, add_sub_cancel_right, hT, add_sub_cancel_left]
      exact t3
  · intro σ hσ
    obtain ⟨m, m', -, -, hon, hAne, b, w, hsad, rfl⟩ := SideOf.mem h5 σ (List.mem_reverse.2 ((addSaddle_subset τs [] σ hσ).resolve_left (by simp)))
    refine ⟨_, _, b, w, hsad, rfl, pos (n + 1) (-(m + 1)), by rw [hlen]; exact pos_lt hn0 _, by rw [List.length_map, List.length_range]; exact pos_lt hn0 _,
      p (-(m + 1)), ?_⟩
    obtain ⟨a1, a2, a3⟩ := hseg (pos (n + 1) (-(m + 1))) (by rw [hlen]; exact pos_lt hn0 _)
    have l1 := hon.left
    have l2 := hon.right
    have hlt := hon.lt
    rw [gateA_reverse hL.toStrip, ccw_neg_left, neg_inj] at l1 l2
    rw [gateA_reverse hL.toStrip, gateA_reverse hL.toStrip] at hAne ⊢
    have e0 : ∀ m : ℤ, -(m + 1) = -m - 1 := fun m => by ring
    obtain ⟨-, T, -, T0, -, hT⟩ := hdelta (show -m' - 1 < -m - 1 by omega)
    rw [hitB l1, hitB l2] at hT
    have hT0 : 0 < T := by
      refine lt_of_le_of_ne T0 ?_
      rintro rfl
      rw [zero_smul, add_zero] at hT
      exact hAne hT
    obtain ⟨t, -, t2, t3⟩ := along_seg hB hL.toStrip hy (-m - 1 - 1) (-T)
    rw [sub_add_cancel] at t3
    refine ⟨t, ?_, hL.polygon _, ?_, t2 (by linarith), ?_⟩
    · rw [a1, ← hlab]
    · rw [vertex_mod]
      simp only [List.getElem_map, List.getElem_range]
      rw [← hpart, e0]
      have : (p (-m - 1)).vertex (e (-m - 1) + 1) = (G (-m - 1)).inv.call (Strip.hit p e G v hi (-m - 1)) := by
        rw [hitB l1]
        exact (inv_call (hL.wf _) (hL.sign _) rfl).symm
      rw [this]
      have := (cutPoly_mem ((G (-m - 1 - 1 + 1)).inv.call (Strip.hit p e G v hi (-m - 1 - 1))) ((G (-m - 1 - 1 + 1)).inv.call (Strip.hit p e G v lo (-m - 1 - 1)))
        ((G (-m - 1 - 1 + 1)).inv.call (Strip.hit p e G v lo (-m - 1 - 1 + 1))) ((G (-m - 1 - 1 + 1)).inv.call (Strip.hit p e G v hi (-m - 1 - 1 + 1)))).2.2.2
      unfold Spans.part
      rw [show -m - 1 - 1 + 1 = -m - 1 by ring] at this ⊢
      exact this
    · rw [a2, a3, ← hsg, e0, hT, ← t3]
      congr 1
      rw [neg_smul]
      abel

/-- **C69.** The polygons of a cylinder are the parts of the polygons of the surface through which the line runs; the interior of such a part
consists of the points on all the closed straight lines that cross the same edges. -/
theorem C69_polygons (hS : S.Closed valid) (hA : S.AllStrict valid) {kinds : Kinds} (hk : kinds.positive = true → S.PositiveDilation valid)
    {ss : List (Seg L K)} {l0 : L} {es : List ℕ} {v : Vec K} {first : Seg L K} (h : S.IsCore valid ss l0 es v first) (hlim : es.length ≤ 1001) {c : Cyl L K}
    (hc : S.cylinder kinds l0 es = .ok c) :
    c.polygons.map Prod.fst = ss.map (fun s => s.start.label) ∧ ∀ (r : ℕ) (hr : r < c.polygons.length), c.polygons[r].2.Valid ∧ ∀ X,
      c.polygons[r].2.pointPosition X = .interior ↔ ∃ (ss' : List (Seg L K)) (first' : Seg L K) (s : Seg L K) (t : K), S.IsCore valid ss' l0 es v first' ∧
        ss'[r]? = some s ∧ 0 < t ∧ t < 1 ∧ X = s.start.point + t • (s.stop.point - s.start.point) := by
  obtain ⟨n, l, p, e, e', g, G, xs, hn, hU, hx, hL, hes, hxs, hl0, hG0⟩ := h.strip hS hA.convex
  obtain ⟨hy, hseg⟩ := h.in_loop hS hL hn hU hes hxs
  obtain ⟨lo, hi, σs, τs, j, k, h1, h2, h3, h4, h5⟩ := cylinder_spec hS hA hk hL hn hU hx hes hxs hy (by omega)
  rw [h1] at hc
  injection hc with hc
  subst hc
  have hlen : ss.length = n + 1 := by rw [h.crosses.length_eq, hn]
  dsimp only
  refine ⟨?_, fun r hr => ?_⟩
  · apply List.ext_getElem
    · simp [hlen]
    · intro r hr hr'
      simp only [List.length_map] at hr'
      simp only [List.getElem_map, List.getElem_range]
      exact (hseg r hr').1.symm
  · rw [List.length_map, List.length_range] at hr
    simp only [List.getElem_map, List.getElem_range]
    obtain ⟨k1, -, k3⟩ := Spans.part_spec hS.bordered hL.toStrip h2 ((r : ℤ) - 1)
    refine ⟨k1, fun X => (k3 X).trans ?_⟩
    constructor
    · rintro ⟨y, t, y0, y1, t0, t1, hX⟩
      obtain ⟨ss', first', h', hy'⟩ := (core_iff hS hn hU hL hes hxs hl0 hG0 y).2 ((h3 y).2 ⟨y0, y1⟩)
      have hlen' : ss'.length = n + 1 := by rw [h'.crosses.length_eq, hn]
      obtain ⟨-, hseg'⟩ := h'.in_loop hS hL hn hU hes hxs
      obtain ⟨-, a2, a3⟩ := hseg' r (by omega)
      rw [hy'] at a2 a3
      refine ⟨ss', first', ss'[r], t, h', List.getElem?_eq_getElem _, t0, t1, ?_⟩
      rw [a2, a3]
      exact hX
    · rintro ⟨ss', first', s, t, h', hs, t0, t1, hX⟩
      obtain ⟨hy', hseg'⟩ := h'.in_loop hS hL hn hU hes hxs
      obtain ⟨hr', rfl⟩ := List.getElem?_eq_some_iff.1 hs
      obtain ⟨-, a2, a3⟩ := hseg' r hr'
      obtain ⟨y0, y1⟩ := (h3 _).1 hy'
      refine ⟨_, t, y0, y1, t0, t1, ?_⟩
      rw [← a2, ← a3]
      exact hX

/-- **C69.** If opposite edges have the same length then the area of a cylinder is the product of its circumference and its width: the heights of
the closed straight lines that cross the same edges, measured by the determinant with their holonomy, form an interval that is as long as the
area. -/
theorem C69_area (hS : S.Closed valid) (hA : S.AllStrict valid) (hiso : S.Isometric valid) {kinds : Kinds} (hk : kinds.positive = true → S.PositiveDilation valid)
    {ss : List (Seg L K)} {l0 : L} {es : List ℕ} {v : Vec K} {first : Seg L K} (h : S.IsCore valid ss l0 es v first) (hlim : es.length ≤ 1001) {c : Cyl L K}
    (hc : S.cylinder kinds l0 es = .ok c) :
    ∃ lo hi : K, (∀ y, (∃ ss' first', S.IsCore valid ss' l0 es v first' ∧ ccw v first'.start.point = y) ↔ lo < y ∧ y < hi) ∧ lo < hi ∧ c.area = hi - lo := by
  obtain ⟨n, l, p, e, e', g, G, xs, hn, hU, hx, hL, hes, hxs, hl0, hG0⟩ := h.strip hS hA.convex
  obtain ⟨hy, hseg⟩ := h.in_loop hS hL hn hU hes hxs
  obtain ⟨lo, hi, σs, τs, j, k, h1, h2, h3, h4, h5⟩ := cylinder_spec hS hA hk hL hn hU hx hes hxs hy (by omega)
  rw [h1] at hc
  injection hc with hc
  subst hc
  refine ⟨lo, hi, fun y => (core_iff hS hn hU hL hes hxs hl0 hG0 y).trans (h3 y), h2.lt, ?_⟩
  unfold Cyl.area
  dsimp only
  rw [List.map_map]
  exact part_area hS hiso hL hG0 h2

/-- **C69.** On a translation surface the holonomy of a cylinder is the holonomy of the closed straight line, unless the line runs through the same
segment twice. -/
theorem C69_holonomy (hS : S.Closed valid) (hA : S.AllStrict valid) (ht : S.Translation valid) {kinds : Kinds}
    {ss : List (Seg L K)} {l0 : L} {es : List ℕ} {v : Vec K} {first : Seg L K} (h : S.IsCore valid ss l0 es v first) (hlim : es.length ≤ 1001)
    (hd : (ss.map fun s => (s.start.label, s.start.point)).Nodup) {c : Cyl L K} (hc : S.cylinder kinds l0 es = .ok c) :
    c.holonomy = .ok v ∧ (c.right.map Saddle.holonomy).sum = v ∧ (c.left.map Saddle.holonomy).sum = -v := by
  have hpd : S.PositiveDilation valid := fun l e l' e' p p' x1 x2 x3 x4 x5 => ⟨1, one_pos, by rw [one_smul]; exact ht l e l' e' p p' x1 x2 x3 x4 x5⟩
  obtain ⟨n, l, p, e, e', g, G, xs, hn, hU, hx, hL, hes, hxs, hl0, hG0⟩ := h.strip hS hA.convex
  obtain ⟨hy, hseg⟩ := h.in_loop hS hL hn hU hes hxs
  obtain ⟨lo, hi, σs, τs, j, k, h1, h2, h3, h4, h5⟩ := cylinder_spec hS hA (fun _ => hpd) hL hn hU hx hes hxs hy (by omega) (kinds := kinds)
  rw [h1] at hc
  injection hc with hc
  subst hc
  have hlen : ss.length = n + 1 := by rw [h.crosses.length_eq, hn]
  obtain ⟨k1, k2⟩ := sides_holonomy hS hL (Nat.succ_pos n) (strip_dir hS ht hL.toStrip hG0) (core_distinct hlen hseg hd) h4 h5
  refine ⟨?_, k1, k2⟩
  unfold Cyl.holonomy
  dsimp only
  rw [k1, k2, add_neg_cancel, if_pos rfl]

/-- **C69.** On a translation surface, cylinders are embedded: if the closed straight line does not run through the same segment twice then the
parts of the same polygon that are in the cylinder do not overlap. -/
theorem C69_embedded (hS : S.Closed valid) (hA : S.AllStrict valid) (ht : S.Translation valid) {kinds : Kinds}
    {ss : List (Seg L K)} {l0 : L} {es : List ℕ} {v : Vec K} {first : Seg L K} (h : S.IsCore valid ss l0 es v first) (hlim : es.length ≤ 1001)
    (hd : (ss.map fun s => (s.start.label, s.start.point)).Nodup) {c : Cyl L K} (hc : S.cylinder kinds l0 es = .ok c) {r r' : ℕ} (hr : r < c.polygons.length)
    (hr' : r' < c.polygons.length) (hne : r ≠ r') (hl : c.polygons[r].1 = c.polygons[r'].1) (X : Vec K) :
    ¬ (c.polygons[r].2.pointPosition X = .interior ∧ c.polygons[r'].2.pointPosition X = .interior) := by
  have hpd : S.PositiveDilation valid := fun l e l' e' p p' x1 x2 x3 x4 x5 => ⟨1, one_pos, by rw [one_smul]; exact ht l e l' e' p p' x1 x2 x3 x4 x5⟩
  obtain ⟨n, l, p, e, e', g, G, xs, hn, hU, hx, hL, hes, hxs, hl0, hG0⟩ := h.strip hS hA.convex
  obtain ⟨hy, hseg⟩ := h.in_loop hS hL hn hU hes hxs
  obtain ⟨lo, hi, σs, τs, j, k, h1, h2, h3, h4, h5⟩ := cylinder_spec hS hA (fun _ => hpd) hL hn hU hx hes hxs hy (by omega) (kinds := kinds)
  rw [h1] at hc
  injection hc with hc
  subst hc
  have hlen : ss.length = n + 1 := by rw [h.crosses.length_eq, hn]
  have hdir := strip_dir hS ht hL.toStrip hG0
  have hdist := core_distinct hlen hseg hd
  have key : ∀ r r' : ℕ, r < r' → r' < n + 1 → l r = l r' → (Spans.part p e G v lo hi ((r : ℤ) - 1)).pointPosition X = .interior →
      (Spans.part p e G v lo hi ((r' : ℤ) - 1)).pointPosition X = .interior → False := by
    intro r r' hlt hr' hl x1 x2
    obtain ⟨y, s, y0, y1, s0, s1, hX⟩ := ((Spans.part_spec hS.bordered hL.toStrip h2 ((r : ℤ) - 1)).2.2 X).1 x1
    obtain ⟨y', t, y0', y1', t0, t1, hX'⟩ := ((Spans.part_spec hS.bordered hL.toStrip h2 ((r' : ℤ) - 1)).2.2 X).1 x2
    have o1 := (h3 y).2 ⟨y0, y1⟩
    have o2 := (h3 y').2 ⟨y0', y1'⟩
    have hsg := seg_of_meet hS hL.toStrip hdir o1 o2 (i := (r : ℤ) - 1) (j := (r' : ℤ) - 1) (by rw [sub_add_cancel, sub_add_cancel]; exact hl) s0 s1 t0 t1
      (hX.symm.trans hX')
    exact lines_disjoint hS hL (Nat.succ_pos n) hdir hdist o1 o2 (by omega) (by push_cast; omega) hsg
  have q1 : r < n + 1 := by
    have := hr
    rwa [List.length_map, List.length_range] at this
  have q2 : r' < n + 1 := by
    have := hr'
    rwa [List.length_map, List.length_range] at this
  simp only [List.getElem_map, List.getElem_range] at hl ⊢
  rintro ⟨x1, x2⟩
  rcases lt_or_gt_of_ne hne with h0 | h0
  · exact key r r' h0 q2 hl x1 x2
  · exact key r' r h0 q1 hl.symm x2 x1

omit [DecidableEq L] in
theorem Translation.isometric (ht : S.Translation valid) : S.Isometric valid := by
  intro l e l' e' p p' x1 x2 x3 x4 x5
  rw [ht l e l' e' p p' x1 x2 x3 x4 x5]
  unfold dot
  simp

omit [DecidableEq L] in
theorem develops_translation (hS : S.Closed valid) (ht : S.Translation valid) {segs : List (Seg L K)} {G : Similarity K} (h : S.Develops segs G) :
    (∀ s ∈ segs, valid s.stop.label) → ∃ v, G = .ofVec v := by
  induction h with
  | single s => intro _; exact ⟨0, by simp [Similarity.one, Similarity.ofVec]⟩
  | @cons s t rest k k' f G hk1 hk2 hf h ih =>
    intro hv
    obtain ⟨w, rfl⟩ := ih fun x hx => hv x (List.mem_cons_of_mem _ hx)
    obtain ⟨h1, h2⟩ := gluesTo_symm hS.bordered (hv s (by simp)) hf
    have hd := gluesTo_translation hS ht h2 h1
    have hs := h1.sign
    generalize f.inv = q at hd hs ⊢
    obtain ⟨a, b, s, t, σ⟩ := q
    dsimp only at hs
    subst hs
    have hd := hd (1, 0)
    simp [Similarity.derivative, Mat2.mulVec] at hd
    obtain ⟨rfl, rfl⟩ := hd
    refine ⟨w + (s, t), ?_⟩
    simp [Similarity.mul, Similarity.ofVec]

/-- A closed trajectory on a translation surface is a closed straight line. -/
theorem core_of_closed (hS : S.Closed valid) (ht : S.Translation valid) {x : Traj L K} (hx : S.IsTraj valid x) {first : Seg L K}
    (h1 : x.segments.head? = some first) (hc : x.isClosed = true) :
    ∃ es v, S.cylinderWord x = .ok (first.start.label, es) ∧ S.IsCore valid x.segments first.start.label es v first := by
  have hB := hS.bordered
  have hi := ht.isometric
  obtain ⟨es, hes, hw⟩ := (C67_cylinder hS hi hx h1).2 hc
  have hf : S.IsSeg valid first := hx.seg _ (List.mem_of_head? h1)
  have hfw := (C67_closed_isometric hS hi hx h1).1 hc
  obtain ⟨s, f', -, h2, -, h3, h4, ⟨last, h5, h6, -⟩, -⟩ := flowForward_step hS hx hfw
  have hs := isSeg_ext hB h3 hf h2
  subst hs
  have hch : ∀ t ∈ x.segments, ∃ p τ, S.IsChord valid t p τ := by
    intro t ht'
    rcases hx.seg t ht' with h | ⟨p, p', e, e', g, h⟩
    · exact h
    · obtain ⟨i, hi', rfl⟩ := List.getElem_of_mem ht'
      have := (List.forall₂_iff_get.1 hes).2 i hi' (by rw [← hes.length_eq]; exact hi')
      rw [List.get_eq_getElem, h.position'] at this
      cases this
  have hchain : (x.segments ++ [s]).IsChain S.Follows := by
    rw [List.isChain_append]
    refine ⟨hx.chain, by simp, fun a ha b hb => ?_⟩
    simp only [List.head?_cons, Option.mem_def, Option.some.injEq] at hb
    subst hb
    rw [h5] at ha
    injection ha with ha
    subst ha
    exact h6
  obtain ⟨rest, hrest⟩ : ∃ rest, x.segments = s :: rest := by
    cases hseg : x.segments with
    | nil => rw [hseg] at h1; cases h1
    | cons a rest => rw [hseg] at h1; injection h1 with h1; exact ⟨rest, by rw [h1]⟩
  have hall : ∀ t ∈ s :: (rest ++ [s]), ∃ p τ, S.IsChord valid t p τ := by
    intro t ht'
    rw [← List.cons_append, ← hrest] at ht'
    rcases List.mem_append.1 ht' with h | h
    · exact hch t h
    · rw [List.mem_singleton] at h
      subst h
      exact hch t (by rw [hrest]; simp)
  obtain ⟨G, hG⟩ := exists_develops hS s (rest ++ [s]) hall (by rw [← List.cons_append, ← hrest]; exact hchain)
  obtain ⟨v, rfl⟩ := develops_translation hS ht hG fun t ht' => by
    obtain ⟨p, τ, h⟩ := hall t ht'
    rw [h.label]
    exact h.valid
  refine ⟨es, v, hw, h1, rfl, hch, hchain, hes, ?_⟩
  rw [hrest]
  exact hG

/-- **C69.** On a translation surface the cylinder of a closed trajectory with at most 1001 segments can be created.  It is the cylinder around the
trajectory, and its holonomy is the holonomy of the trajectory unless the trajectory runs through the same segment twice. -/
theorem C69_trajectory (hS : S.Closed valid) (hA : S.AllStrict valid) (ht : S.Translation valid) {kinds : Kinds} {x : Traj L K} (hx : S.IsTraj valid x)
    {first : Seg L K} (h1 : x.segments.head? = some first) (hc : x.isClosed = true) (hlim : x.segments.length ≤ 1001) :
    ∃ es v c, S.trajCylinder kinds x = .ok c ∧ c.label0 = first.start.label ∧ c.edges = es ∧ S.IsCore valid x.segments first.start.label es v first ∧
      ((x.segments.map fun s => (s.start.label, s.start.point)).Nodup → c.holonomy = .ok v) := by
  have hpd : S.PositiveDilation valid := fun l e l' e' p p' x1 x2 x3 x4 x5 => ⟨1, one_pos, by rw [one_smul]; exact ht l e l' e' p p' x1 x2 x3 x4 x5⟩
  obtain ⟨es, v, hw, hcore⟩ := core_of_closed hS ht hx h1 hc
  have hlen : es.length ≤ 1001 := by rw [← hcore.crosses.length_eq]; exact hlim
  obtain ⟨c, h2, h3, h4, -⟩ := C69_constructor hS hA (fun _ => hpd) hcore hlen (kinds := kinds)
  refine ⟨es, v, c, ?_, h3, h4, hcore, fun hd => (C69_holonomy hS hA ht hcore hlen hd h2).1⟩
  unfold trajCylinder
  simp only [hw, bind, Except.bind]
  exact h2

end RSurf
end Flat
