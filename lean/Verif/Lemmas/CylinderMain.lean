import Verif.Lemmas.CylinderPolygons
import Verif.Lemmas.SaddleTerm

/-!
# What the constructor of cylinders computes
-/

namespace Flat
variable {L K : Type} [Field K] [LinearOrder K] [IsStrictOrderedRing K]

namespace RSurf
open Poly
variable {S : RSurf L K} {valid : L → Prop} {l : ℤ → L} {p : ℤ → Poly K} {e e' : ℤ → ℕ} {g G : ℤ → Similarity K} {v : Vec K} {lo hi : K} {n : ℕ}

/-- Where the cylinder crosses an edge, in the coordinates of the polygon before the edge. -/
def cut (p : ℤ → Poly K) (e : ℤ → ℕ) (G : ℤ → Similarity K) (v : Vec K) (lo hi : K) (i : ℤ) : Vec K × Vec K :=
  ((G i).inv.call (Strip.hit p e G v hi i), (G i).inv.call (Strip.hit p e G v lo i))

theorem edgeIntersections_eq (hB : S.Bordered valid) (h : S.Strip valid l p e e' g G) (hs : Spans p e G v lo hi) {x y : Vec K} (hx : ccw v x = hi) (hy : ccw v y = lo) (rs : List ℕ) :
    S.edgeIntersections v x y (rs.map (crossAt l e G)) = .ok (rs.map fun r : ℕ => cut p e G v lo hi r) := by
  unfold edgeIntersections
  induction rs with
  | nil => rfl
  | cons r rs ih =>
    rw [List.map_cons, List.mapM_cons, ih, gate_cross hB h r]
    simp only [bind, Except.bind, pure, Except.pure, hs.gatePoint_eq, hx, hy, List.map_cons]
    rfl

theorem cylPolygon_eq (hS : S.Closed valid) (h : S.Strip valid l p e e' g G) (hs : Spans p e G v lo hi) (i : ℤ) :
    S.cylPolygon (l i) (e i) (cut p e G v lo hi i) (cut p e G v lo hi (i + 1)) = .ok (Spans.part p e G v lo hi i) := by
  unfold cylPolygon cut
  rw [edgeTransformation_of_glue hS (h.valid i) (h.glues i)]
  simp only [bind, Except.bind]
  rw [h.inv_next, h.inv_next, ofVertices_iff]
  exact ⟨rfl, (Spans.part_spec hS.bordered h hs i).1⟩

theorem cylPolygons_eq (hS : S.Closed valid) (h : S.Strip valid l p e e' g G) (hs : Spans p e G v lo hi) (m : ℕ) : ∀ s : ℕ,
    S.cylPolygons (l (s - 1)) (e (s - 1)) (cut p e G v lo hi (s - 1)) ((List.range' s m).map fun r : ℕ => (crossAt l e G r, cut p e G v lo hi r)) =
      .ok ((List.range' s m).map fun r : ℕ => (l r, Spans.part p e G v lo hi (r - 1))) := by
  induction m with
  | zero => intro s; rfl
  | succ m ih =>
    intro s
    have h1 := cylPolygon_eq hS h hs ((s : ℤ) - 1)
    rw [sub_add_cancel] at h1
    have h2 := ih (s + 1)
    push_cast at h2
    rw [add_sub_cancel_right] at h2
    rw [List.range'_succ, List.map_cons, List.map_cons, cylPolygons]
    simp only [h1, bind, Except.bind, pure, Except.pure]
    have e1 : (crossAt l e G s).label.1 = l s := rfl
    have e2 : (crossAt l e G s).edge = e s := rfl
    rw [e1, e2, h2]

theorem loop_norm (hS : S.Closed valid) (hi : S.Isometric valid) (h : S.Strip valid l p e e' g G) (h0 : G 0 = .one) (r : ℕ) :
    (G r).a * (G r).a + (G r).b * (G r).b = 1 := by
  induction r with
  | zero => simp [h0, Similarity.one]
  | succ r ih =>
    push_cast
    rw [h.step]
    refine mul_norm (h.sign r) ih ?_
    exact gluesTo_norm hS hi (h.valid _) (gluesTo_symm hS.bordered (h.valid r) (h.glues r)).1

theorem part_sum (hS : S.Closed valid) (hiso : S.Isometric valid) (h : S.Strip valid l p e e' g G) (h0 : G 0 = .one) (hs : Spans p e G v lo hi) (m : ℕ) :
    ∃ T T' : K, Strip.hit p e G v lo (m - 1) = Strip.hit p e G v lo (-1) + T • v ∧ Strip.hit p e G v hi (m - 1) = Strip.hit p e G v hi (-1) + T' • v ∧
      2 * ((List.range m).map fun r : ℕ => (Spans.part p e G v lo hi (r - 1)).area).sum = (T + T') * (hi - lo) := by
  induction m with
  | zero => exact ⟨0, 0, by simp, by simp, by simp⟩
  | succ m ih =>
    obtain ⟨T, T', h1, h2, h3⟩ := ih
    obtain ⟨τ, σ, -, -, -, k1, k2⟩ := Spans.steps hS.bordered h hs ((m : ℤ) - 1)
    have k3 := (Spans.part_spec hS.bordered h hs ((m : ℤ) - 1)).2.1 τ σ k1 k2
    rw [sub_add_cancel] at k1 k2 k3
    rw [loop_norm hS hiso h h0] at k3
    refine ⟨T + τ, T' + σ, ?_, ?_, ?_⟩
    · push_cast
      rw [add_sub_cancel_right, k1, h1, add_smul, add_assoc]
    · push_cast
      rw [add_sub_cancel_right, k2, h2, add_smul, add_assoc]
    · rw [List.range_succ, List.map_append, List.sum_append]
      simp only [List.map_cons, List.map_nil, List.sum_cons, List.sum_nil, add_zero]
      linear_combination h3 + k3

theorem part_area (hS : S.Closed valid) (hiso : S.Isometric valid) (h : S.Loop valid n v l p e e' g G) (h0 : G 0 = .one) (hs : Spans p e G v lo hi) :
    ((List.range n).map fun r : ℕ => (Spans.part p e G v lo hi (r - 1)).area).sum = hi - lo := by
  obtain ⟨T, T', h1, h2, h3⟩ := part_sum hS hiso h.toStrip h0 hs n
  have hvne : v ≠ 0 := Strip.v_ne (hs.wide le_rfl hs.lt)
  have key : ∀ {y T : K}, Strip.hit p e G v y (n - 1) = Strip.hit p e G v y (-1) + T • v → T = 1 := by
    intro y T hT
    have := h.hit_add y (-1)
    rw [show (-1 : ℤ) + n = n - 1 by ring, hT] at this
    have h5 : (T - 1) • v = 0 := by rw [sub_smul, one_smul, sub_eq_zero]; exact add_left_cancel this
    exact sub_eq_zero.1 ((smul_eq_zero.1 h5).resolve_right hvne)
  rw [key h1, key h2] at h3
  linarith

theorem mapM_gate_fst (hB : S.Bordered valid) (h : S.Strip valid l p e e' g G) (rs : List ℕ) :
    ((rs.map (crossAt l e G)).mapM fun c => do return (c, (← S.gate c).1) : Except Err _) = .ok (rs.map fun r : ℕ => (crossAt l e G r, gateA p e G r)) := by
  induction rs with
  | nil => rfl
  | cons r rs ih =>
    rw [List.map_cons, List.mapM_cons, ih, gate_cross hB h r]
    rfl

theorem mapM_gate_snd (hB : S.Bordered valid) (h : S.Strip valid l p e e' g G) (rs : List ℕ) :
    ((rs.map (crossAt l e G)).mapM fun c => do return (c, (← S.gate c).2) : Except Err _) = .ok (rs.map fun r : ℕ => (crossAt l e G r, gateB p e G r)) := by
  induction rs with
  | nil => rfl
  | cons r rs ih =>
    rw [List.map_cons, List.mapM_cons, ih, gate_cross hB h r]
    rfl

theorem filter_crossAt (f : ℤ → K) (F : Crossing L K → K) (hF : ∀ r : ℕ, F (crossAt l e G r) = f r) (y : K) (n : ℕ) :
    ((List.range n).map (crossAt l e G)).filter (fun c => decide (F c = y)) = (onSide f y 0 n).map (crossAt l e G) := by
  unfold onSide
  rw [List.filter_map, List.range_eq_range']
  congr 1
  apply List.filter_congr
  intro r hr
  simp [hF]

/-- What the constructor computes when a line crosses all the edges. -/
theorem cylinder_spec [DecidableEq L] (hS : S.Closed valid) (hA : S.AllStrict valid) {kinds : Kinds} (hk : kinds.positive = true → S.PositiveDilation valid)
    (h : S.Loop valid (n + 1) v l p e e' g G) {l0 : L} {es : List ℕ} {xs : List (L × Similarity K)} (hlen : es.length = n + 1) (hU : S.Unfolds valid l0 .one es xs)
    (hx : xs.getLast? = some (l0, .ofVec v))
    (hes : ∀ r : ℕ, ∀ hr : r < es.length, e r = es[r]) (hxs : ∀ r : ℕ, ∀ hr : r < xs.length, (l r, G r) = xs[r]) {y : K} (hy : Loop.Open p e G v y)
    (hlim : n + 1 ≤ 1001) :
    ∃ (lo hi : K) (σs τs : List (Saddle L K)) (j k : ℕ), S.cylinder kinds l0 es = .ok ⟨l0, es, σs.foldl addSaddle [], τs.foldl addSaddle [],
        (List.range (n + 1)).map fun r : ℕ => (l r, Spans.part p e G v lo hi (r - 1))⟩ ∧
      Spans p e G v lo hi ∧ (∀ y, Loop.Open p e G v y ↔ lo < y ∧ y < hi) ∧
      SideOf S valid l p e e' G v lo (j - (n + 1 : ℕ)) j σs ∧ LeftOf S valid l p e e' G v hi k (k - (n + 1 : ℕ)) τs.reverse := by
  have hB := hS.bordered
  have hcr := crossings_eq hU.length hes hxs
  rw [hlen] at hcr
  have hlab := hU.labels hS
  obtain ⟨x1, x2⟩ := extent_spec (S := S) (v := v) (A := fun c => gateA p e G c.index) (B := fun c => gateB p e G c.index) (crossAt l e G 0)
    ((List.range' 1 n).map (crossAt l e G)) (by
      intro d hd
      rcases List.mem_cons.1 hd with rfl | hd
      · exact gate_cross hB h.toStrip 0
      · obtain ⟨r, -, rfl⟩ := List.mem_map.1 hd
        exact gate_cross hB h.toStrip r)
  have hcons : (List.range (n + 1)).map (crossAt l e G) = crossAt l e G 0 :: (List.range' 1 n).map (crossAt l e G) := by
    rw [List.range_eq_range', List.range'_succ, List.map_cons]
  obtain ⟨ext, hext⟩ := x1 fun d hd d' hd' => ((hy d.index).1).trans ((hy d'.index).2)
  have hE := x2 ext hext
  rw [← hcons] at hE
  have hmin : ext.minList = (onSide (fun r => ccw v (gateA p e G r)) ext.minY 0 (n + 1)).map (crossAt l e G) := by
    rw [hE.max.list]
    exact filter_crossAt _ _ (fun r => rfl) _ _
  have hmax : ext.maxList = (onSide (fun r => ccw v (gateB p e G r)) ext.maxY 0 (n + 1)).map (crossAt l e G) := by
    rw [hE.min.list]
    exact filter_crossAt _ _ (fun r => rfl) _ _
  have hmem : ∀ r : ℕ, r < n + 1 → crossAt l e G r ∈ (List.range (n + 1)).map (crossAt l e G) := fun r hr => List.mem_map.2 ⟨r, List.mem_range.2 hr, rfl⟩
  have hspan : Spans p e G v ext.minY ext.maxY := by
    refine ⟨hE.lt, ?_, ?_⟩
    · exact Loop.all_of_range (Nat.succ_pos n) (Q := fun i => ccw v (gateA p e G i) ≤ ext.minY) (fun i => by rw [h.ccwA_add]) fun r hr => hE.max.le _ (hmem r hr)
    · exact Loop.all_of_range (Nat.succ_pos n) (Q := fun i => ext.maxY ≤ ccw v (gateB p e G i)) (fun i => by rw [h.ccwB_add]) fun r hr => hE.min.ge _ (hmem r hr)
  have hne1 : onSide (fun r => ccw v (gateA p e G r)) ext.minY 0 (n + 1) ≠ [] := by
    have := hE.max.ne
    rw [hmin] at this
    intro h0
    rw [h0] at this
    exact this rfl
  have hne2 : onSide (fun r => ccw v (gateB p e G r)) ext.maxY 0 (n + 1) ≠ [] := by
    have := hE.min.ne
    rw [hmax] at this
    intro h0
    rw [h0] at this
    exact this rfl
  have htop : WideTop p e G v ext.maxY := fun i => ⟨(hspan.low i).trans_lt hE.lt, hspan.high i⟩
  obtain ⟨σs, j, r1, -, r3⟩ := rightBoundary_spec hS hA hk h (hspan.wide le_rfl hE.lt) hlim hne1
  obtain ⟨τs, k, s1, -, s3⟩ := leftBoundary_spec hS hA hk h htop hlim hne2
  obtain ⟨a, -, -, a3, -, a5⟩ := onSide_first _ _ _ _ hne1
  obtain ⟨b, -, -, b3, -, b5⟩ := onSide_first _ _ _ _ hne2
  refine ⟨ext.minY, ext.maxY, σs, τs, j, k, ?_, hspan, fun y => ⟨fun hy => ?_, fun hy => hspan.isOpen hy.1 hy.2⟩, r3, s3⟩
  · have hmins := mapM_gate_fst hB h.toStrip (onSide (fun r => ccw v (gateA p e G r)) ext.minY 0 (n + 1))
    have hmaxs := mapM_gate_snd hB h.toStrip (onSide (fun r => ccw v (gateB p e G r)) ext.maxY 0 (n + 1))
    rw [← hmin] at hmins
    rw [← hmax] at hmaxs
    have hcut := edgeIntersections_eq hB h.toStrip hspan b3 a3 (List.range (n + 1))
    rw [hcons] at hcut
    have hpol := cylPolygons_eq hS h.toStrip hspan (n + 1) 0
    rw [← List.range_eq_range'] at hpol
    have hlast : ∀ hne, (crossAt l e G 0 :: (List.range' 1 n).map (crossAt l e G)).getLast hne = crossAt l e G n := by
      rw [← hcons]
      intro hne
      rw [List.getLast_map]
      congr 1
      simp
    have hcl : ((List.range (n + 1)).map fun r : ℕ => cut p e G v ext.minY ext.maxY r).getLast?.getD (0, 0) = cut p e G v ext.minY ext.maxY n := by
      rw [List.range_succ, List.map_append]
      simp
    have hzip : List.zip (crossAt l e G 0 :: (List.range' 1 n).map (crossAt l e G)) ((List.range (n + 1)).map fun r : ℕ => cut p e G v ext.minY ext.maxY r) =
        (List.range (n + 1)).map fun r : ℕ => (crossAt l e G r, cut p e G v ext.minY ext.maxY r) := by
      rw [← hcons, List.zip_map']
    have hn1 : ((0 : ℕ) : ℤ) - 1 + (n + 1 : ℕ) = n := by push_cast; ring
    have hcn : cut p e G v ext.minY ext.maxY n = cut p e G v ext.minY ext.maxY ((0 : ℕ) - 1) := by
      unfold cut
      rw [← hn1, h.hit_add, h.hit_add, h.inv_call_add, h.inv_call_add]
    have hln : l n = l ((0 : ℕ) - 1) := by rw [← hn1, h.per_l]
    have hen : e n = e ((0 : ℕ) - 1) := by rw [← hn1, h.per_e]
    unfold cylinder
    have htr : (Similarity.ofVec v).isTranslation = true := by simp [Similarity.isTranslation, Similarity.ofVec]
    have hv : ((Similarity.ofVec v).s, (Similarity.ofVec v).t) = v := rfl
    rw [hlab]
    simp only [bind, Except.bind, hx, Option.getD_some, ne_eq, not_true_eq_false, if_false, htr, Bool.not_true, Bool.false_eq_true, hv, pure, Except.pure]
    rw [hcr, hcons]
    dsimp only
    rw [hext]
    dsimp only
    simp only [bind, Except.bind, pure, Except.pure] at hmins hmaxs
    rw [hmins]
    dsimp only
    rw [r1]
    dsimp only
    rw [hmaxs]
    dsimp only
    rw [s1, a5, b5]
    simp only [List.map_cons]
    rw [hcut]
    dsimp only
    rw [hlast, hcl, hzip]
    have e1 : (crossAt l e G n).label.1 = l n := rfl
    have e2 : (crossAt l e G n).edge = e n := rfl
    rw [e1, e2, hln, hen, hcn, hpol]
  · obtain ⟨c, t, hc⟩ := List.exists_cons_of_ne_nil hE.max.ne
    obtain ⟨d, t', hd⟩ := List.exists_cons_of_ne_nil hE.min.ne
    have hy1 : ccw v (gateA p e G a) = ext.minY := a3
    have hy2 : ccw v (gateB p e G b) = ext.maxY := b3
    exact ⟨hy1 ▸ (hy a).1, hy2 ▸ (hy b).2⟩

/-- If the constructor does not fail then there is a line that crosses all the edges. -/
theorem cylinder_open [DecidableEq L] (hS : S.Closed valid) (hE : S.EdgesOnly valid) (hc : S.AllConvex valid) {kinds : Kinds} {l0 : L} (hl : valid l0) {es : List ℕ} {c : Cyl L K}
    (hcyl : S.cylinder kinds l0 es = .ok c) :
    ∃ n v l p e e' g G xs y, es.length = n + 1 ∧ S.Unfolds valid l0 .one es xs ∧ xs.getLast? = some (l0, .ofVec v) ∧ S.Loop valid (n + 1) v l p e e' g G ∧
      (∀ r : ℕ, ∀ hr : r < es.length, e r = es[r]) ∧ (∀ r : ℕ, ∀ hr : r < xs.length, (l r, G r) = xs[r]) ∧ Loop.Open p e G v y := by
  have hB := hS.bordered
  unfold cylinder at hcyl
  cases h1 : S.cylLabels (l0, .one) es with
  | error err => rw [h1] at hcyl; cases hcyl
  | ok xs =>
    rw [h1] at hcyl
    simp only [bind, Except.bind, pure, Except.pure] at hcyl
    have hU := unfolds_of_labels hS hE hl h1
    have hlen := hU.length
    have hne : xs ≠ [] := by intro h0; rw [h0] at hlen; simp at hlen
    obtain ⟨x, hx⟩ : ∃ x, xs.getLast? = some x := ⟨_, List.getLast?_eq_some_getLast hne⟩
    rw [hx, Option.getD_some] at hcyl
    by_cases hl0 : l0 = x.1
    swap
    · rw [if_pos hl0] at hcyl; cases hcyl
    rw [if_neg (not_not.2 hl0)] at hcyl
    by_cases ht : x.2.isTranslation = true
    swap
    · rw [if_pos (by simpa using ht)] at hcyl; cases hcyl
    rw [if_neg (by simpa using ht)] at hcyl
    have hxv : x = (l0, .ofVec (x.2.s, x.2.t)) := by
      obtain ⟨x1, ⟨a, b, s, t, σ⟩⟩ := x
      simp only [Similarity.isTranslation, Bool.and_eq_true, decide_eq_true_eq] at ht hl0
      obtain ⟨⟨rfl, rfl⟩, rfl⟩ := ht
      subst hl0
      rfl
    have hes0 : es ≠ [] := by
      rintro rfl
      have : crossings xs ([] : List ℕ) = [] := by unfold crossings; simp
      rw [this] at hcyl
      cases hcyl
    obtain ⟨n, hn⟩ : ∃ n, es.length = n + 1 := ⟨es.length - 1, by have := List.length_pos_iff.2 hes0; omega⟩
    generalize hv : ((x.2.s, x.2.t) : Vec K) = v at *
    have hx' : xs.getLast? = some (l0, .ofVec v) := by rw [hx, hxv]
    obtain ⟨l, p, e, e', g, G, h, hes, hxs⟩ := exists_loop hS hc hU hes0 hx'
    rw [hn] at h
    have hcr := crossings_eq hlen hes hxs
    rw [hn] at hcr
    have hcons : (List.range (n + 1)).map (crossAt l e G) = crossAt l e G 0 :: (List.range' 1 n).map (crossAt l e G) := by
      rw [List.range_eq_range', List.range'_succ, List.map_cons]
    rw [hcr, hcons] at hcyl
    dsimp only at hcyl
    obtain ⟨-, x2⟩ := extent_spec (S := S) (v := v) (A := fun c => gateA p e G c.index) (B := fun c => gateB p e G c.index) (crossAt l e G 0)
      ((List.range' 1 n).map (crossAt l e G)) (by
        intro d hd
        rcases List.mem_cons.1 hd with rfl | hd
        · exact gate_cross hB h.toStrip 0
        · obtain ⟨r, -, rfl⟩ := List.mem_map.1 hd
          exact gate_cross hB h.toStrip r)
    cases hext : S.extent v (crossAt l e G 0) ((List.range' 1 n).map (crossAt l e G)) with
    | error err => rw [hext] at hcyl; cases hcyl
    | ok ext =>
      have hX := x2 ext hext
      rw [← hcons] at hX
      have hlt := hX.lt
      have hmem : ∀ r : ℕ, r < n + 1 → crossAt l e G r ∈ (List.range (n + 1)).map (crossAt l e G) := fun r hr => List.mem_map.2 ⟨r, List.mem_range.2 hr, rfl⟩
      refine ⟨n, v, l, p, e, e', g, G, xs, (ext.minY + ext.maxY) / 2, hn, hU, hx', h, hes, hxs, ?_⟩
      refine h.open_of_range (Nat.succ_pos n) fun r hr => ⟨?_, ?_⟩
      · exact (hX.max.le _ (hmem r hr)).trans_lt (by linarith)
      · exact lt_of_lt_of_le (by linarith) (hX.min.ge _ (hmem r hr))

end RSurf
end Flat
