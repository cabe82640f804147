import Verif.Lemmas.FlowEnds
import Verif.Props.Trajectory

/-!
# Where lines leave convex polygons, in terms of `flow_map`
-/

namespace Flat
variable {L K : Type}

/-! ## Vertices that `forward_image` recognises -/

section
variable [DecidableEq L] [CommRing K] [LinearOrder K] [IsStrictOrderedRing K]

theorem flowWalk_zero (ls : List K) (j : ℕ) (x : K) (hx : 0 ≤ x) {r : ℕ} (h : flowWalk ls j x = .ok (r, 0)) : x = 0 := by
  induction ls generalizing j x with
  | nil => cases h
  | cons l ls ih =>
    rw [flowWalk] at h
    by_cases hc : x > l
    · rw [if_pos hc] at h
      have := ih (j + 1) (x - l) (by linarith) h
      linarith
    · rw [if_neg hc] at h
      injection h with h
      exact (Prod.mk.inj h).2

/-- The images of points are given by the left end of an interval if they are between two intervals, unless there is yet another end of an
interval between the left end of the interval of the point and the point. -/
theorem flowMove_end {bot top : List K} {images : List (ℕ × K)} (hp : ∀ x ∈ top, x > 0) (hI : FlowImages bot top images) {i : ℕ} {len x : K}
    (hi : bot[i]? = some len) (hx : 0 ≤ x) {j : ℕ} {y t : K} (h : flowMove bot top images i x = .ok (j, y)) (ht : top[j]? = some t)
    (hy : flowStart top j + y = flowStart bot i + x) :
    (y = t → ∃ k < top.length, flowStart bot i < flowStart top k ∧ flowStart top k < flowStart bot i + x) ∧
    (y = 0 → ∀ k ≤ top.length, ¬ (flowStart bot i < flowStart top k ∧ flowStart top k < flowStart bot i + x)) := by
  obtain ⟨hil, -⟩ := List.getElem?_eq_some_iff.1 hi
  obtain ⟨j0, y0, t0, k1, k2, k3, k4, k5⟩ := hI i hil
  unfold flowMove at h
  rw [hi, k1] at h
  dsimp only at h
  have hx' : ¬ (x < 0 ∨ x > len) := by
    intro hc
    rw [if_pos hc] at h
    cases h
  rw [if_neg hx', k2] at h
  dsimp only at h
  have hj1 := flowStart_succ k2
  have tp := hp t (List.mem_of_getElem? ht)
  by_cases hlt : x + y0 < t0
  · rw [if_pos hlt] at h
    injection h with h
    obtain ⟨rfl, rfl⟩ := Prod.mk.inj h
    rw [k2] at ht; injection ht with ht; subst ht
    refine ⟨fun h => absurd h hlt.ne, fun h k hk hc => ?_⟩
    linarith [hc.1, hc.2]
  · rw [if_neg hlt] at h
    push Not at hlt
    refine ⟨fun hyt => ?_, fun hy0 k hk hc => ?_⟩
    · have hge : j0 + 1 ≤ j := by
        clear hy ht
        have key : ∀ (ls : List K) (a : ℕ) (z : K), flowWalk ls a z = .ok (j, y) → a ≤ j := by
          intro ls
          induction ls with
          | nil => intro a z h; cases h
          | cons l ls ih =>
            intro a z h
            rw [flowWalk] at h
            split_ifs at h
            · have := ih _ _ h; omega
            · injection h with h
              exact le_of_eq (Prod.mk.inj h).1
        exact key _ _ _ h
      have hm := flowStart_mono hp hge
      exact ⟨j, (List.getElem?_eq_some_iff.1 ht).1, by linarith, by linarith⟩
    · subst hy0
      have h0 := flowWalk_zero _ _ _ (by linarith) h
      rcases lt_or_ge k (j0 + 1) with hlt' | hge
      · have := flowStart_mono hp (show k ≤ j0 by omega)
        linarith [hc.1]
      · have := flowStart_mono hp hge
        linarith [hc.2]

end

/-- The same with labels. -/
theorem flowLabelled_end [DecidableEq L] [CommRing K] [LinearOrder K] [IsStrictOrderedRing K] {bot top : List K} {bl tl : List L} {images : List (ℕ × K)}
    (hp : ∀ x ∈ top, x > 0) (hbl : bl.Nodup) (htl : tl.Nodup) (htlen : tl.length = top.length) (hI : FlowImages bot top images) {i j : L} {x y : K}
    (hi : FlowIn bl bot i x) (hj : FlowIn tl top j y) (h : flowLabelled bot top bl tl images i x = .ok (j, y))
    (hpos : flowPos tl top j y = flowPos bl bot i x) :
    (∀ t, FlowIn tl top j t → t ≤ y) → ∃ k, FlowIn tl top k 0 ∧ flowPos bl bot i 0 < flowPos tl top k 0 ∧ flowPos tl top k 0 < flowPos bl bot i x := by
  obtain ⟨k, len, k1, k2, k3, k4⟩ := hi
  obtain ⟨hidx, hmem⟩ := idxOf_of_getElem hbl k1
  obtain ⟨k', t, m1, m2, m3, m4⟩ := hj
  obtain ⟨hidx', -⟩ := idxOf_of_getElem htl m1
  unfold flowLabelled at h
  rw [if_pos hmem, hidx] at h
  cases hm : flowMove bot top images k x with
  | error e => rw [hm] at h; cases h
  | ok r =>
    obtain ⟨j', y'⟩ := r
    rw [hm] at h
    simp only [bind, Except.bind] at h
    cases hl : tl[j']? with
    | none => rw [hl] at h; cases h
    | some l =>
      rw [hl] at h
      simp only [pure, Except.pure] at h
      injection h with h
      obtain ⟨rfl, rfl⟩ := Prod.mk.inj h
      have hjk : j' = k' := (idxOf_of_getElem htl hl).1.symm.trans hidx'
      subst hjk
      unfold flowPos at hpos
      rw [hidx, hidx'] at hpos
      have hend := (flowMove_end hp hI k2 k3 hm m2 hpos).1
      intro hmax
      obtain ⟨q, q1, q2, q3⟩ := hend (le_antisymm m4 (hmax t ⟨j', t, m1, m2, m3.trans m4, le_rfl⟩))
      have hq : q < tl.length := htlen ▸ q1
      have hq' := List.getElem?_eq_getElem hq
      refine ⟨tl[q], ⟨q, top[q], hq', List.getElem?_eq_getElem q1, le_rfl, (hp _ (List.getElem_mem q1)).le⟩, ?_⟩
      unfold flowPos
      rw [hidx, (idxOf_of_getElem htl hq').1]
      exact ⟨by linarith, by linarith⟩

/-- The same with labels, for left ends. -/
theorem flowLabelled_zero [DecidableEq L] [CommRing K] [LinearOrder K] [IsStrictOrderedRing K] {bot top : List K} {bl tl : List L} {images : List (ℕ × K)}
    (hp : ∀ x ∈ top, x > 0) (hbl : bl.Nodup) (htl : tl.Nodup) (hI : FlowImages bot top images) {i j : L} {x : K}
    (hi : FlowIn bl bot i x) (hj : FlowIn tl top j 0) (h : flowLabelled bot top bl tl images i x = .ok (j, 0))
    (hpos : flowPos tl top j 0 = flowPos bl bot i x) {k : L} (hk : FlowIn tl top k 0) :
    ¬ (flowPos bl bot i 0 < flowPos tl top k 0 ∧ flowPos tl top k 0 < flowPos bl bot i x) := by
  obtain ⟨a, len, k1, k2, k3, k4⟩ := hi
  obtain ⟨hidx, hmem⟩ := idxOf_of_getElem hbl k1
  obtain ⟨k', t, m1, m2, m3, m4⟩ := hj
  obtain ⟨hidx', -⟩ := idxOf_of_getElem htl m1
  obtain ⟨q, t', n1, n2, -, -⟩ := hk
  have hidx'' := (idxOf_of_getElem htl n1).1
  unfold flowLabelled at h
  rw [if_pos hmem, hidx] at h
  cases hm : flowMove bot top images a x with
  | error e => rw [hm] at h; cases h
  | ok r =>
    obtain ⟨j', y'⟩ := r
    rw [hm] at h
    simp only [bind, Except.bind] at h
    cases hl : tl[j']? with
    | none => rw [hl] at h; cases h
    | some l =>
      rw [hl] at h
      simp only [pure, Except.pure] at h
      injection h with h
      obtain ⟨rfl, rfl⟩ := Prod.mk.inj h
      have hjk : j' = k' := (idxOf_of_getElem htl hl).1.symm.trans hidx'
      subst hjk
      unfold flowPos at hpos ⊢
      rw [hidx, hidx'] at hpos
      have hend := (flowMove_end hp hI k2 k3 hm m2 hpos).2 rfl q (List.getElem?_eq_some_iff.1 n2).1.le
      rw [hidx, hidx'', add_zero, add_zero]
      exact hend

namespace Poly
variable [Field K] [LinearOrder K] [IsStrictOrderedRing K] {p : Poly K} {d : Vec K}

theorem interior_left (hv : p.Valid) (hc : p.Convex) {X : Vec K} (h : p.pointPosition X = .interior) (k : ℕ) : 0 < p.left X k :=
  (C12_interior hv hc _).1.1 h k

/-- A line that was inside leaves through an edge which it crosses from left to right. -/
theorem chord_exit (hv : p.Valid) (hc : p.Convex) {X u : Vec K} {τ : K} (τ0 : 0 < τ)
    (hint : ∀ r : K, 0 < r → r < τ → p.pointPosition (X + r • u) = .interior) (hs : ∃ i, X + τ • u ∈ p.side i) :
    ∃ k, k < p.length ∧ p.width u k < 0 ∧ ∃ t : K, 0 ≤ t ∧ t < 1 ∧ X + τ • u = p.vertex k + t • p.edge k := by
  have hn : 0 < p.length := by have := hv.len3; omega
  have hpos : ∀ k, p.left (X + τ • u) k = 0 → p.width u k < 0 := by
    intro k hk
    have h1 := interior_left hv hc (hint (τ / 2) (half_pos τ0) (half_lt_self τ0)) k
    have h2 : p.left (X + τ • u) k = p.left (X + (τ / 2) • u) k + τ / 2 * p.width u k := by
      unfold width
      rw [← left_add, add_assoc, ← add_smul, add_halves]
    rw [hk] at h2
    by_contra hge
    push Not at hge
    have := mul_nonneg (half_pos τ0).le hge
    linarith
  have hon : ∀ k (t : K), p.left (p.vertex k + t • p.edge k) k = 0 := by
    intro k t
    unfold left ccw
    simp only [Prod.fst_sub, Prod.snd_sub, Prod.fst_add, Prod.snd_add, Prod.smul_fst, Prod.smul_snd, smul_eq_mul]
    ring
  obtain ⟨i, t, t0, t1, e⟩ := hs
  rcases lt_or_eq_of_le t1 with h | h
  · refine ⟨i % p.length, Nat.mod_lt _ hn, ?_, t, t0, h, ?_⟩
    · rw [width_mod]
      refine hpos i ?_
      rw [e]
      exact hon i t
    · rw [e, vertex_mod, edge_mod]; rfl
  · have e' : X + τ • u = p.vertex (i + 1) := by rw [e, h]; simp
    refine ⟨(i + 1) % p.length, Nat.mod_lt _ hn, ?_, 0, le_rfl, one_pos, ?_⟩
    · rw [width_mod]
      refine hpos (i + 1) ?_
      rw [e']
      unfold left ccw
      simp
    · rw [e', vertex_mod]; simp

/-- There is only one point where a line leaves. -/
theorem exit_unique (hv : p.Valid) (hc : p.Convex) {X u : Vec K} {τ : K} (τ0 : 0 < τ)
    (hint : ∀ r : K, 0 < r → r < τ → p.pointPosition (X + r • u) = .interior) (hs : ∃ i, X + τ • u ∈ p.side i) {Z : Vec K} {j : ℕ} {c t : K}
    (hj : p.width u j < 0) (t0 : 0 ≤ t) (t1 : t ≤ 1) (hZ : Z = p.vertex j + t • p.edge j) (hc' : Z = X + c • u) : Z = X + τ • u := by
  obtain ⟨k, -, hk, t', -, -, e⟩ := chord_exit hv hc τ0 hint hs
  have hon : ∀ k (t : K), p.left (p.vertex k + t • p.edge k) k = 0 := by
    intro k t
    unfold left ccw
    simp only [Prod.fst_sub, Prod.snd_sub, Prod.fst_add, Prod.snd_add, Prod.smul_fst, Prod.smul_snd, smul_eq_mul]
    ring
  have hline : ∀ (a b : K) m, p.left (X + b • u) m = p.left (X + a • u) m + (b - a) * p.width u m := by
    intro a b m
    unfold width
    rw [left_add, left_add]
    ring
  have hcτ : c = τ := by
    rcases lt_trichotomy c τ with h | h | h
    · exfalso
      obtain ⟨r, r1, r2⟩ := exists_between (max_lt h τ0)
      have h1 := interior_left hv hc (hint r (lt_of_le_of_lt (le_max_right _ _) r1) r2) j
      rw [hline c r, ← hc', hZ, hon, zero_add] at h1
      have : 0 < r - c := sub_pos.2 (lt_of_le_of_lt (le_max_left _ _) r1)
      linarith [mul_neg_of_pos_of_neg this hj]
    · exact h
    · exfalso
      have h1 : 0 ≤ p.left Z k := hc.side_left (i := j) ⟨t, t0, t1, hZ⟩ k
      rw [hc', hline τ c, e, hon, zero_add] at h1
      linarith [mul_neg_of_pos_of_neg (sub_pos.2 h) hk]
  rw [hc', hcτ]

/-- A point on an edge, given by its position from the left. -/
def botPoint (p : Poly K) (d : Vec K) (i : ℕ) (x : K) : Vec K := p.vertex i + (x / p.width d i) • p.edge i

/-- A point on an edge that is run through from right to left, given by its position from the left. -/
def topPoint (p : Poly K) (d : Vec K) (i : ℕ) (x : K) : Vec K := p.vertex i + ((-p.width d i - x) / -p.width d i) • p.edge i

omit [LinearOrder K] [IsStrictOrderedRing K] in
theorem across_edge (p : Poly K) (d : Vec K) (i : ℕ) (t : K) : across d (p.vertex i + t • p.edge i) = across d (p.vertex i) + t * p.width d i := by
  unfold across width ccw
  simp only [Prod.fst_add, Prod.snd_add, Prod.smul_fst, Prod.smul_snd, smul_eq_mul]
  ring

omit [LinearOrder K] [IsStrictOrderedRing K] in
theorem across_line (d X : Vec K) (t : K) : across d (X + t • d) = across d X := by
  unfold across ccw
  simp only [Prod.fst_add, Prod.snd_add, Prod.smul_fst, Prod.smul_snd, smul_eq_mul]
  ring

omit [LinearOrder K] [IsStrictOrderedRing K] in
theorem across_botPoint {i : ℕ} (h : p.width d i ≠ 0) (x : K) : across d (p.botPoint d i x) = across d (p.vertex i) + x := by
  unfold botPoint
  rw [across_edge]
  field_simp

omit [LinearOrder K] [IsStrictOrderedRing K] in
theorem across_topPoint {i : ℕ} (h : p.width d i ≠ 0) (x : K) : across d (p.topPoint d i x) = across d (p.vertex (i + 1)) + x := by
  unfold topPoint
  rw [across_edge, show across d (p.vertex (i + 1)) = across d (p.vertex i) + p.width d i by rw [width_eq]; ring]
  field_simp
  ring

/-- The forward image of the start of a chord is its end. -/
theorem forward_exit (hv : p.Valid) (hc : p.Convex) (hd : d ≠ 0) {T : FlowMap ℕ K} {left : K} (hT : p.IsFlowMap d T left) {e : ℕ} {x τ : K} (he : e < p.length)
    (hw : 0 < p.width d e) (x0 : 0 ≤ x) (x1 : x ≤ p.width d e) (τ0 : 0 < τ)
    (hint : ∀ r : K, 0 < r → r < τ → p.pointPosition (p.botPoint d e x + r • d) = .interior) (hs : ∃ i, p.botPoint d e x + τ • d ∈ p.side i) :
    ∃ j y, T.forwardImage e x = .ok (j, y) ∧ j < p.length ∧ p.width d j < 0 ∧ 0 ≤ y ∧ y ≤ -p.width d j ∧ p.botPoint d e x + τ • d = p.topPoint d j y := by
  obtain ⟨k, hk, hkw, t, t0, t1, ek⟩ := chord_exit hv hc τ0 hint hs
  have hin := (hT.bot e x).2 ⟨he, hw, x0, x1⟩
  have hac : across d (p.vertex e) + x = across d (p.vertex k) + t * p.width d k := by
    rw [← across_botPoint hw.ne', ← across_edge, ← ek, across_line]
  have hr : flowPos T.botLabels T.botLengths e x < T.botLengths.sum := by
    rw [hT.botPos e x he hw]
    rcases lt_or_eq_of_le t0 with h | h
    · have := hT.rightEnd k
      have := mul_neg_of_pos_of_neg h hkw
      linarith
    · -- the line leaves at a vertex
      have hn : 0 < p.length := by omega
      have h1 := interior_left hv hc (hint (τ / 2) (half_pos τ0) (half_lt_self τ0)) (k + (p.length - 1))
      have hvk : p.vertex (k + (p.length - 1) + 1) = p.vertex k := by rw [show k + (p.length - 1) + 1 = k + p.length by omega, vertex_add_length]
      have h2 : p.left (p.botPoint d e x + τ • d) (k + (p.length - 1)) = p.left (p.botPoint d e x + (τ / 2) • d) (k + (p.length - 1)) + τ / 2 * p.width d (k + (p.length - 1)) := by
        unfold width
        rw [← left_add, add_assoc, ← add_smul, add_halves]
      have h3 : p.left (p.botPoint d e x + τ • d) (k + (p.length - 1)) = 0 := by
        rw [ek, ← h, zero_smul, add_zero, ← hvk]
        unfold Poly.left edge ccw
        ring
      have h4 : p.width d (k + (p.length - 1)) < 0 := by
        by_contra hge
        push Not at hge
        have := mul_nonneg (half_pos τ0).le hge
        linarith
      rw [width_eq, hvk] at h4
      have := hT.rightEnd (k + (p.length - 1))
      rw [← h, zero_mul, add_zero] at hac
      linarith
  obtain ⟨j, y, h1, h2, h3⟩ := C43_forward hT.made hin hr
  obtain ⟨hj, hjw, y0, y1⟩ := (hT.top j y).1 h2
  rw [hT.botPos e x he hw, hT.topPos j y hj hjw] at h3
  refine ⟨j, y, h1, hj, hjw, y0, y1, ?_⟩
  have hl : 0 < -p.width d j := neg_pos.2 hjw
  obtain ⟨c, hcc⟩ := across_eq hd (x := p.botPoint d e x) (y := p.topPoint d j y) (by
    rw [across_botPoint hw.ne', across_topPoint hjw.ne]; linarith)
  exact (exit_unique hv hc τ0 hint hs hjw (div_nonneg (sub_nonneg.2 y1) hl.le) ((div_le_one hl).2 (by linarith)) rfl hcc).symm

/-- The backward image of the end of a chord is its start. -/
theorem backward_exit (hv : p.Valid) (hc : p.Convex) (hd : d ≠ 0) {T : FlowMap ℕ K} {left : K} (hT : p.IsFlowMap d T left) {j : ℕ} {y τ : K} (hj : j < p.length)
    (hw : p.width d j < 0) (y0 : 0 ≤ y) (y1 : y ≤ -p.width d j) (τ0 : 0 < τ)
    (hint : ∀ r : K, 0 < r → r < τ → p.pointPosition (p.topPoint d j y + r • -d) = .interior) (hs : ∃ i, p.topPoint d j y + τ • -d ∈ p.side i) :
    ∃ e x, T.backwardImage j y = .ok (e, x) ∧ e < p.length ∧ 0 < p.width d e ∧ 0 ≤ x ∧ x ≤ p.width d e ∧ p.topPoint d j y + τ • -d = p.botPoint d e x := by
  obtain ⟨k, hk, hkw, t, t0, t1, ek⟩ := chord_exit hv hc τ0 hint hs
  rw [width_neg] at hkw
  have hkw : 0 < p.width d k := by linarith
  have hin := (hT.top j y).2 ⟨hj, hw, y0, y1⟩
  have hac : across d (p.vertex (j + 1)) + y = across d (p.vertex k) + t * p.width d k := by
    rw [← across_topPoint hw.ne, ← across_edge, ← ek, smul_neg, ← neg_smul, across_line]
  have hsum : T.topLengths.sum = T.botLengths.sum := (flowMap_valid hT.made).1.sum
  have hr : flowPos T.topLabels T.topLengths j y < T.topLengths.sum := by
    rw [hT.topPos j y hj hw, hsum]
    have := hT.rightEnd (k + 1)
    have h2 : across d (p.vertex (k + 1)) = across d (p.vertex k) + p.width d k := by rw [width_eq]; ring
    have := mul_pos (sub_pos.2 t1) hkw
    linarith
  obtain ⟨e, x, h1, h2, h3⟩ := C43_backward hT.made hin hr
  obtain ⟨he, hew, x0, x1⟩ := (hT.bot e x).1 h2
  rw [hT.botPos e x he hew, hT.topPos j y hj hw] at h3
  refine ⟨e, x, h1, he, hew, x0, x1, ?_⟩
  obtain ⟨c, hcc⟩ := across_eq hd (x := p.topPoint d j y) (y := p.botPoint d e x) (by
    rw [across_botPoint hew.ne', across_topPoint hw.ne]; linarith)
  exact (exit_unique hv hc τ0 hint hs (by rw [width_neg]; linarith) (div_nonneg x0 hew.le) ((div_le_one hew).2 x1) rfl
    (c := -c) (hcc.trans (by rw [neg_smul, smul_neg, neg_neg]))).symm

/-- A vertex at which a line leaves is recognised unless there is another vertex on that side between the line and the start of the edge
through which it enters. -/
theorem forward_zero {T : FlowMap ℕ K} {left : K} (hT : p.IsFlowMap d T left) {e j : ℕ} {x y : K} (he : e < p.length) (hw : 0 < p.width d e) (x0 : 0 ≤ x) (x1 : x ≤ p.width d e)
    (h : T.forwardImage e x = .ok (j, y)) (hj : j < p.length) (hjw : p.width d j < 0) (y0 : 0 ≤ y) (y1 : y ≤ -p.width d j)
    (hpos : across d (p.vertex (j + 1)) + y = across d (p.vertex e) + x) (hend : y = 0 ∨ y = -p.width d j) :
    y = 0 ↔ ∀ k, k < p.length → p.width d k < 0 →
      ¬ (across d (p.vertex e) < across d (p.vertex (k + 1)) ∧ across d (p.vertex (k + 1)) < across d (p.vertex e) + x) := by
  obtain ⟨hV, -, -, -, -⟩ := flowMap_valid hT.made
  have hi := (hT.bot e x).2 ⟨he, hw, x0, x1⟩
  have hjt := (hT.top j y).2 ⟨hj, hjw, y0, y1⟩
  have hp' : flowPos T.topLabels T.topLengths j y = flowPos T.botLabels T.botLengths e x := by
    rw [hT.botPos e x he hw, hT.topPos j y hj hjw]; linarith
  constructor
  · rintro rfl k hk hkw hc
    refine flowLabelled_zero hV.topPos hV.botNodup hV.topNodup hV.fwd hi hjt h hp' ((hT.top k 0).2 ⟨hk, hkw, le_rfl, by linarith⟩) ?_
    rw [hT.botPos e x he hw, hT.botPos e 0 he hw, hT.topPos k 0 hk hkw]
    exact ⟨by linarith [hc.1], by linarith [hc.2]⟩
  · intro hall
    rcases hend with h0 | h0
    · exact h0
    · exfalso
      obtain ⟨k, k1, k2, k3⟩ := flowLabelled_end hV.topPos hV.botNodup hV.topNodup hV.topLen hV.fwd hi hjt h hp'
        (fun t ht => by rw [h0]; exact ((hT.top j t).1 ht).2.2.2)
      obtain ⟨hk, hkw, -, -⟩ := (hT.top k 0).1 k1
      rw [hT.botPos e x he hw, hT.topPos k 0 hk hkw] at k3
      rw [hT.botPos e 0 he hw, hT.topPos k 0 hk hkw] at k2
      exact hall k hk hkw ⟨by linarith, by linarith⟩

/-- The same for backward images. -/
theorem backward_zero {T : FlowMap ℕ K} {left : K} (hT : p.IsFlowMap d T left) {e j : ℕ} {x y : K} (hj : j < p.length) (hjw : p.width d j < 0) (y0 : 0 ≤ y) (y1 : y ≤ -p.width d j)
    (h : T.backwardImage j y = .ok (e, x)) (he : e < p.length) (hw : 0 < p.width d e) (x0 : 0 ≤ x) (x1 : x ≤ p.width d e)
    (hpos : across d (p.vertex (j + 1)) + y = across d (p.vertex e) + x) (hend : x = 0 ∨ x = p.width d e) :
    x = 0 ↔ ∀ k, k < p.length → 0 < p.width d k →
      ¬ (across d (p.vertex (j + 1)) < across d (p.vertex k) ∧ across d (p.vertex k) < across d (p.vertex (j + 1)) + y) := by
  obtain ⟨hV, -, -, -, -⟩ := flowMap_valid hT.made
  have hi := (hT.bot e x).2 ⟨he, hw, x0, x1⟩
  have hjt := (hT.top j y).2 ⟨hj, hjw, y0, y1⟩
  have hp' : flowPos T.botLabels T.botLengths e x = flowPos T.topLabels T.topLengths j y := by
    rw [hT.botPos e x he hw, hT.topPos j y hj hjw]; linarith
  constructor
  · rintro rfl k hk hkw hc
    refine flowLabelled_zero hV.botPos hV.topNodup hV.botNodup hV.bwd hjt hi h hp' ((hT.bot k 0).2 ⟨hk, hkw, le_rfl, hkw.le⟩) ?_
    rw [hT.topPos j y hj hjw, hT.topPos j 0 hj hjw, hT.botPos k 0 hk hkw]
    exact ⟨by linarith [hc.1], by linarith [hc.2]⟩
  · intro hall
    rcases hend with h0 | h0
    · exact h0
    · exfalso
      obtain ⟨k, k1, k2, k3⟩ := flowLabelled_end hV.botPos hV.topNodup hV.botNodup hV.botLen hV.bwd hjt hi h hp'
        (fun t ht => by rw [h0]; exact ((hT.bot e t).1 ht).2.2.2)
      obtain ⟨hk, hkw, -, -⟩ := (hT.bot k 0).1 k1
      rw [hT.topPos j y hj hjw, hT.botPos k 0 hk hkw] at k3
      rw [hT.topPos j 0 hj hjw, hT.botPos k 0 hk hkw] at k2
      exact hall k hk hkw ⟨by linarith, by linarith⟩

end Poly
end Flat
