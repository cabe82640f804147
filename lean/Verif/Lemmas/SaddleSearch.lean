import Verif.Props.SaddleConstructor
import Verif.Props.Circle
import Verif.Lemmas.SaddleWedge

/-!
# The search for saddle connections: one polygon at a time
-/

namespace Flat
variable {L K : Type} [Field K] [LinearOrder K] [IsStrictOrderedRing K]

/-! ### The vertices that are looked at -/

theorem mem_scVerts_one {n e j : ℕ} (he : e < n) : j ∈ RSurf.scVerts n e 1 ↔ j < n ∧ j ≠ e := by
  unfold RSurf.scVerts
  rw [List.mem_reverse, List.mem_map]
  constructor
  · rintro ⟨i, hi, rfl⟩
    rw [List.mem_range'_1] at hi
    refine ⟨Nat.mod_lt _ (by omega), ?_⟩
    rcases Nat.lt_or_ge e i with h | h
    · rw [Nat.mod_eq_of_lt (by omega)]; omega
    · rw [show e + n - i = (e - i) + n by omega, Nat.add_mod_right, Nat.mod_eq_of_lt (by omega)]; omega
  · rintro ⟨h1, h2⟩
    rcases Nat.lt_or_ge e j with h | h
    · exact ⟨e + n - j, by rw [List.mem_range'_1]; omega, by rw [Nat.mod_eq_of_lt (by omega)]; omega⟩
    · exact ⟨e - j, by rw [List.mem_range'_1]; omega, by
        rw [show e + n - (e - j) = j + n by omega, Nat.add_mod_right, Nat.mod_eq_of_lt (by omega)]⟩

theorem mem_scVerts_two {n e j : ℕ} (hn : 2 ≤ n) (he : e < n) : j ∈ RSurf.scVerts n e 2 ↔ j < n ∧ j ≠ e ∧ j ≠ (e + n - 1) % n := by
  have h1 : RSurf.scVerts n e 1 = RSurf.scVerts n e 2 ++ [(e + n - 1) % n] := by
    unfold RSurf.scVerts
    obtain ⟨m, rfl⟩ : ∃ m, n = m + 2 := ⟨n - 2, by omega⟩
    rw [show m + 2 - 1 = m + 1 by omega, show m + 2 - 2 = m by omega, List.range'_succ, List.map_cons, List.reverse_cons]
  have hnd : (RSurf.scVerts n e 1).Nodup := by
    unfold RSurf.scVerts
    rw [List.nodup_reverse]
    refine List.Nodup.map_on ?_ List.nodup_range'
    intro a ha b hb hab
    rw [List.mem_range'_1] at ha hb
    have key : ∀ i, 1 ≤ i → i < n → (e + n - i) % n = if i ≤ e then e - i else e + n - i := by
      intro i i1 i2
      split_ifs with h
      · rw [show e + n - i = (e - i) + n by omega, Nat.add_mod_right, Nat.mod_eq_of_lt (by omega)]
      · rw [Nat.mod_eq_of_lt (by omega)]
    rw [key a (by omega) (by omega), key b (by omega) (by omega)] at hab
    split_ifs at hab <;> omega
  have h2 := mem_scVerts_one (j := j) he
  rw [h1, List.mem_append, List.mem_singleton] at h2
  rw [h1, List.nodup_append] at hnd
  constructor
  · intro h
    obtain ⟨a, b⟩ := h2.1 (.inl h)
    exact ⟨a, b, hnd.2.2 j h _ (List.mem_singleton_self _)⟩
  · rintro ⟨a, b, c⟩
    rcases h2.2 ⟨a, b⟩ with h | h
    · exact h
    · exact absurd h c

theorem nodup_scVerts (n e skip : ℕ) (he : e < n) (hs : 1 ≤ skip) : (RSurf.scVerts n e skip).Nodup := by
  unfold RSurf.scVerts
  rw [List.nodup_reverse]
  refine List.Nodup.map_on ?_ List.nodup_range'
  intro a ha b hb hab
  rw [List.mem_range'_1] at ha hb
  have key : ∀ i, 1 ≤ i → i < n → (e + n - i) % n = if i ≤ e then e - i else e + n - i := by
    intro i i1 i2
    split_ifs with h
    · rw [show e + n - i = (e - i) + n by omega, Nat.add_mod_right, Nat.mod_eq_of_lt (by omega)]
    · rw [Nat.mod_eq_of_lt (by omega)]
  rw [key a (by omega) (by omega), key b (by omega) (by omega)] at hab
  split_ifs at hab <;> omega

/-! ### Wedges at the first vertex -/

theorem root_left {u v h x : Vec K} (huv : 0 < ccw u v) (h1 : 0 < ccw u h) (h2 : 0 < ccw h v) (hx : 0 ≤ ccw x v) (hhx : 0 < ccw h x) : 0 < ccw u x := by
  refine pos_of_mul_pos h2 ?_
  rw [plucker u h x v]
  exact add_pos_of_nonneg_of_pos (mul_nonneg h1.le hx) (mul_pos huv hhx)

theorem root_right {u v h x : Vec K} (huv : 0 < ccw u v) (h1 : 0 < ccw u h) (h2 : 0 < ccw h v) (hx : 0 ≤ ccw u x) (hhx : 0 < ccw x h) : 0 < ccw x v := by
  refine pos_of_mul_pos h1 ?_
  rw [mul_comm, plucker u x h v]
  exact add_pos_of_nonneg_of_pos (mul_nonneg hx h2.le) (mul_pos huv hhx)

omit [LinearOrder K] [IsStrictOrderedRing K] in
theorem ccw_smul_right (a h : Vec K) (r : K) : ccw a (r • h) = r * ccw a h := by
  unfold ccw; simp only [Prod.smul_fst, Prod.smul_snd, smul_eq_mul]; ring

omit [LinearOrder K] [IsStrictOrderedRing K] in
theorem ccw_smul_left (a h : Vec K) (r : K) : ccw (r • h) a = r * ccw h a := by
  unfold ccw; simp only [Prod.smul_fst, Prod.smul_snd, smul_eq_mul]; ring

omit [LinearOrder K] [IsStrictOrderedRing K] in
theorem ccw_self (a : Vec K) : ccw a a = 0 := by unfold ccw; ring

theorem inWedge_smul {w : Vec K × Vec K} {h : Vec K} {c : K} (hc : 0 < c) : InWedge w (c • h) ↔ InWedge w h := by
  unfold InWedge
  rw [ccw_smul_right, ccw_smul_left]
  constructor
  · rintro ⟨h1, h2⟩; exact ⟨(pos_iff_pos_of_mul_pos h1).1 hc, (pos_iff_pos_of_mul_pos h2).1 hc⟩
  · rintro ⟨h1, h2⟩; exact ⟨mul_pos hc h1, mul_pos hc h2⟩

namespace RSurf
open Poly
variable {S : RSurf L K} {valid : L → Prop}

/-! ### Similarities and directions -/

theorem call_sub {g : Similarity K} (hs : g.sign = 1) (x y : Vec K) : g.call x - g.call y = g.derivative.mulVec (x - y) := by
  rw [← Similarity.call_add hs y, add_sub_cancel]

omit [LinearOrder K] [IsStrictOrderedRing K] in
theorem deriv_inj {g : Similarity K} (hg : g.WF) (hs : g.sign = 1) {u v : Vec K} (h : g.derivative.mulVec u = g.derivative.mulVec v) : u = v := by
  have := congrArg g.inv.derivative.mulVec h
  rwa [(inv_deriv hg hs u).1, (inv_deriv hg hs v).1] at this

omit [LinearOrder K] [IsStrictOrderedRing K] in
theorem ofVec_call (v x : Vec K) : (Similarity.ofVec v).call x = x + v := by
  unfold Similarity.ofVec Similarity.call
  ext <;> simp

omit [LinearOrder K] [IsStrictOrderedRing K] in
theorem ofVec_deriv (v x : Vec K) : (Similarity.ofVec v).derivative.mulVec x = x := by
  unfold Similarity.ofVec Similarity.derivative Mat2.mulVec
  ext <;> simp

theorem ofVec_wf (v : Vec K) : (Similarity.ofVec v).WF := ⟨by simp [Similarity.ofVec], .inl rfl⟩

/-- The ray in the direction `h` enters a polygon with the tangent vector `t` at the time `s`, when the polygon is put into the plane by `sim`. -/
structure Entry (S : RSurf L K) (valid : L → Prop) (sim : Similarity K) (t : TVec L K) (h : Vec K) (s : K) : Prop where
  tangent : S.IsTangent valid t
  point : sim.call t.point = s • h
  vector : sim.derivative.mulVec t.vector = h
  nonneg : 0 ≤ s

/-- What the search knows about a polygon: the directions in the wedge `w` enter it at the position `o`, and leave it at the vertices or through the
edges `U`. -/
structure ScGood (S : RSurf L K) (valid : L → Prop) (sim : Similarity K) (label : L) (w : Vec K × Vec K) (p : Poly K) (o : Position) (U : List ℕ) :
    Prop where
  mem : valid label
  polygon : S.polygon label = .ok p
  convex : p.Convex
  wf : sim.WF
  sign : sim.sign = 1
  wedge : 0 ≤ ccw w.1 w.2
  lt : ∀ i ∈ U, i < p.length
  bdry : (∃ i, o = .vertex i) ∨ ∃ e, o = .edgeInterior e
  left : ∀ h, InWedge w h → ∀ j, 0 < ccw h (sim.call (p.vertex j)) → 0 < ccw w.1 (sim.call (p.vertex j))
  right : ∀ h, InWedge w h → ∀ j, 0 < ccw (sim.call (p.vertex j)) h → 0 < ccw (sim.call (p.vertex j)) w.2
  enters : ∀ h t s, InWedge w h → S.Entry valid sim t h s → t.label = label → t.position = o →
    ∃ ε : K, 0 < ε ∧ ∀ r : K, 0 < r → r ≤ ε → p.pointPosition (t.point + r • t.vector) = .interior
  avoid : ∀ h t s, InWedge w h → S.Entry valid sim t h s → t.label = label → t.position = o → ∀ i ∈ U, t.point ≠ p.vertex i ∧ t.point ∉ p.openSide i
  exits : ∀ h t s, InWedge w h → S.Entry valid sim t h s → t.label = label → t.position = o →
    ∀ i < p.length, i ∉ U → ∀ x, x = p.vertex i ∨ x ∈ p.openSide i → ∀ r : K, sim.call x = r • h → r = s

/-- A direction of the wedge leaves the polygon at exactly one of the vertices or through exactly one of the edges that are looked at, and the
tests of the search tell which one it is. -/
theorem ScGood.step (hS : S.Closed valid) {sim : Similarity K} {label : L} {w : Vec K × Vec K} {p : Poly K} {o : Position} {U : List ℕ}
    (hG : S.ScGood valid sim label w p o U) {h : Vec K} (hw : InWedge w h) {t : TVec L K} {s0 : K} (ht : S.Entry valid sim t h s0) (hl : t.label = label)
    (ho : t.position = o) :
    ∃ s τ, S.IsChord valid s p τ ∧ s.start = t ∧ (∃ s1 : K, s0 < s1 ∧ sim.call s.stop.point = s1 • h) ∧
      (∃ i ∈ U, s.stop.position = .vertex i ∨ s.stop.position = .edgeInterior i) ∧
      ∀ i ∈ U, (s.stop.position = .vertex i ↔ ∃ c : K, sim.call (p.vertex i) = c • h) ∧
        (s.stop.position = .edgeInterior i ↔ 0 < ccw (sim.call (p.vertex i)) (sim.call (p.vertex (i + 1))) ∧
          InWedge (sim.call (p.vertex i), sim.call (p.vertex (i + 1))) h) := by
  have hB := hS.bordered
  have hv := hB.valid_of_polygon hG.mem hG.polygon
  obtain ⟨q, hq, -, hpos, -⟩ := isTangent_data hB ht.tangent
  rw [hl, hG.polygon] at hq; injection hq with hq; subst hq
  have hh : h ≠ 0 := inWedge_ne hw
  have hu : t.vector ≠ 0 := by
    intro h0
    apply hh
    rw [← ht.vector, h0]
    unfold Mat2.mulVec; ext <;> simp
  obtain ⟨τ, τ0, hint, hside'⟩ := chord_of_interior hv hu (hG.enters h t s0 hw ht hl ho)
  have hside : ∃ i, t.point ∈ p.side i := by
    rw [pointPosition_boundary hv, ← hpos, ho]
    exact hG.bdry
  -- the ray in the coordinates of the polygon
  set O := sim.inv.call 0 with hO
  have hOc : sim.call O = 0 := by
    have h1 : sim.inv.sign = 1 := hG.sign
    have := inv_call (Similarity.C01_inv_wf sim hG.wf) h1 (v := (0 : Vec K)) (w := O) rfl
    rwa [inv_inv_call hG.wf] at this
  have hcall : ∀ x, sim.call x = sim.derivative.mulVec (x - O) := fun x => by rw [← call_sub hG.sign, hOc, sub_zero]
  have hlin : ∀ (x : Vec K) (r : K), sim.call x = r • h ↔ x = O + r • t.vector := by
    intro x r
    rw [hcall, ← ht.vector, ← mulVec_smul]
    constructor
    · intro h; rw [← deriv_inj hG.wf hG.sign h]; abel
    · rintro rfl; rw [add_sub_cancel_left]
  have htp : t.point = O + s0 • t.vector := (hlin _ _).1 ht.point
  have hadd : ∀ r : K, t.point + r • t.vector = O + (s0 + r) • t.vector := fun r => by rw [htp, add_smul]; abel
  have hray : p.Ray O t.vector s0 (s0 + τ) := by
    refine ⟨by linarith, fun r r0 r1 => ?_, by rw [← htp]; exact hside, by rw [← hadd]; exact hside'⟩
    have := hint (r - s0) (by linarith) (by linarith)
    rwa [hadd, add_sub_cancel] at this
  have hN := hG.wf.normSq_pos
  have hccw : ∀ x y, ccw (sim.call x) (sim.call y) = (sim.a * sim.a + sim.b * sim.b) * ccw (x - O) (y - O) := fun x y => by
    rw [hcall, hcall, Similarity.ccw_derivative hG.sign]
  have hccw1 : ∀ x, ccw (sim.call x) h = (sim.a * sim.a + sim.b * sim.b) * ccw (x - O) t.vector := fun x => by
    rw [hcall, ← ht.vector, Similarity.ccw_derivative hG.sign]
  have hccw2 : ∀ x, ccw h (sim.call x) = (sim.a * sim.a + sim.b * sim.b) * ccw t.vector (x - O) := fun x => by
    rw [hcall, ← ht.vector, Similarity.ccw_derivative hG.sign]
  have hpi : ∀ z : K, 0 < (sim.a * sim.a + sim.b * sim.b) * z ↔ 0 < z := fun z =>
    ⟨fun h => (pos_iff_pos_of_mul_pos h).1 hN, fun h => mul_pos hN h⟩
  set x := t.point + τ • t.vector with hx
  have hx' : x = O + (s0 + τ) • t.vector := hadd τ
  refine ⟨⟨t, ⟨t.label, x, -t.vector, p.pointPosition x⟩⟩, τ, ?_, rfl, ⟨s0 + τ, by linarith, (hlin _ _).2 hx'⟩, ?_, ?_⟩
  · exact ⟨by show valid t.label; rw [hl]; exact hG.mem, by show S.polygon t.label = _; rw [hl]; exact hG.polygon, rfl, rfl, hu, τ0, rfl, hside, hside', hint,
      hpos, rfl⟩
  · have hout : ∀ i < p.length, x = p.vertex i ∨ x ∈ p.openSide i → i ∈ U := by
      intro i hi hxi
      by_contra hn
      have := hG.exits h t s0 hw ht hl ho i hi hn x hxi (s0 + τ) ((hlin _ _).2 hx')
      linarith
    rcases (pointPosition_boundary hv).1 hside' with ⟨i, hi⟩ | ⟨i, hi⟩
    · obtain ⟨h1, h2⟩ := (C12_vertex hv _ i).1 hi
      exact ⟨i, hout i h1 (.inl h2), .inl hi⟩
    · obtain ⟨h1, h2⟩ := (C12_edge hv _ i).1 hi
      exact ⟨i, hout i h1 (.inr h2), .inr hi⟩
  · intro i hi
    obtain ⟨a1, a2⟩ := hG.avoid h t s0 hw ht hl ho i hi
    rw [htp] at a1 a2
    dsimp only
    rw [hx']
    constructor
    · rw [hray.vertex_iff hv hG.convex (hG.lt i hi) a1]
      simp only [hlin]
    · rw [hray.edge_iff hv hG.convex ht.nonneg (hG.lt i hi) a2]
      unfold InWedge
      dsimp only
      rw [hccw, hccw1, hccw2, hpi, hpi, hpi]

/-- The polygon at whose vertex the search starts. -/
theorem good_root (hS : S.Closed valid) {l : L} (hl : valid l) {p : Poly K} (hp : S.polygon l = .ok p) (hc : p.Convex) {v : ℕ} (hv : v < p.length)
    (hsharp : 0 < ccw (p.edge (v + (p.length - 1))) (p.edge v)) :
    S.ScGood valid (Similarity.ofVec (-p.vertex v)) l (p.edge v, -p.edge (v + (p.length - 1))) p (.vertex v) (scVerts p.length v 2) := by
  have hB := hS.bordered
  have hV := hB.valid_of_polygon hl hp
  have hn : 2 ≤ p.length := by have := hV.len3; omega
  set w2 := -p.edge (v + (p.length - 1)) with hw2
  have hcall : ∀ x, (Similarity.ofVec (-p.vertex v)).call x = x - p.vertex v := fun x => by rw [ofVec_call, sub_eq_add_neg]
  have hprev : p.vertex (v + (p.length - 1) + 1) = p.vertex v := by
    rw [← vertex_mod, show v + (p.length - 1) + 1 = v + p.length by omega, Nat.add_mod_right, vertex_mod]
  have huv : 0 < ccw (p.edge v) w2 := by
    have : ccw (p.edge v) w2 = ccw (p.edge (v + (p.length - 1))) (p.edge v) := by
      rw [hw2]; unfold ccw; simp only [Prod.fst_neg, Prod.snd_neg]; ring
    rw [this]; exact hsharp
  have hr : ∀ j, 0 ≤ ccw (p.edge v) (p.vertex j - p.vertex v) := fun j => hc v j
  have hle : ∀ j, 0 ≤ ccw (p.vertex j - p.vertex v) w2 := by
    intro j
    have h1 := hc (v + (p.length - 1)) j
    have : ccw (p.vertex j - p.vertex v) w2 = ccw (p.edge (v + (p.length - 1))) (p.vertex j - p.vertex (v + (p.length - 1))) := by
      rw [hw2, ← hprev]
      unfold edge ccw
      simp only [Prod.fst_neg, Prod.snd_neg, Prod.fst_sub, Prod.snd_sub]
      ring
    rw [this]; exact h1
  have hpt : ∀ {t : TVec L K}, S.IsTangent valid t → t.label = l → t.position = .vertex v → t.point = p.vertex v := by
    intro t ht h1 h2
    obtain ⟨q, hq, -, hpos, -⟩ := isTangent_data hB ht
    rw [h1, hp] at hq; injection hq with hq; subst hq
    rw [hpos] at h2
    exact ((C12_vertex hV _ v).1 h2).2
  have hs0 : ∀ {h : Vec K} {t : TVec L K} {s : K}, h ≠ 0 → S.Entry valid (Similarity.ofVec (-p.vertex v)) t h s → t.label = l → t.position = .vertex v → s = 0 := by
    intro h t s hne ht h1 h2
    have := ht.point
    rw [hpt ht.tangent h1 h2, hcall, sub_self] at this
    by_contra hs
    apply hne
    rw [← one_smul K h, ← inv_mul_cancel₀ hs, ← smul_smul, ← this, smul_zero]
  exact {
    mem := hl
    polygon := hp
    convex := hc
    wf := ofVec_wf _
    sign := rfl
    wedge := huv.le
    lt := fun i hi => ((mem_scVerts_two hn hv).1 hi).1
    bdry := .inl ⟨v, rfl⟩
    left := fun h hw j hj => by
      rw [hcall] at hj ⊢
      exact root_left huv hw.1 hw.2 (hle j) hj
    right := fun h hw j hj => by
      rw [hcall] at hj ⊢
      exact root_right huv hw.1 hw.2 (hr j) hj
    enters := fun h t s hw ht h1 h2 => by
      rw [hpt ht.tangent h1 h2]
      have hvec := ht.vector
      rw [ofVec_deriv] at hvec
      rw [hvec]
      refine (vertex_local hV hv h).1 ?_
      have hw1 := hw.1
      have hw2' := hw.2
      rw [← hw2]
      dsimp only at hw1 hw2'
      unfold isBetween
      unfold ccw at hw1 hw2' huv
      rw [if_pos (by linarith), decide_eq_true_eq]
      constructor <;> linarith
    avoid := fun h t s hw ht h1 h2 i hi => by
      rw [hpt ht.tangent h1 h2]
      obtain ⟨i1, i2, -⟩ := (mem_scVerts_two hn hv).1 hi
      have hpos := (C12_vertex hV _ v).2 ⟨hv, rfl⟩
      constructor
      · intro he
        have := (C12_vertex hV _ i).2 ⟨i1, he⟩
        rw [hpos] at this
        injection this with this
        exact i2 this.symm
      · intro ho
        rw [(C12_edge hV _ i).2 ⟨i1, ho⟩] at hpos
        cases hpos
    exits := fun h t s hw ht h1 h2 i hi hU x hx r hr => by
      rw [hs0 (inWedge_ne hw) ht h1 h2]
      rw [mem_scVerts_two hn hv] at hU
      rw [hcall] at hr
      have hw1 := hw.1
      have hw2' := hw.2
      dsimp only at hw1 hw2'
      by_cases hiv : i = v
      · subst hiv
        have h0 : ccw (p.edge i) (x - p.vertex i) = 0 := by
          rcases hx with rfl | ⟨θ, -, -, rfl⟩
          · rw [sub_self]; unfold ccw; simp
          · rw [add_sub_cancel_left, ccw_smul_right, ccw_self, mul_zero]
        rw [hr, ccw_smul_right] at h0
        exact (mul_eq_zero.1 h0).resolve_right hw1.ne'
      · have hip : i = (v + p.length - 1) % p.length := by
          by_contra hne
          exact hU ⟨hi, hiv, hne⟩
        have hei : p.edge i = p.edge (v + (p.length - 1)) := by rw [hip, edge_mod, show v + p.length - 1 = v + (p.length - 1) by omega]
        have hvi : p.vertex i = p.vertex (v + (p.length - 1)) := by rw [hip, vertex_mod, show v + p.length - 1 = v + (p.length - 1) by omega]
        have hw2v : p.vertex (v + (p.length - 1)) - p.vertex v = w2 := by rw [hw2, ← hprev]; unfold edge; rw [neg_sub]
        have h0 : ccw (x - p.vertex v) w2 = 0 := by
          rcases hx with rfl | ⟨θ, -, -, rfl⟩
          · rw [hvi, hw2v, ccw_self]
          · have : p.vertex i + θ • p.edge i - p.vertex v = (1 - θ) • w2 := by
              rw [hvi, hei, sub_smul, one_smul, ← hw2v]
              have e1 : p.edge (v + (p.length - 1)) = -(p.vertex (v + (p.length - 1)) - p.vertex v) := by rw [hw2v, hw2, neg_neg]
              rw [e1, smul_neg]
              abel
            rw [this, ccw_smul_left, ccw_self, mul_zero]
        rw [hr, ccw_smul_left] at h0
        exact (mul_eq_zero.1 h0).resolve_right hw2'.ne' }

/-- The polygon on the other side of an edge. -/
theorem good_child (hS : S.Closed valid) {sim : Similarity K} {label : L} {w : Vec K × Vec K} {p : Poly K} {o : Position} {U : List ℕ}
    (hG : S.ScGood valid sim label w p o U) {i : ℕ} {l' : L} {e' : ℕ} {g : Similarity K} {p' : Poly K} (hg : S.GluesTo label i l' e' g)
    (hp' : S.polygon l' = .ok p') (he' : e' < p'.length) (hc' : p'.Convex)
    (h1 : 0 < ccw (sim.call (p.vertex i)) (sim.call (p.vertex (i + 1)))) (h2 : 0 < ccw w.1 (sim.call (p.vertex (i + 1))))
    (h3 : 0 < ccw (sim.call (p.vertex i)) w.2) :
    S.ScGood valid (sim.mul g.inv) l' (scWedge w (sim.call (p.vertex i)) (sim.call (p.vertex (i + 1)))) p' (.edgeInterior e') (scVerts p'.length e' 1) := by
  have hB := hS.bordered
  obtain ⟨hgs, hl'⟩ := gluesTo_symm hB hG.mem hg
  have hV := hB.valid_of_polygon hl' hp'
  obtain ⟨p1, p2, hp1, hp2, hi, g1, g2⟩ := hg.ends
  rw [hG.polygon] at hp1; injection hp1 with hp1; subst hp1
  rw [hp'] at hp2; injection hp2 with hp2; subst hp2
  have hcall : ∀ x, (sim.mul g.inv).call x = sim.call (g.inv.call x) := mul_call hG.sign hgs.sign
  have hP : (sim.mul g.inv).call (p'.vertex (e' + 1)) = sim.call (p.vertex i) := by rw [hcall, inv_call hg.wf hg.sign g1]
  have hQ : (sim.mul g.inv).call (p'.vertex e') = sim.call (p.vertex (i + 1)) := by rw [hcall, inv_call hg.wf hg.sign g2]
  set P := sim.call (p.vertex i) with hPd
  set Q := sim.call (p.vertex (i + 1)) with hQd
  have hwf : (sim.mul g.inv).WF := Similarity.C01_mul_wf _ _ hG.wf hgs.wf
  have hsg : (sim.mul g.inv).sign = 1 := mul_sign hG.sign hgs.sign
  obtain ⟨b1, b2, b3⟩ := scWedge_bounds hG.wedge h1 h2 h3
  have hsub : ∀ {h}, InWedge (scWedge w P Q) h → InWedge (P, Q) h := fun hw => ((scWedge_iff hG.wedge h1 h2 h3 _).1 hw).2
  have hedge : (sim.mul g.inv).derivative.mulVec (p'.edge e') = P - Q := by
    rw [← hP, ← hQ, call_sub hsg]; rfl
  have hfar : ∀ j, ccw P Q ≤ ccw P ((sim.mul g.inv).call (p'.vertex j)) + ccw ((sim.mul g.inv).call (p'.vertex j)) Q := by
    intro j
    set x := (sim.mul g.inv).call (p'.vertex j) with hx
    have e1 : ccw (P - Q) (x - Q) = ((sim.mul g.inv).a * (sim.mul g.inv).a + (sim.mul g.inv).b * (sim.mul g.inv).b) * ccw (p'.edge e') (p'.vertex j - p'.vertex e') := by
      rw [← Similarity.ccw_derivative hsg, hedge, ← call_sub hsg, hQ]
    have e2 := mul_nonneg hwf.normSq_pos.le (hc' e' j)
    rw [← e1] at e2
    have e3 : ccw (P - Q) (x - Q) = ccw P x + ccw x Q - ccw P Q := by
      unfold ccw; simp only [Prod.fst_sub, Prod.snd_sub]; ring
    linarith
  have hopen : ∀ {t : TVec L K}, S.IsTangent valid t → t.label = l' → t.position = .edgeInterior e' → t.point ∈ p'.openSide e' := by
    intro t ht a1 a2
    obtain ⟨q, hq, -, hpos, -⟩ := isTangent_data hB ht
    rw [a1, hp'] at hq; injection hq with hq; subst hq
    rw [hpos] at a2
    exact ((C12_edge hV _ e').1 a2).2
  have hpos : ∀ {h : Vec K}, InWedge (P, Q) h → 0 < ccw (P - Q) h := by
    intro h hw
    have : ccw (P - Q) h = ccw P h + ccw h Q := by unfold ccw; simp only [Prod.fst_sub, Prod.snd_sub]; ring
    rw [this]; exact add_pos hw.1 hw.2
  have hline : ∀ {x : Vec K}, x ∈ p'.openSide e' → ccw (P - Q) ((sim.mul g.inv).call x - Q) = 0 := by
    rintro x ⟨θ, -, -, rfl⟩
    rw [← hQ, call_sub hsg, add_sub_cancel_left, mulVec_smul, hedge, hQ, ccw_smul_right, ccw_self, mul_zero]
  exact {
    mem := hl'
    polygon := hp'
    convex := hc'
    wf := hwf
    sign := hsg
    wedge := b1
    lt := fun j hj => ((mem_scVerts_one he').1 hj).1
    bdry := .inr ⟨e', rfl⟩
    left := fun h hw j hj => beyond_left h1 (hfar j) (hsub hw).1 (hsub hw).2 b2 hw.1 hj
    right := fun h hw j hj => beyond_right h1 (hfar j) (hsub hw).1 (hsub hw).2 b3 hw.2 hj
    enters := fun h t s hw ht a1 a2 => by
      refine (side_local hV (hopen ht.tangent a1 a2) t.vector).1 ?_
      have e1 := hpos (hsub hw)
      rw [← hedge, ← ht.vector, Similarity.ccw_derivative hsg] at e1
      exact (pos_iff_pos_of_mul_pos e1).1 hwf.normSq_pos
    avoid := fun h t s hw ht a1 a2 j hj => by
      obtain ⟨j1, j2⟩ := (mem_scVerts_one he').1 hj
      have ho := hopen ht.tangent a1 a2
      have hpp := (C12_edge hV _ e').2 ⟨he', ho⟩
      constructor
      · intro he
        rw [(C12_vertex hV _ j).2 ⟨j1, he⟩] at hpp
        cases hpp
      · intro ho'
        rw [(C12_edge hV _ j).2 ⟨j1, ho'⟩] at hpp
        injection hpp with hpp
        exact j2 hpp
    exits := fun h t s hw ht a1 a2 j hj hU x hx r hr => by
      rw [mem_scVerts_one he'] at hU
      have hje : j = e' := by by_contra hne; exact hU ⟨hj, hne⟩
      subst hje
      have hin := hsub hw
      have k1 : ccw (P - Q) (r • h - Q) = 0 := by
        rcases hx with rfl | hx
        · exfalso
          rw [hQ] at hr
          have := hin.2
          dsimp only at this
          rw [hr, ccw_smul_right, ccw_self, mul_zero] at this
          exact lt_irrefl _ this
        · rw [← hr]; exact hline hx
      have k2 : ccw (P - Q) (s • h - Q) = 0 := by
        rw [← ht.point]; exact hline (hopen ht.tangent a1 a2)
      have k3 : (r - s) * ccw (P - Q) h = 0 := by
        have : (r - s) * ccw (P - Q) h = ccw (P - Q) (r • h - Q) - ccw (P - Q) (s • h - Q) := by
          unfold ccw; simp only [Prod.fst_sub, Prod.snd_sub, Prod.smul_fst, Prod.smul_snd, smul_eq_mul]; ring
        rw [this, k1, k2, sub_zero]
      exact sub_eq_zero.1 ((mul_eq_zero.1 k3).resolve_right (hpos hin).ne') }

/-- The tangent vector with which a segment that leaves a polygon through an edge enters the next polygon. -/
theorem entry_child (hS : S.Closed valid) {sim : Similarity K} {s : Seg L K} {p : Poly K} {τ : K} (hch : S.IsChord valid s p τ) {i : ℕ}
    (hi : s.stop.position = .edgeInterior i) {l' : L} {e' : ℕ} {g : Similarity K} (hg : S.GluesTo s.start.label i l' e' g) (hs : sim.sign = 1) {h : Vec K}
    {s1 : K} (h1 : sim.call s.stop.point = s1 • h) (h2 : sim.derivative.mulVec s.start.vector = h) (h3 : 0 ≤ s1) :
    S.tvInvert s.stop = .ok ⟨l', g.call s.stop.point, g.derivative.mulVec s.start.vector, .edgeInterior e'⟩ ∧ s.stop.singular = false ∧
      S.Entry valid (sim.mul g.inv) ⟨l', g.call s.stop.point, g.derivative.mulVec s.start.vector, .edgeInterior e'⟩ h s1 := by
  have hB := hS.bordered
  have hseg : S.IsSeg valid s := .inl ⟨p, τ, hch⟩
  have hns : s.stop.singular = false := by unfold TVec.singular; rw [hi]
  obtain ⟨e, q, hq, he, hpos, hc, -⟩ := isSeg_start hB (isSeg_invert hB hseg) hns
  have hpos : s.stop.position = .edgeInterior e := hpos
  rw [hi] at hpos; injection hpos with hpos; subst hpos
  rw [← hch.label] at hg
  obtain ⟨k1, k2⟩ := cross_at hS (C67_ends hB hseg).2 hq hi hc hg
  rw [hch.vector, neg_neg] at k1 k2
  have hgi : g.inv.sign = 1 := hg.sign
  refine ⟨k1, hns, k2, ?_, ?_, h3⟩
  · dsimp only
    rw [mul_call hs hgi, inv_call hg.wf hg.sign rfl, h1]
  · dsimp only
    rw [mul_deriv hs hgi, (inv_deriv hg.wf hg.sign _).1, h2]

end RSurf
end Flat
