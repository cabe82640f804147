import Verif.Props.SaddleList
import Verif.Lemmas.BeamPlane

/-!
# The search for saddle connections comes to an end: helper lemmas
-/

namespace Flat
variable {L K : Type} [Field K] [LinearOrder K] [IsStrictOrderedRing K]

/-! ### Bounds for finitely many numbers -/

theorem exists_lower (xs : List K) : ∃ μ : K, 0 < μ ∧ ∀ x ∈ xs, 0 < x → μ ≤ x := by
  induction xs with
  | nil => exact ⟨1, one_pos, by simp⟩
  | cons x xs ih =>
    obtain ⟨μ, h0, h1⟩ := ih
    by_cases hx : 0 < x
    · refine ⟨min μ x, lt_min h0 hx, fun y hy hy0 => ?_⟩
      rcases List.mem_cons.1 hy with rfl | hy
      · exact min_le_right _ _
      · exact (min_le_left _ _).trans (h1 y hy hy0)
    · refine ⟨μ, h0, fun y hy hy0 => ?_⟩
      rcases List.mem_cons.1 hy with rfl | hy
      · exact absurd hy0 hx
      · exact h1 y hy hy0

theorem exists_upper (xs : List K) : ∃ M : K, 0 < M ∧ ∀ x ∈ xs, x ≤ M ^ 2 := by
  induction xs with
  | nil => exact ⟨1, one_pos, by simp⟩
  | cons x xs ih =>
    obtain ⟨M, h0, h1⟩ := ih
    refine ⟨M + |x| + 1, by have := abs_nonneg x; linarith, fun y hy => ?_⟩
    have hx := abs_nonneg x
    rcases List.mem_cons.1 hy with rfl | hy
    · have := le_abs_self y
      nlinarith [mul_nonneg h0.le hx, sq_nonneg (|y|)]
    · have := h1 y hy
      refine this.trans (pow_le_pow_left₀ h0.le (by linarith) 2)

theorem mod_succ_cases {i n : ℕ} (h : i < n) : (i + 1) % n = i + 1 ∧ i + 1 < n ∨ (i + 1) % n = 0 ∧ i + 1 = n := by
  rcases Nat.lt_or_ge (i + 1) n with h1 | h1
  · exact .inl ⟨Nat.mod_eq_of_lt h1, h1⟩
  · have : i + 1 = n := by omega
    exact .inr ⟨by rw [this, Nat.mod_self], this⟩

namespace Poly

/-- All vertices of the polygon that are not on an edge have at least a given distance from the line through the edge. -/
def Sep (p : Poly K) (μ : K) : Prop := ∀ e < p.length, ∀ j < p.length, j ≠ e → j ≠ (e + 1) % p.length → μ ≤ ccw (p.edge e) (p.vertex j - p.vertex e)

theorem strict_left {p : Poly K} (hv : p.Valid) (hc : p.Convex) (hs : ∀ v < p.length, 0 < ccw (p.edge (v + (p.length - 1))) (p.edge v)) {e j : ℕ}
    (he : e < p.length) (hj : j < p.length) (h1 : j ≠ e) (h2 : j ≠ (e + 1) % p.length) : 0 < ccw (p.edge e) (p.vertex j - p.vertex e) := by
  have hn := hv.len3
  by_contra hcon
  have h0 : ccw (p.edge e) (p.vertex j - p.vertex e) = 0 := le_antisymm (not_lt.1 hcon) (hc e j)
  have hne := hv.edge_ne e
  obtain ⟨c, hcc⟩ : ∃ c : K, p.vertex j - p.vertex e = c • p.edge e := by
    have hN := (_root_.Flat.normSq_pos' hne).ne'
    generalize p.vertex j - p.vertex e = u at h0 ⊢
    generalize p.edge e = w at h0 hN ⊢
    unfold ccw at h0
    refine ⟨(u.1 * w.1 + u.2 * w.2) / (w.1 * w.1 + w.2 * w.2), ?_⟩
    ext
    · simp only [Prod.smul_fst, smul_eq_mul]
      rw [div_mul_eq_mul_div, eq_div_iff hN]
      linear_combination (-w.2) * h0
    · simp only [Prod.smul_snd, smul_eq_mul]
      rw [div_mul_eq_mul_div, eq_div_iff hN]
      linear_combination (w.1) * h0
  have hpos := (C12_vertex hv _ j).2 ⟨hj, rfl⟩
  rcases lt_trichotomy c 0 with hc0 | hc0 | hc0
  · have k1 := hc (e + (p.length - 1)) j
    have hprev : p.vertex (e + (p.length - 1) + 1) = p.vertex e := by
      rw [← vertex_mod, show e + (p.length - 1) + 1 = e + p.length by omega, Nat.add_mod_right, vertex_mod]
    have k2 : p.vertex j - p.vertex (e + (p.length - 1)) = p.edge (e + (p.length - 1)) + c • p.edge e := by
      rw [← hcc, edge, hprev]; abel
    have k3 := hs e he
    rw [k2] at k1
    have k4 : ccw (p.edge (e + (p.length - 1))) (p.edge (e + (p.length - 1)) + c • p.edge e) = c * ccw (p.edge (e + (p.length - 1))) (p.edge e) := by
      unfold ccw; simp only [Prod.fst_add, Prod.snd_add, Prod.smul_fst, Prod.smul_snd, smul_eq_mul]; ring
    rw [k4] at k1
    exact absurd (mul_neg_of_neg_of_pos hc0 k3) (not_lt.2 k1)
  · rw [hc0, zero_smul, sub_eq_zero] at hcc
    have := (C12_vertex hv _ e).2 ⟨he, hcc⟩
    rw [hpos] at this; injection this with this; exact h1 this
  · rcases lt_trichotomy c 1 with hc1 | hc1 | hc1
    · have := (C12_edge hv (p.vertex j) e).2 ⟨he, c, hc0, hc1, by rw [← hcc]; abel⟩
      rw [hpos] at this; cases this
    · rw [hc1, one_smul] at hcc
      have h3 : p.vertex j = p.vertex ((e + 1) % p.length) := by
        rw [vertex_mod]; unfold edge at hcc
        exact sub_left_injective hcc
      have := (C12_vertex hv _ _).2 ⟨Nat.mod_lt (e + 1) (by omega), h3⟩
      rw [hpos] at this; injection this with this; exact h2 this
    · have k1 := hc (e + 1) j
      have k2 : p.vertex j - p.vertex (e + 1) = (c - 1) • p.edge e := by
        rw [sub_smul, one_smul, ← hcc]; unfold edge; abel
      have k3 := hs ((e + 1) % p.length) (Nat.mod_lt _ (by omega))
      have k5 : p.edge ((e + 1) % p.length + (p.length - 1)) = p.edge e := by
        rw [← edge_mod, Nat.mod_add_mod, show e + 1 + (p.length - 1) = e + p.length by omega, Nat.add_mod_right, edge_mod]
      rw [k5, edge_mod] at k3
      rw [k2, ccw_smul_right, ccw_swap] at k1
      have := mul_pos (sub_pos.2 hc1) k3
      linarith

theorem exists_sep {ps : List (Poly K)} (h : ∀ p ∈ ps, p.Valid ∧ p.Convex ∧ ∀ v < p.length, 0 < ccw (p.edge (v + (p.length - 1))) (p.edge v)) :
    ∃ μ : K, 0 < μ ∧ ∀ p ∈ ps, p.Sep μ := by
  obtain ⟨μ, h0, h1⟩ := exists_lower (ps.flatMap fun p => (List.range p.length).flatMap fun e => (List.range p.length).map fun j =>
    ccw (p.edge e) (p.vertex j - p.vertex e))
  refine ⟨μ, h0, fun p hp e he j hj a b => ?_⟩
  obtain ⟨x, y, z⟩ := h p hp
  refine h1 _ ?_ (strict_left x y z he hj a b)
  simp only [List.mem_flatMap, List.mem_map, List.mem_range]
  exact ⟨p, hp, e, he, j, hj, rfl⟩

theorem exists_len (ps : List (Poly K)) : ∃ M : K, 0 < M ∧ ∀ p ∈ ps, ∀ e < p.length, (p.edge e).1 ^ 2 + (p.edge e).2 ^ 2 ≤ M ^ 2 := by
  obtain ⟨M, h0, h1⟩ := exists_upper (ps.flatMap fun p => (List.range p.length).map fun e => (p.edge e).1 ^ 2 + (p.edge e).2 ^ 2)
  refine ⟨M, h0, fun p hp e he => h1 _ ?_⟩
  simp only [List.mem_flatMap, List.mem_map, List.mem_range]
  exact ⟨p, hp, e, he, rfl⟩

/-- Two edges of a strictly convex polygon that is put into the plane without changing lengths. -/
theorem Sep.step {p : Poly K} {μ : K} (h : p.Sep μ) (hn : 3 ≤ p.length) {g : Similarity K} (hs : g.sign = 1) (hi : g.a * g.a + g.b * g.b = 1) {e i : ℕ}
    (he : e < p.length) (hil : i < p.length) (hne : i ≠ e) :
    Beam.Step μ (g.call (p.vertex (e + 1))) (g.call (p.vertex e)) (g.call (p.vertex i)) (g.call (p.vertex (i + 1))) := by
  have key : ∀ e j, ccw (g.call (p.vertex (e + 1)) - g.call (p.vertex e)) (g.call (p.vertex j) - g.call (p.vertex e)) =
      ccw (p.edge e) (p.vertex j - p.vertex e) := by
    intro e j
    rw [RSurf.call_sub hs, RSurf.call_sub hs, Similarity.ccw_derivative hs, hi, one_mul]; rfl
  have key' : ∀ e < p.length, ∀ j, j % p.length ≠ e → j % p.length ≠ (e + 1) % p.length →
      μ ≤ ccw (g.call (p.vertex (e + 1)) - g.call (p.vertex e)) (g.call (p.vertex j) - g.call (p.vertex e)) := by
    intro e he j h1 h2
    rw [key, ← vertex_mod]
    exact h e he _ (Nat.mod_lt _ (by omega)) h1 h2
  have mi := mod_succ_cases hil
  have me := mod_succ_cases he
  have li := Nat.mod_eq_of_lt hil
  have le := Nat.mod_eq_of_lt he
  by_cases h1 : i = (e + 1) % p.length
  · right; left
    refine ⟨by rw [h1, vertex_mod], key' e he (i + 1) ?_ ?_, key' i hil e ?_ ?_⟩ <;> omega
  · by_cases h2 : (i + 1) % p.length = e
    · right; right
      refine ⟨by rw [← vertex_mod, h2], key' e he i ?_ ?_, key' i hil (e + 1) ?_ ?_⟩ <;> omega
    · left
      refine ⟨key' e he i ?_ ?_, key' e he (i + 1) ?_ ?_⟩ <;> omega

end Poly

theorem scWedge_pos {w : Vec K × Vec K} {a b : Vec K} (h0 : 0 < ccw w.1 w.2) (h1 : 0 < ccw a b) (h2 : 0 < ccw w.1 b) (h3 : 0 < ccw a w.2) :
    0 < ccw (RSurf.scWedge w a b).1 (RSurf.scWedge w a b).2 := by
  unfold RSurf.scWedge
  split_ifs <;> assumption

theorem inWedge_add {w : Vec K × Vec K} (h0 : 0 < ccw w.1 w.2) : InWedge w (w.1 + w.2) := by
  have e1 : ccw w.1 (w.1 + w.2) = ccw w.1 w.2 := by unfold ccw; simp only [Prod.fst_add, Prod.snd_add]; ring
  have e2 : ccw (w.1 + w.2) w.2 = ccw w.1 w.2 := by unfold ccw; simp only [Prod.fst_add, Prod.snd_add]; ring
  exact ⟨by rw [e1]; exact h0, by rw [e2]; exact h0⟩

namespace RSurf
open Poly
variable {S : RSurf L K} {valid : L → Prop}

theorem gluesTo_norm (hS : S.Closed valid) (hi : S.Isometric valid) {l l' : L} {e e' : ℕ} {g : Similarity K} (hl : valid l) (h : S.GluesTo l e l' e' g) :
    g.a * g.a + g.b * g.b = 1 := by
  obtain ⟨p, p', hp, hp', he, g1, g2⟩ := h.ends
  have e1 := derivative_edge h.sign g1 g2
  have e2 := hi _ _ _ _ p p' hl hp he h.opp hp'
  have hn := (normSq_pos' ((hS.bordered.valid_of_polygon hl hp).edge_ne e)).ne'
  have e3 : dot (g.derivative.mulVec (p.edge e)) (g.derivative.mulVec (p.edge e)) = dot (p.edge e) (p.edge e) := by
    rw [e1, e2]; unfold dot; simp
  have hs := h.sign
  generalize p.edge e = w at hn e3
  obtain ⟨a, b, s, t, σ⟩ := g
  dsimp only at hs
  subst hs
  unfold dot Similarity.derivative Mat2.mulVec at *
  dsimp only at *
  push_cast at *
  apply mul_left_cancel₀ hn
  linear_combination e3

omit [LinearOrder K] [IsStrictOrderedRing K] in
theorem mul_norm {f g : Similarity K} (hf : f.sign = 1) (h1 : f.a * f.a + f.b * f.b = 1) (h2 : g.a * g.a + g.b * g.b = 1) :
    (f.mul g).a * (f.mul g).a + (f.mul g).b * (f.mul g).b = 1 := by
  unfold Similarity.mul
  rw [hf]
  push_cast
  linear_combination (g.a * g.a + g.b * g.b) * h1 + h2

/-- What a node of the search satisfies. -/
structure Term (S : RSurf L K) (valid : L → Prop) (n : ScNode L K) : Prop where
  ok : S.NodeOk valid n
  wedge : 0 < ccw n.wedge.1 n.wedge.2
  norm : n.sim.a * n.sim.a + n.sim.b * n.sim.b = 1

/-- The search goes from the polygon `n` through the edge `i` to the polygon `m`. -/
def Child (S : RSurf L K) (bound : K) (n : ScNode L K) (p : Poly K) (i : ℕ) (m : ScNode L K) : Prop :=
  S.polygon n.label = .ok p ∧ i ∈ n.verts ∧
    S.scCross bound n.sim n.label n.wedge i (n.sim.call (p.vertex i)) (n.sim.call (p.vertex ((i + 1) % p.length))) = .ok [m]

structure ChildData (S : RSurf L K) (valid : L → Prop) (bound : K) (n : ScNode L K) (p : Poly K) (i : ℕ) (m : ScNode L K) (p' : Poly K) (e' : ℕ) : Prop where
  term : S.Term valid m
  lt : i < p.length
  mem : valid n.label
  mem' : valid m.label
  wedge : ∀ h, InWedge m.wedge h → InWedge n.wedge h ∧ InWedge (n.sim.call (p.vertex i), n.sim.call (p.vertex (i + 1))) h
  pos : 0 < ccw (n.sim.call (p.vertex i)) (n.sim.call (p.vertex (i + 1)))
  near : ∃ θ : K, 0 < θ ∧ θ < 1 ∧ Circle.distSq (n.sim.call (p.vertex i) + θ • (n.sim.call (p.vertex (i + 1)) - n.sim.call (p.vertex i))) 0 < bound
  polygon : S.polygon m.label = .ok p'
  lt' : e' < p'.length
  verts : m.verts = scVerts p'.length e' 1
  left : m.sim.call (p'.vertex (e' + 1)) = n.sim.call (p.vertex i)
  right : m.sim.call (p'.vertex e') = n.sim.call (p.vertex (i + 1))
  sign : m.sim.sign = 1
  sign' : n.sim.sign = 1

theorem child_data (hS : S.Closed valid) (hi : S.Isometric valid) (hconv : S.AllConvex valid) {bound : K} {n m : ScNode L K} {p : Poly K} {i : ℕ}
    (hn : S.Term valid n) (hc : S.Child bound n p i m) : ∃ p' e', S.ChildData valid bound n p i m p' e' := by
  obtain ⟨hp, hv, hc⟩ := hc
  have hok := (nodeOk_child hS hconv hn.ok hp hv hc).1
  obtain ⟨q, o, U, hG, h2, h3, h4⟩ := hn.ok
  have hq := hG.polygon
  rw [hp] at hq; injection hq with hq; subst hq
  have hiU := h2 i hv
  obtain ⟨l', e', g, p', g1, g2, g3, g4, g5⟩ := scCross_iff hS (bound := bound) (sim := n.sim) (w := n.wedge) hG.mem hG.polygon (hG.lt i hiU)
  obtain ⟨a1, a2, a3, a4, rfl⟩ := (g5 m).1 hc
  obtain ⟨hgs, -⟩ := gluesTo_symm hS.bordered hG.mem g1
  obtain ⟨p1, p2, hp1, hp2, -, k1, k2⟩ := g1.ends
  rw [hp] at hp1; injection hp1 with hp1; subst hp1
  rw [g3] at hp2; injection hp2 with hp2; subst hp2
  refine ⟨p', e', ⟨hok, scWedge_pos hn.wedge a1 a2 a3, mul_norm hG.sign hn.norm (gluesTo_norm hS hi g2 hgs)⟩, hG.lt i hiU, hG.mem, g2,
    fun h hw => (scWedge_iff hG.wedge a1 a2 a3 h).1 hw, a1, a4, g3, g4, rfl, ?_, ?_, mul_sign hG.sign hgs.sign, hG.sign⟩
  · rw [mul_call hG.sign hgs.sign, inv_call g1.wf g1.sign k1]
  · rw [mul_call hG.sign hgs.sign, inv_call g1.wf g1.sign k2]

/-- The edges that a ray of the search crosses one after the other. -/
theorem chain_bound [Archimedean K] (hS : S.Closed valid) (hi : S.Isometric valid) (hconv : S.AllStrict valid) {labels : List L}
    (hlab : ∀ l, valid l → l ∈ labels) (bound : K) :
    ∃ d : ℕ, ∀ (k : ℕ) (ns : ℕ → ScNode L K), S.Term valid (ns 0) → (∀ j < k, ∃ p i, S.Child bound (ns j) p i (ns (j + 1))) → k < d := by
  have hB := hS.bordered
  have hcx : S.AllConvex valid := fun l p h1 h2 => (hconv l p h1 h2).1
  -- the polygons of the surface
  obtain ⟨ps, hps, hps'⟩ : ∃ ps : List (Poly K), (∀ p ∈ ps, p.Valid ∧ p.Convex ∧ ∀ v < p.length, 0 < ccw (p.edge (v + (p.length - 1))) (p.edge v)) ∧
      ∀ l p, valid l → S.polygon l = .ok p → p ∈ ps := by
    classical
    refine ⟨labels.flatMap fun l => if valid l then (match S.polygon l with | .ok p => [p] | .error _ => []) else [], ?_, ?_⟩
    · intro p hp
      simp only [List.mem_flatMap] at hp
      obtain ⟨l, -, hp⟩ := hp
      by_cases hl : valid l
      · rw [if_pos hl] at hp
        cases hq : S.polygon l with
        | error e => rw [hq] at hp; cases hp
        | ok q =>
          rw [hq] at hp
          rw [List.mem_singleton] at hp
          subst hp
          exact ⟨hB.valid_of_polygon hl hq, (hconv l p hl hq).1, (hconv l p hl hq).2⟩
      · rw [if_neg hl] at hp; cases hp
    · intro l p hl hp
      simp only [List.mem_flatMap]
      exact ⟨l, hlab l hl, by rw [if_pos hl, hp]; simp⟩
  obtain ⟨μ, hμ, hsep⟩ := exists_sep hps
  obtain ⟨M, hM, hlen⟩ := exists_len ps
  obtain ⟨B, hB0, hBB⟩ := exists_upper [bound]
  obtain ⟨N, hN⟩ := Beam.crossings_bound hμ hM (2 * B + 2 * M)
  refine ⟨N + 1, fun k ns h0 hch => ?_⟩
  have hterm : ∀ j ≤ k, S.Term valid (ns j) := by
    intro j
    induction j with
    | zero => intro _; exact h0
    | succ j ih =>
      intro hj
      obtain ⟨p, i, hc⟩ := hch j (by omega)
      obtain ⟨_, _, hd⟩ := child_data hS hi hcx (ih (by omega)) hc
      exact hd.term
  have hch' : ∀ j : ℕ, ∃ (p : Poly K) (i : ℕ), j < k → S.Child bound (ns j) p i (ns (j + 1)) := by
    intro j
    by_cases hj : j < k
    · obtain ⟨p, i, hc⟩ := hch j hj; exact ⟨p, i, fun _ => hc⟩
    · exact ⟨[], 0, fun h => absurd h hj⟩
  choose p i hc using hch'
  have hw : ∀ d ≤ k, InWedge (ns (k - d)).wedge ((ns k).wedge.1 + (ns k).wedge.2) := by
    intro d
    induction d with
    | zero => intro _; exact inWedge_add (hterm k le_rfl).wedge
    | succ d ih =>
      intro hd
      obtain ⟨_, _, hdat⟩ := child_data hS hi hcx (hterm (k - (d + 1)) (by omega)) (hc (k - (d + 1)) (by omega))
      refine (hdat.wedge _ ?_).1
      rw [show k - (d + 1) + 1 = k - d by omega]
      exact ih (by omega)
  set h := (ns k).wedge.1 + (ns k).wedge.2 with hh
  have hw' : ∀ j ≤ k, InWedge (ns j).wedge h := fun j hj => by
    have := hw (k - j) (by omega)
    rwa [show k - (k - j) = j by omega] at this
  by_contra hk
  have hk0 : 0 < k := by omega
  have hlen' : ∀ j ≤ k - 1, ((ns j).sim.call ((p j).vertex (i j)) - (ns j).sim.call ((p j).vertex (i j + 1))).1 ^ 2 +
      ((ns j).sim.call ((p j).vertex (i j)) - (ns j).sim.call ((p j).vertex (i j + 1))).2 ^ 2 ≤ M ^ 2 := by
    intro j hj
    obtain ⟨_, _, hdat⟩ := child_data hS hi hcx (hterm j (by omega)) (hc j (by omega))
    have e1 := hlen (p j) (hps' _ _ hdat.mem (hc j (by omega)).1) (i j) hdat.lt
    refine le_trans (le_of_eq ?_) e1
    have e2 := (hterm j (by omega)).norm
    have e3 : (ns j).sim.call ((p j).vertex (i j)) - (ns j).sim.call ((p j).vertex (i j + 1)) = -((ns j).sim.derivative.mulVec ((p j).edge (i j))) := by
      rw [← neg_sub, call_sub hdat.sign']; rfl
    rw [e3]
    have hs := hdat.sign'
    generalize (p j).edge (i j) = w
    generalize (ns j).sim = g at e2 hs ⊢
    obtain ⟨a, b, s, t, σ⟩ := g
    dsimp only at hs e2
    subst hs
    unfold Similarity.derivative Mat2.mulVec
    simp only [Prod.fst_neg, Prod.snd_neg]
    push_cast
    linear_combination (w.1 ^ 2 + w.2 ^ 2) * e2
  have := hN (fun j => (ns j).sim.call ((p j).vertex (i j))) (fun j => (ns j).sim.call ((p j).vertex (i j + 1))) h (k - 1) ?_ hlen' ?_ ?_
  · omega
  · intro j hj
    obtain ⟨_, _, hdat⟩ := child_data hS hi hcx (hterm j (by omega)) (hc j (by omega))
    exact (hdat.wedge _ (hw' (j + 1) (by omega))).2
  · intro j hj
    obtain ⟨p', e', hdat⟩ := child_data hS hi hcx (hterm j (by omega)) (hc j (by omega))
    obtain ⟨_, _, hdat'⟩ := child_data hS hi hcx (hterm (j + 1) (by omega)) (hc (j + 1) (by omega))
    have hpp := (hc (j + 1) (by omega)).1
    have hii := (hc (j + 1) (by omega)).2.1
    rw [hdat.polygon] at hpp; injection hpp with hpp
    rw [hdat.verts, mem_scVerts_one hdat.lt'] at hii
    rw [← hpp]
    rw [← hdat.left, ← hdat.right]
    exact (hsep p' (hps' _ _ hdat.mem' hdat.polygon)).step (hB.valid_of_polygon hdat.mem' hdat.polygon).len3 hdat.sign hdat.term.norm hdat.lt' hii.1 hii.2
  · intro j hj
    obtain ⟨_, _, hdat⟩ := child_data hS hi hcx (hterm j (by omega)) (hc j (by omega))
    obtain ⟨θ, t0, t1, hy⟩ := hdat.near
    refine Beam.time_le hM.le hB0.le (hdat.wedge _ (hw' (j + 1) (by omega))).2 (hlen' j hj) hdat.pos.le rfl t0.le t1.le ?_
    unfold Circle.distSq at hy
    simp only [Prod.fst_zero, Prod.snd_zero, sub_zero] at hy
    exact hy.le.trans (hBB bound (by simp))

end RSurf
end Flat
