import Verif.Props.Flow
import Verif.Props.TangentEnters

/-!
# Segments of trajectories in a polygon: helper lemmas
-/

namespace Flat
variable {L K : Type} [Field K] [LinearOrder K] [IsStrictOrderedRing K]

namespace Poly

/-- What is next on the ray of a vector that points into a polygon. -/
theorem points_dir {p : Poly K} (hv : p.Valid) {pt v : Vec K} (h : RSurf.Points p pt v) :
    (∃ ε : K, 0 < ε ∧ ∀ s : K, 0 < s → s ≤ ε → p.pointPosition (pt + s • v) = .interior) ∨
    ∃ e < p.length, isParallel (p.edge e) v = true ∧ (pt ∈ p.openSide e ∨ pt = p.vertex e) := by
  cases hpos : p.pointPosition pt with
  | interior =>
    obtain ⟨ε, h0, h1⟩ := off_local hv (RSurf.not_side hv (.inl hpos)) v
    exact .inl ⟨ε, h0, fun s s0 s1 => by rw [h1 s s0 s1, hpos]⟩
  | outside => have := h.2; rw [hpos] at this; exact this.elim
  | edgeInterior e =>
    obtain ⟨he, hpt⟩ := (C12_edge hv pt e).1 hpos
    rcases ((RSurf.points_edge hv he hpt).1 h).2 with h1 | h1
    · exact .inl ((side_local hv hpt v).1 h1)
    · exact .inr ⟨e, he, h1, .inl hpt⟩
  | vertex i =>
    obtain ⟨hi, rfl⟩ := (C12_vertex hv pt i).1 hpos
    rcases ((RSurf.points_vertex hv hi).1 h).2 with h1 | h1
    · exact .inr ⟨i, hi, h1, .inr rfl⟩
    · exact .inl ((vertex_local hv hi v).1 h1)

/-- A ray along an edge reaches its end. -/
theorem along_end {p : Poly K} (hv : p.Valid) {e : ℕ} {pt v : Vec K} (hpar : isParallel (p.edge e) v = true) (hpt : pt ∈ p.openSide e ∨ pt = p.vertex e) :
    ∃ τ : K, 0 < τ ∧ pt + τ • v = p.vertex (e + 1) ∧ ∀ s : K, 0 < s → s < τ → pt + s • v ∈ p.openSide e := by
  obtain ⟨c, hc, rfl⟩ := (C05_isParallel_iff _ v (hv.edge_ne e)).1 hpar
  have hr : ∃ r : K, 0 ≤ r ∧ r < 1 ∧ pt = p.vertex e + r • p.edge e := by
    rcases hpt with ⟨r, r0, r1, h⟩ | h
    · exact ⟨r, r0.le, r1, h⟩
    · exact ⟨0, le_rfl, one_pos, by simp [h]⟩
  obtain ⟨r, r0, r1, rfl⟩ := hr
  refine ⟨(1 - r) / c, div_pos (by linarith) hc, ?_, fun s s0 s1 => ⟨r + s * c, ?_, ?_, ?_⟩⟩
  · rw [smul_smul, div_mul_cancel₀ _ hc.ne', add_assoc, ← add_smul]
    unfold edge
    ext <;> simp
  · have := mul_pos s0 hc; linarith
  · rw [lt_div_iff₀ hc] at s1; linarith
  · rw [smul_smul, add_assoc, ← add_smul]

theorem exit_chord {p : Poly K} (hv : p.Valid) {pt v : Vec K} (hne : v ≠ 0) {τ : K} (τ0 : 0 < τ)
    (hint : ∀ s : K, 0 < s → s < τ → p.pointPosition (pt + s • v) = .interior) (hside : ∃ i, pt + τ • v ∈ p.side i) :
    p.flowToExit pt v = .ok (pt + τ • v, p.pointPosition (pt + τ • v)) := by
  obtain ⟨t, t0, h1, ⟨i, hi⟩, h2⟩ := flow_to_exit_core hv hne ⟨τ, τ0, fun s s0 s1 => by rw [hint s s0 s1]; simp⟩
  have : t = τ := by
    rcases lt_trichotomy t τ with h | h | h
    · exact absurd hi (RSurf.not_side hv (.inl (hint t t0 h)) i)
    · exact h
    · exfalso
      obtain ⟨j, hj⟩ := hside
      rcases h2 with h2 | ⟨k, -, h2, -⟩
      · exact RSurf.not_side hv (.inl (h2 τ τ0 h)) j hj
      · have e1 := h2 (τ / 2) (half_pos τ0) (by linarith)
        rw [hint _ (half_pos τ0) (half_lt_self τ0)] at e1
        cases e1
  rw [h1, this]

theorem exit_edge {p : Poly K} (hv : p.Valid) {e : ℕ} (he : e < p.length) {pt v : Vec K} (hne : v ≠ 0) {τ : K} (τ0 : 0 < τ)
    (hend : pt + τ • v = p.vertex (e + 1)) (hopen : ∀ s : K, 0 < s → s < τ → pt + s • v ∈ p.openSide e) :
    p.flowToExit pt v = .ok (p.vertex (e + 1), .vertex ((e + 1) % p.length)) := by
  have hn : 0 < p.length := by omega
  have hpos : p.pointPosition (p.vertex (e + 1)) = .vertex ((e + 1) % p.length) :=
    (C12_vertex hv _ _).2 ⟨Nat.mod_lt _ hn, by rw [vertex_mod]⟩
  have hE : ∀ s : K, 0 < s → s < τ → p.pointPosition (pt + s • v) = .edgeInterior e := fun s s0 s1 => (C12_edge hv _ e).2 ⟨he, hopen s s0 s1⟩
  obtain ⟨t, t0, h1, ⟨i, hi⟩, h2⟩ := flow_to_exit_core hv hne ⟨τ, τ0, fun s s0 s1 => by rw [hE s s0 s1]; simp⟩
  have : t = τ := by
    rcases lt_trichotomy t τ with h | h | h
    · exfalso
      rcases h2 with h2 | ⟨k, hk, h2, h3⟩
      · have e1 := h2 (t / 2) (half_pos t0) (half_lt_self t0)
        rw [hE _ (half_pos t0) (by linarith)] at e1
        cases e1
      · have e1 := hE t t0 h
        rcases h3 with h3 | h3 <;> rw [h3] at e1
        · rw [(C12_vertex hv _ k).2 ⟨hk, rfl⟩] at e1; cases e1
        · rw [(C12_vertex hv (p.vertex (k + 1)) ((k + 1) % p.length)).2 ⟨Nat.mod_lt _ hn, by rw [vertex_mod]⟩] at e1; cases e1
    · exact h
    · exfalso
      rcases h2 with h2 | ⟨k, -, h2, -⟩
      · have e1 := h2 τ τ0 h; rw [hend, hpos] at e1; cases e1
      · have e1 := h2 τ τ0 h; rw [hend, hpos] at e1; cases e1
  rw [h1, this, hend, hpos]

/-- A ray that starts in the interior of the polygon meets the boundary. -/
theorem chord_of_interior {p : Poly K} (hv : p.Valid) {pt v : Vec K} (hne : v ≠ 0)
    (h : ∃ ε : K, 0 < ε ∧ ∀ s : K, 0 < s → s ≤ ε → p.pointPosition (pt + s • v) = .interior) :
    ∃ τ : K, 0 < τ ∧ (∀ s : K, 0 < s → s < τ → p.pointPosition (pt + s • v) = .interior) ∧ ∃ i, pt + τ • v ∈ p.side i := by
  obtain ⟨ε, ε0, hε⟩ := h
  obtain ⟨t, t0, -, hi, h2⟩ := flow_to_exit_core hv hne ⟨ε, ε0, fun s s0 s1 => by rw [hε s s0 s1.le]; simp⟩
  refine ⟨t, t0, ?_, hi⟩
  rcases h2 with h2 | ⟨k, -, h2, -⟩
  · exact h2
  · have hm : 0 < min ε (t / 2) := lt_min ε0 (half_pos t0)
    have e1 := h2 _ hm (lt_of_le_of_lt (min_le_right _ _) (half_lt_self t0))
    rw [hε _ hm (min_le_left _ _)] at e1
    cases e1

end Poly

namespace RSurf
open Poly
variable {S : RSurf L K} {valid : L → Prop}

/-- A vector from whose point one moves to the interior points into the polygon. -/
theorem points_of_interior {p : Poly K} (hv : p.Valid) {pt v : Vec K} (hne : v ≠ 0) {τ : K} (τ0 : 0 < τ)
    (hint : ∀ s : K, 0 < s → s < τ → p.pointPosition (pt + s • v) = .interior) : Points p pt v :=
  (points_iff_enters_all hv hne).2 (enters_interior hv ⟨τ / 2, half_pos τ0, fun s s0 s1 => hint s s0 (by linarith)⟩)

/-- The chord, run through in the other direction. -/
theorem chord_back {p : Poly K} {pt v : Vec K} {τ : K} (hint : ∀ s : K, 0 < s → s < τ → p.pointPosition (pt + s • v) = .interior) :
    ∀ s : K, 0 < s → s < τ → p.pointPosition (pt + τ • v + s • -v) = .interior := by
  intro s s0 s1
  have : pt + τ • v + s • -v = pt + (τ - s) • v := by rw [sub_smul, smul_neg]; abel
  rw [this]
  exact hint _ (by linarith) (by linarith)

theorem forward_chord (hS : S.Bordered valid) {l : L} (hl : valid l) {p : Poly K} (hp : S.polygon l = .ok p) {pt v : Vec K} {o : Position} (hne : v ≠ 0)
    {τ : K} (τ0 : 0 < τ) (hint : ∀ s : K, 0 < s → s < τ → p.pointPosition (pt + s • v) = .interior) (hside : ∃ i, pt + τ • v ∈ p.side i) :
    S.tvForward ⟨l, pt, v, o⟩ = .ok ⟨l, pt + τ • v, -v, p.pointPosition (pt + τ • v)⟩ := by
  have hv := hS.valid_of_polygon hl hp
  unfold tvForward
  simp only [hp, exit_chord hv hne τ0 hint hside, bind, Except.bind]
  exact C45_fixed hS hl hp (points_of_interior hv (neg_ne_zero.2 hne) τ0 (chord_back hint))

theorem forward_edge (hS : S.Bordered valid) {l l' : L} (hl : valid l) {p p' : Poly K} (hp : S.polygon l = .ok p) {e e' : ℕ} (he : e < p.length)
    (ho : S.opp l e = .ok (some (l', e'))) (hp' : S.polygon l' = .ok p') {g : Similarity K} (hg : g.WF) (hs : g.sign = 1)
    (g1 : g.call (p.vertex e) = p'.vertex (e' + 1)) (g2 : g.call (p.vertex (e + 1)) = p'.vertex e')
    {pt v : Vec K} {o : Position} (hpar : isParallel (p.edge e) v = true) (hpt : pt ∈ p.openSide e ∨ pt = p.vertex e) :
    S.tvForward ⟨l, pt, v, o⟩ = .ok ⟨l', p'.vertex e', -g.derivative.mulVec v, .vertex e'⟩ := by
  have hv := hS.valid_of_polygon hl hp
  obtain ⟨hl', q, hq, he', hb⟩ := hS.back hl hp he ho
  rw [hp'] at hq; injection hq with hq; subst hq
  have hv' := hS.valid_of_polygon hl' hp'
  have hne : v ≠ 0 := by
    rintro rfl
    have := ((isParallel_iff' _ _).1 hpar).2
    simp [dot] at this
  obtain ⟨τ, τ0, hend, hopen⟩ := along_end hv hpar hpt
  have hanti : isAntiParallel (p.edge e) (-v) = true := by rw [isAntiParallel_neg]; exact hpar
  have hgl : S.TVGlue valid (l, p.vertex (e + 1), -v) (l', p'.vertex e', -g.derivative.mulVec v) :=
    ⟨p, p', e, e', g, hl, hp, he, ho, hp', hg, hs, g1, g2, neg_ne_zero.2 hne, g2.symm, by
      dsimp only; rw [Similarity.call_add hs, Similarity.derivative_neg], .inr (.inr ⟨rfl, hanti⟩)⟩
  have hpts : Points p' (p'.vertex e') (-g.derivative.mulVec v) := by
    rw [points_vertex hv' he']
    refine ⟨neg_ne_zero.2 (Similarity.derivative_ne hg hs hne), .inl ?_⟩
    rw [← isParallel_neg_neg, neg_neg, ← derivative_edge hs g1 g2, Similarity.isParallel_derivative hg hs]
    exact hpar
  unfold tvForward
  simp only [hp, exit_edge hv he hne τ0 hend hopen, bind, Except.bind]
  rw [tangentVector_of_glue hS (tvGlue_symm hS hgl) hp' hpts, (C12_vertex hv' _ e').2 ⟨he', rfl⟩]

end RSurf
end Flat
