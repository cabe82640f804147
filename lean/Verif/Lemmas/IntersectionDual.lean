import Verif.Lemmas.Duality
import Verif.Lemmas.HomologyRows
import Verif.Props.Intersection

/-!
# The intersection of chains in terms of permutations
-/

namespace Flat
namespace RSurf
open Duality
variable {L K : Type} [Field K] [LinearOrder K] [IsStrictOrderedRing K] {S : RSurf L K} {valid : L → Prop}

/-- Counterclockwise rotation about the vertices. -/
noncomputable def turnPerm (hS : S.Closed valid) : Equiv.Perm {d // S.IsDart valid d} := (nextPerm hS.bordered * oppPerm hS)⁻¹

theorem oppPerm_oppPerm (hS : S.Closed valid) (d : {d // S.IsDart valid d}) : oppPerm hS (oppPerm hS d) = d := (Function.Involutive.toPerm_involutive _) d

theorem next_opp_turn (hS : S.Closed valid) (d : {d // S.IsDart valid d}) : nextPerm hS.bordered (oppPerm hS (turnPerm hS d)) = d := by
  unfold turnPerm
  exact (nextPerm hS.bordered * oppPerm hS).apply_symm_apply d

variable [DecidableEq L]

theorem oppPerm_val (hS : S.Closed valid) (d : {d // S.IsDart valid d}) : (oppPerm hS d).1 = S.oppF d.1 := by
  have h := oppPerm_spec hS d
  rw [hS.opp_oppF d.2] at h
  injection h with h
  injection h with h
  exact h.symm

theorem nextPerm_val (hS : S.Closed valid) (d : {d // S.IsDart valid d}) : (nextPerm hS.bordered d).1 = S.nextF d.1 := rfl

/-- All edges of a connected surface are near each other. -/
theorem near_all (hS : S.Closed valid) (hc : S.Joined valid) (a b : {d // S.IsDart valid d}) : Near (oppPerm hS) (turnPerm hS) a b := by
  have h := joined_all hS hc (Q := fun x y => x = y ∨ ∃ (hx : S.IsDart valid x) (hy : S.IsDart valid y), Near (oppPerm hS) (turnPerm hS) ⟨x, hx⟩ ⟨y, hy⟩)
    ⟨fun _ => .inl rfl, fun h => ?_, fun h h' => ?_⟩ (fun d hd => ?_) (fun d hd => ?_) a.2 b.2
  · rcases h with h | ⟨hx, hy, h⟩
    · have : a = b := Subtype.ext h
      rw [this]
      exact .refl _
    · exact h
  · rcases h with h | ⟨hx, hy, h⟩
    · exact .inl h.symm
    · exact .inr ⟨hy, hx, .symm _ _ h⟩
  · rcases h with rfl | ⟨hx, hy, h⟩
    · exact h'
    · rcases h' with rfl | ⟨hy', hz, h'⟩
      · exact .inr ⟨hx, hy, h⟩
      · exact .inr ⟨hx, hz, .trans _ _ _ h h'⟩
  · refine .inr ⟨hd, hS.oppF_dart hd, .rel _ _ (.inr (Subtype.ext ?_))⟩
    rw [oppPerm_val]
  · have hnd : S.IsDart valid (S.nextF d) := (nextPerm hS.bordered ⟨d, hd⟩).2
    refine .inr ⟨hd, hnd, .trans _ (oppPerm hS ⟨d, hd⟩) _ (.rel _ _ (.inr rfl)) (.symm _ _ (.rel _ _ (.inl ?_)))⟩
    have h := next_opp_turn hS ⟨S.nextF d, hnd⟩
    have h2 : nextPerm hS.bordered ⟨d, hd⟩ = ⟨S.nextF d, hnd⟩ := rfl
    rw [← h2] at h
    have h3 := (nextPerm hS.bordered).injective h
    rw [← h2, ← oppPerm_oppPerm hS (turnPerm hS _)]
    exact congrArg (oppPerm hS) h3.symm

/-- `edges_ccw` in terms of the rotation. -/
theorem edgesCcw_turn (hS : S.Closed valid) {es : List (L × ℕ)} (hes : ∀ d, d ∈ es ↔ S.IsDart valid d) {fuel : ℕ} (hf : es.length < fuel)
    (x : {d // S.IsDart valid d}) : S.edgesCcw fuel x.1 =
      .ok ((List.range (Function.minimalPeriod (turnPerm hS) x)).map fun k => ((turnPerm hS)^[k] x).1) := by
  have hfin := dart_finite hes
  set n := Function.minimalPeriod (turnPerm hS) x with hn
  have hper : x ∈ Function.periodicPts (turnPerm hS) := by
    refine Function.mem_periodicPts.2 ⟨orderOf (turnPerm hS), orderOf_pos (turnPerm hS), ?_⟩
    show (turnPerm hS : _ → _)^[orderOf (turnPerm hS)] _ = _
    rw [← Equiv.Perm.coe_pow, pow_orderOf_eq_one]; rfl
  have hpos : 0 < n := Function.minimalPeriod_pos_of_mem_periodicPts hper
  have hnodup : ((List.range n).map (fun k => ((turnPerm hS)^[k] x).1)).Nodup := by
    refine List.Nodup.map_on ?_ List.nodup_range
    intro a ha b hb h
    exact Function.iterate_injOn_Iio_minimalPeriod (List.mem_range.1 ha) (List.mem_range.1 hb) (Subtype.ext h)
  have hle : n ≤ es.length := by
    have h1 : ((List.range n).map (fun k => ((turnPerm hS)^[k] x).1)).toFinset ⊆ es.toFinset := by
      intro y hy
      rw [List.mem_toFinset] at hy ⊢
      obtain ⟨k, -, rfl⟩ := List.mem_map.1 hy
      exact (hes _).2 (Subtype.prop _)
    have h2 := Finset.card_le_card h1
    rw [List.toFinset_card_of_nodup hnodup] at h2
    simp only [List.length_map, List.length_range] at h2
    exact h2.trans (List.toFinset_card_le _)
  obtain ⟨m, hm⟩ := Nat.exists_eq_succ_of_ne_zero (Nat.pos_iff_ne_zero.1 hpos)
  have := ccwLoop_eq hS x hn m 0 fuel (by omega) (by omega)
  rw [hm, List.range_eq_range']
  exact this

variable {R : Type} [CommRing R]

/-- The coefficients of a chain on the edges. -/
def onDarts (valid : L → Prop) (S : RSurf L K) (m : L × ℕ → R) (d : {d // S.IsDart valid d}) : R := m d.1

theorem flow_onDarts (hS : S.Closed valid) (m : L × ℕ → R) (d : {d // S.IsDart valid d}) :
    S.flow m d.1 = onDarts valid S m d - onDarts valid S m (oppPerm hS d) := by
  unfold flow onDarts
  rw [oppPerm_val]

/-- The contribution of the edges at a vertex in terms of counters. -/
theorem pairSum_counter (hS : S.Closed valid) (m o : L × ℕ → R) {c : {d // S.IsDart valid d} → R}
    (hc : ∀ d, c (turnPerm hS d) = c d + S.flow m d.1) (x : {d // S.IsDart valid d}) (κ : R) (n : ℕ) : ∀ j,
    S.pairSum m o (c ((turnPerm hS)^[j] x) + κ) ((List.range' j n).map fun k => ((turnPerm hS)^[k] x).1) =
      ((List.range' j n).map fun k => (c ((turnPerm hS)^[k] x) + m ((turnPerm hS)^[k] x).1) * S.flow o ((turnPerm hS)^[k] x).1).sum +
        κ * ((List.range' j n).map fun k => S.flow o ((turnPerm hS)^[k] x).1).sum := by
  induction n with
  | zero => intro j; simp [pairSum]
  | succ n ih =>
    intro j
    simp only [List.range'_succ, List.map_cons, pairSum, List.sum_cons]
    have h1 := ih (j + 1)
    rw [Function.iterate_succ_apply', hc] at h1
    rw [show c ((turnPerm hS)^[j] x) + κ + S.flow m ((turnPerm hS)^[j] x).1 = c ((turnPerm hS)^[j] x) + S.flow m ((turnPerm hS)^[j] x).1 + κ by ring, h1]
    ring

theorem sum_darts {fl : List (L × ℕ)} [Fintype {d // S.IsDart valid d}] (hn : fl.Nodup) (hm : ∀ d, d ∈ fl ↔ S.IsDart valid d) (f : L × ℕ → R) :
    (fl.map f).sum = ∑ d : {d // S.IsDart valid d}, f d.1 := by
  rw [← List.sum_toFinset f hn]
  exact Finset.sum_subtype fl.toFinset (fun d => by rw [List.mem_toFinset, hm]) f

/-- The pairing: where it is defined, and its value. -/
theorem algebraicIntersection_dual [DecidableEq R] [Fintype {d // S.IsDart valid d}] (hS : S.Closed valid) {es : List (L × ℕ)}
    (hes : ∀ d, d ∈ es ↔ S.IsDart valid d) {fuel : ℕ} (hf : es.length < fuel) {starts : List (L × ℕ)} (hst : S.IsStarts valid starts) (m o : L × ℕ → R) :
    ((∃ r, S.algebraicIntersection fuel starts m o = .ok r) ↔
      ClosedChain (oppPerm hS) (turnPerm hS) (onDarts valid S m) ∧ ClosedChain (oppPerm hS) (turnPerm hS) (onDarts valid S o)) ∧
    ∀ r, S.algebraicIntersection fuel starts m o = .ok r → ∀ c : {d // S.IsDart valid d} → R, (∀ d, c (turnPerm hS d) = c d + S.flow m d.1) →
      r = ∑ d, (c d + onDarts valid S m d) * (onDarts valid S o d - onDarts valid S o (oppPerm hS d)) := by
  obtain ⟨F, hF, hn, hm, -, -, hfa⟩ := algebraicIntersection_spec (R := R) hS hes hf hst
  have hl : ∀ l ∈ F, ∃ x : {d // S.IsDart valid d}, l = (List.range (Function.minimalPeriod (turnPerm hS) x)).map fun k => ((turnPerm hS)^[k] x).1 := by
    intro l hl
    obtain ⟨i, hi, rfl⟩ := List.getElem_of_mem hl
    have hlen := hfa.length_eq
    have h1 := (List.forall₂_iff_get.1 hfa).2 i (by omega) hi
    have hd := hst.dart starts[i] (List.getElem_mem _)
    have h2 := edgesCcw_turn hS hes hf ⟨starts[i], hd⟩
    have h3 := h1.1
    simp only [List.get_eq_getElem] at h3
    rw [h3] at h2
    injection h2 with h2
    exact ⟨⟨starts[i], hd⟩, h2⟩
  have hsumr : ∀ (f : L × ℕ → R) (n : ℕ) (x : {d // S.IsDart valid d}), (((List.range n).map fun k => ((turnPerm hS)^[k] x).1).map f).sum =
      ∑ i ∈ Finset.range n, f ((turnPerm hS)^[i] x).1 := by
    intro f n x
    induction n with
    | zero => rfl
    | succ n ih => rw [List.range_succ, List.map_append, List.map_append, List.sum_append, ih, Finset.sum_range_succ]; simp
  have hclosed : ∀ m : L × ℕ → R, (∀ l ∈ F, (l.map (S.flow m)).sum = 0) ↔ ClosedChain (oppPerm hS) (turnPerm hS) (onDarts valid S m) := by
    intro m
    constructor
    · intro h0 h hh
      classical
      rw [sum_vertices (oppPerm_oppPerm hS), neg_eq_zero]
      let h' : L × ℕ → R := fun d => if hd : S.IsDart valid d then h ⟨d, hd⟩ else 0
      have hh' : ∀ d : {d // S.IsDart valid d}, h' d.1 = h d := fun d => dif_pos d.2
      have e : ∑ d, h d * (onDarts valid S m d - onDarts valid S m (oppPerm hS d)) = (F.flatten.map fun d => h' d * S.flow m d).sum := by
        rw [sum_darts hn hm]
        refine Finset.sum_congr rfl fun d _ => ?_
        rw [hh', flow_onDarts hS]
      rw [e, sum_flatten_map]
      refine List.sum_eq_zero fun y hy => ?_
      obtain ⟨l, hlF, rfl⟩ := List.mem_map.1 hy
      have h1 := h0 l hlF
      obtain ⟨x, rfl⟩ := hl l hlF
      rw [hsumr] at h1 ⊢
      have h2 : ∀ i, h ((turnPerm hS)^[i] x) = h x := by
        intro i
        induction i with
        | zero => rfl
        | succ i ih => rw [Function.iterate_succ_apply', hh, ih]
      simp only [hh', h2]
      rw [← Finset.mul_sum, h1, mul_zero]
    · intro hc l hlF
      obtain ⟨x, rfl⟩ := hl l hlF
      rw [hsumr]
      have := (closedChain_iff (oppPerm_oppPerm hS) _).1 hc x
      simpa only [flow_onDarts hS] using this
  constructor
  · rw [← hclosed, ← hclosed]
    constructor
    · rintro ⟨r, hr⟩
      have h1 := ((hF m o r).1 hr).1
      exact ⟨fun l h => (h1 l h).1, fun l h => (h1 l h).2⟩
    · rintro ⟨h1, h2⟩
      exact ⟨_, (hF m o _).2 ⟨fun l h => ⟨h1 l h, h2 l h⟩, rfl⟩⟩
  · intro r hr c hc
    classical
    obtain ⟨h0, rfl⟩ := (hF m o r).1 hr
    let c' : L × ℕ → R := fun d => if hd : S.IsDart valid d then c ⟨d, hd⟩ else 0
    have hc' : ∀ d : {d // S.IsDart valid d}, c' d.1 = c d := fun d => dif_pos d.2
    have e : ∑ d, (c d + onDarts valid S m d) * (onDarts valid S o d - onDarts valid S o (oppPerm hS d)) =
        (F.flatten.map fun d => (c' d + m d) * S.flow o d).sum := by
      rw [sum_darts hn hm]
      refine Finset.sum_congr rfl fun d _ => ?_
      rw [hc', flow_onDarts hS]
      rfl
    rw [e, sum_flatten_map]
    congr 1
    refine List.map_congr_left fun l hlF => ?_
    have h1 := (h0 l hlF).2
    obtain ⟨x, rfl⟩ := hl l hlF
    have h2 := pairSum_counter hS m o hc x (- c x) (Function.minimalPeriod (turnPerm hS) x) 0
    rw [← List.range_eq_range'] at h2
    rw [List.map_map] at h1 ⊢
    simp only [Function.iterate_zero, id, add_neg_cancel] at h2
    rw [h2]
    have h3 : ((List.range (Function.minimalPeriod (turnPerm hS) x)).map fun k => S.flow o ((turnPerm hS)^[k] x).1).sum = 0 := h1
    rw [h3, mul_zero, add_zero]
    congr 1
    refine List.map_congr_left fun k _ => ?_
    show _ = (c' _ + _) * _
    rw [hc']

end RSurf
end Flat
