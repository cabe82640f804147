import Verif.Lemmas.EdgeCocycle
import Verif.Props.HomologyMaps

/-!
# The chain of edges of a saddle connection
-/

namespace Flat
namespace RSurf
open Poly
variable {L K : Type} [DecidableEq L] [Field K] [LinearOrder K] [IsStrictOrderedRing K] {S : RSurf L K} {valid : L → Prop}
  {R : Type} [CommRing R]

/-- The trajectory of a saddle connection. -/
theorem saddle_flow (hS : S.Closed valid) {segs : List (Seg L K)} {a b : L × ℕ} {h k : Vec K} (hs : S.IsSaddleVia valid segs a h b k) {c : K} (hc : 0 < c)
    {n : ℕ} (hn : segs.length ≤ n + 1) : ∃ p t x q, 0 < q ∧ S.polygon a.1 = .ok p ∧ S.tangentVector a.1 (p.vertex a.2) (c • h) = .ok t ∧
      S.trajectory t = .ok x ∧ S.flowSteps n x = .ok ⟨segs.map (Seg.scale q), none, none⟩ ∧
      ((∃ first last G, S.IsDiagonal valid (segs.map (Seg.scale q)) a h b k first last G) ∨
        ∃ s p p' e e' g, segs.map (Seg.scale q) = [s] ∧ S.IsAlong valid s p p' e e' g ∧ a = (s.start.label, e) ∧ b = (s.stop.label, e') ∧
          h = p.edge e ∧ k = p'.edge e') := by
  have hB := hS.bordered
  suffices H : ∃ first rest last p q, 0 < q ∧ segs.map (Seg.scale q) = first :: rest ∧ (first :: rest).IsChain S.Follows ∧
      (∀ s ∈ first :: rest, S.IsSeg valid s) ∧ (first :: rest).getLast? = some last ∧ S.polygon a.1 = .ok p ∧
      first.start = ⟨a.1, p.vertex a.2, c • h, .vertex a.2⟩ ∧ last.stop.position = .vertex b.2 ∧
      ((∃ first last G, S.IsDiagonal valid (segs.map (Seg.scale q)) a h b k first last G) ∨
        ∃ s p p' e e' g, segs.map (Seg.scale q) = [s] ∧ S.IsAlong valid s p p' e e' g ∧ a = (s.start.label, e) ∧ b = (s.stop.label, e') ∧
          h = p.edge e ∧ k = p'.edge e') by
    obtain ⟨first, rest, last, p, q, q0, k0, k1, k2, k4, k5, k6, k7, k8⟩ := H
    have hlen : rest.length ≤ n := by
      have := congrArg List.length k0
      simp at this
      omega
    obtain ⟨x, x1, x2⟩ := trajectory_path hS k1 k2 (n := n) (fun s hs => by
      rw [k4] at hs; injection hs with hs; rw [← hs]; exact singular_iff.2 ⟨_, k7⟩) (by rw [k6]; rfl) hlen
    have hT := (isSeg_tangent hB (k2 first (by simp))).2
    rw [k6] at x1 hT
    refine ⟨p, _, x, q, q0, k5, hT, x1, ?_, k8⟩
    unfold flowSteps
    rw [if_pos (Int.natCast_nonneg n), Int.toNat_natCast, x2, k0]
  rcases hs with ⟨first, last, G, hd⟩ | ⟨s, p, p', e, e', g, rfl, hal, rfl, rfl, rfl, rfl⟩
  · obtain ⟨hk, r, r0, e1, e2⟩ := isDiagonal_holonomy hS hd
    have hcr := mul_pos hc r0
    have hd' := isDiagonal_scale hS hd hcr
    obtain ⟨rest, hsegs⟩ : ∃ rest, segs.map (Seg.scale (c * r)) = first.scale (c * r) :: rest := by
      have := hd'.head
      cases hh : segs.map (Seg.scale (c * r)) with
      | nil => rw [hh] at this; cases this
      | cons x y => rw [hh] at this; injection this with this; exact ⟨y, by rw [this]⟩
    have hd2 := hd'
    rw [hsegs] at hd'
    obtain ⟨p, τ, hch⟩ := hd'.chord _ (List.mem_cons_self ..)
    have hv := hB.valid_of_polygon hch.valid hch.polygon
    have hpos := hch.position
    rw [hd'.position] at hpos
    obtain ⟨hi, hpt⟩ := (C12_vertex hv _ _).1 hpos.symm
    refine ⟨first.scale (c * r), rest, last.scale (c * r), p, _, hcr, hsegs, hd'.chain, fun s hs => .inl (hd'.chord s hs), hd'.getLast, ?_, ?_,
      hd'.position', .inl ⟨_, _, _, hd2⟩⟩
    · rw [← hd'.label]; exact hch.polygon
    · rw [← hpt, ← hd'.position, ← hd'.label, e1, smul_smul]; rfl
  · have hv := hB.valid_of_polygon hal.valid hal.polygon
    obtain ⟨r, r0, hr⟩ := (C05_isParallel_iff _ _ (hv.edge_ne e)).1 hal.parallel
    have hq := div_pos hc r0
    have hal' := isAlong_scale hal hq
    have hvec : (s.scale (c / r)).start.vector = c • p.edge e := by
      show (c / r) • s.start.vector = _
      rw [hr, smul_smul, div_mul_cancel₀ _ r0.ne']
    refine ⟨s.scale (c / r), [], s.scale (c / r), p, _, hq, rfl, .singleton _, fun x hx => ?_, rfl, hal.polygon, ?_, ?_,
      .inr ⟨_, _, _, _, _, _, rfl, hal', rfl, rfl, rfl, rfl⟩⟩
    · rw [List.mem_singleton.1 hx]; exact .inr ⟨_, _, _, _, _, hal'⟩
    · rw [← hvec]
      show (s.scale (c / r)).start = ⟨s.start.label, p.vertex e, (c / r) • s.start.vector, .vertex e⟩
      rw [← hal.point, ← hal.position]; rfl
    · exact hal.position'

/-- The chain of a saddle connection. -/
theorem saddleChain_pairing (hS : S.Closed valid) {segs : List (Seg L K)} {a b : L × ℕ} {h k : Vec K} (hs : S.IsSaddleVia valid segs a h b k) {c : K}
    (hc : 0 < c) {n : ℕ} (hn : segs.length ≤ n + 1) {sx : List (L × ℕ)} (hsn : sx.Nodup) (hsx : ∀ d, S.IsDart valid d → d ∈ sx ∨ S.oppF d ∈ sx)
    (v : Saddle L K) (hv1 : v.start = a) (hv2 : v.direction = c • h) : ∃ f : L × ℕ → R, S.saddleChain sx n v = .ok f ∧ (∀ x, x ∉ sx → f x = 0) ∧
      ∀ {M : Type} [AddCommGroup M] [Module R M] (w : L × ℕ → M), S.EdgeCocycle valid w →
        (∀ first last G, S.IsDiagonal valid segs a h b k first last G → (sx.map fun x => f x • w x).sum = (segs.map (S.segValue w)).sum) ∧
        (∀ s p p' e e' g, segs = [s] → S.IsAlong valid s p p' e e' g → (sx.map fun x => f x • w x).sum = w a) := by
  have hB := hS.bordered
  obtain ⟨p, t, x, q, q0, h1, h2, h3, h4, h5⟩ := saddle_flow hS hs hc hn
  have hz : S.EdgeCocycle valid (fun _ => (0 : R)) := ⟨fun _ _ => by simp, fun _ _ => by simp⟩
  rcases h5 with ⟨first, last, G, hd⟩ | ⟨s, p1, p', e, e', g, hs1, hal, ha, hb, hh, hk⟩
  · have hrun : S.saddleChain (R := R) sx n v = S.segsChain sx (segs.map (Seg.scale q)) := by
      simp only [saddleChain, hv1, hv2, h1, h2, h3, h4, bind, Except.bind]
      split
      · next s hs' =>
        have hs' : segs.map (Seg.scale q) = [s] := hs'
        have : S.segIsEdge s = .ok false := by
          have hmem : s ∈ segs.map (Seg.scale q) := by rw [hs']; simp
          obtain ⟨p, τ, hch⟩ := hd.chord s hmem
          rcases C67_is_edge hB (.inl ⟨p, τ, hch⟩) with ⟨-, -, hx⟩ | ⟨hx, -⟩
          · exact absurd ⟨p, τ, hch⟩ hx
          · exact hx
        rw [this, hs']
        rfl
      · rfl
    obtain ⟨f, f1, f2, -⟩ := segsChain_pairing (R := R) hS hz hsn hsx _ hd.chord
    refine ⟨f, by rw [hrun, f1], f2, fun w hw => ⟨fun _ _ _ _ => ?_, fun s p p' e e' g hs1 hal => ?_⟩⟩
    · obtain ⟨f', f1', -, f3⟩ := segsChain_pairing (R := R) hS hw hsn hsx _ hd.chord
      rw [f1] at f1'
      cases f1'
      rw [f3, List.map_map]
      rfl
    · -- a chord is not an edge
      exfalso
      have hal' := isAlong_scale hal q0
      obtain ⟨p, τ, hch⟩ := hd.chord (s.scale q) (by rw [hs1]; simp)
      rcases C67_is_edge hB (.inl ⟨p, τ, hch⟩) with ⟨-, -, hx⟩ | ⟨-, -, -, hx⟩
      · exact hx ⟨p, τ, hch⟩
      · exact hx ⟨_, _, _, _, _, hal'⟩
  · have he : S.segIsEdge s = .ok true ∧ S.segEdge s = .ok e := by
      have h6 : S.segIsEdge s = .ok true := by
        rcases C67_is_edge hB (.inr ⟨_, _, _, _, _, hal⟩) with ⟨hx, -⟩ | ⟨-, -, -, hx⟩
        · exact hx
        · exact absurd ⟨_, _, _, _, _, hal⟩ hx
      refine ⟨h6, ?_⟩
      simp only [segEdge, h6, bind, Except.bind, hal.position]
      rfl
    have hrun : S.saddleChain (R := R) sx n v = S.toChain sx a := by
      simp only [saddleChain, hv1, hv2, h1, h2, h3, h4, hs1, bind, Except.bind, he.1, he.2]
      rw [ha]
      rfl
    have hda : S.IsDart valid a := by rw [ha]; exact ⟨hal.valid, p1, hal.polygon, hal.lt⟩
    obtain ⟨f, f1, f2, -⟩ := toChain_pairing (R := R) (w := fun _ => (0 : R)) hS hz.opp hsn hsx hda
    refine ⟨f, by rw [hrun, f1], f2, fun w hw => ⟨fun _ _ _ hd => ?_, fun _ _ _ _ _ _ _ _ => ?_⟩⟩
    · exfalso
      obtain ⟨p, τ, hch⟩ := (isDiagonal_scale hS hd q0).chord s (by rw [hs1]; simp)
      rcases C67_is_edge hB (.inl ⟨p, τ, hch⟩) with ⟨-, -, hx⟩ | ⟨-, -, -, hx⟩
      · exact hx ⟨p, τ, hch⟩
      · exact hx ⟨_, _, _, _, _, hal⟩
    · obtain ⟨f', f1', -, f3⟩ := toChain_pairing (R := R) hS hw.opp hsn hsx hda
      rw [f1] at f1'
      cases f1'
      exact f3

end RSurf
end Flat
