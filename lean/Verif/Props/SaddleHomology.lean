import Verif.Lemmas.SaddleChain
import Verif.Props.HomologyInstances
import Verif.Props.SaddleExamples

/-!
# C79: the homology class of a saddle connection
-/

namespace Flat
namespace RSurf
open Poly
variable {L K : Type} [DecidableEq L] [Field K] [LinearOrder K] [IsStrictOrderedRing K] {S : RSurf L K} {valid : L → Prop}
  {R : Type} [CommRing R]

theorem isSaddleVia_ends (hS : S.Closed valid) {segs : List (Seg L K)} {a b : L × ℕ} {h k : Vec K} (hs : S.IsSaddleVia valid segs a h b k) :
    S.IsDart valid a ∧ S.IsDart valid b := by
  rcases hs with ⟨first, last, G, hd⟩ | ⟨s, p, p', e, e', g, rfl, hal, rfl, rfl, rfl, rfl⟩
  · obtain ⟨p, τ, h1⟩ := hd.chord first (List.mem_of_head? hd.head)
    obtain ⟨q, σ, h2⟩ := hd.chord last (List.mem_of_getLast? hd.getLast)
    constructor
    · rcases chord_start_cases hS.bordered h1 with ⟨v, e1, e2, -⟩ | ⟨e, e1, -⟩
      · rw [hd.position] at e1
        cases e1
        exact (isDart_iff hS.bordered _).2 ⟨by rw [← hd.label]; exact h1.valid, by rw [← hd.label]; exact e2⟩
      · rw [hd.position] at e1; cases e1
    · rcases chord_stop_cases hS.bordered h2 with ⟨v, e1, e2, -⟩ | ⟨e, e1, -⟩
      · rw [hd.position'] at e1
        cases e1
        exact (isDart_iff hS.bordered _).2 ⟨by rw [← hd.label', h2.label]; exact h2.valid, by rw [← hd.label', h2.label]; exact e2⟩
      · rw [hd.position'] at e1; cases e1
  · have h1 : S.IsDart valid (s.start.label, e) := ⟨hal.valid, p, hal.polygon, hal.lt⟩
    refine ⟨h1, ?_⟩
    have := hS.oppF_dart h1
    rwa [show S.oppF (s.start.label, e) = _ from oppF_eq hal.opp] at this

/-- **C79.** The homology class of a saddle connection: the chain of edges is computed, it is a combination of the simplices of degree one, and its boundary is
the difference of the end and of the start of the saddle connection. -/
theorem C79_boundary (hS : S.Closed valid) (X : HData S valid R) {segs : List (Seg L K)} {a b : L × ℕ} {h k : Vec K}
    (hs : S.IsSaddleVia valid segs a h b k) {c : K} (hc : 0 < c) {n : ℕ} (hn : segs.length ≤ n + 1) (v : Saddle L K) (hv1 : v.start = a)
    (hv2 : v.direction = c • h) : ∃ f : L × ℕ → R, S.saddleChain X.sx n v = .ok f ∧ (∀ x, x ∉ X.sx → f x = 0) ∧
      ∃ va vb, S.surfaceVertex X.fuel a = .ok va ∧ S.surfaceVertex X.fuel b = .ok vb ∧
        S.boundary1 X.fuel ∅ (items X.sx f) = .ok (Pi.single vb 1 - Pi.single va 1) := by
  obtain ⟨s1, s2, s3, s4⟩ := X.simplices hS
  obtain ⟨d1, d2⟩ := X.darts hS
  obtain ⟨f, f1, f2, f3⟩ := saddleChain_pairing (R := R) hS hs hc hn s1 s3 v hv1 hv2
  obtain ⟨ha, hb⟩ := isSaddleVia_ends hS hs
  have hV : ∀ d, ∃ x, S.IsDart valid d → S.surfaceVertex X.fuel d = .ok x := by
    intro d
    by_cases hd : S.IsDart valid d
    · obtain ⟨x, hx⟩ := surfaceVertex_defined hS.bordered (fun d hd => (d2 d).2 hd) X.fuel_lt hd
      exact ⟨x, fun _ => hx⟩
    · exact ⟨∅, fun h => absurd h hd⟩
  choose V hV using hV
  refine ⟨f, f1, f2, V a, V b, hV a ha, hV b hb, ?_⟩
  rw [boundary1_items hS ∅ (fun d hd => hV d hd) s2]
  congr 1
  classical
  let φ : L × ℕ → Finset (L × Vec K) → R := fun d => if S.IsDart valid d then Pi.single (V d) 1 else 0
  have hφd : ∀ d, S.IsDart valid d → φ d = Pi.single (V d) 1 := fun d hd => if_pos hd
  have hφ : ∀ a b, S.SameVertex valid a b → φ a = φ b := by
    intro a b hab
    by_cases hda : S.IsDart valid a
    · have hdb := (sameVertex_valid hab).1 hda
      rw [hφd a hda, hφd b hdb, (surfaceVertex_eq_iff hS.bordered hda hdb (hV a hda) (hV b hdb)).2 hab]
    · have hdb : ¬ S.IsDart valid b := fun hdb => hda ((sameVertex_valid hab).2 hdb)
      exact (if_neg hda).trans (if_neg hdb).symm
  have hsum : (X.sx.map fun d => S.edgeBoundary ∅ V d (f d)).sum = (X.sx.map fun d => f d • (φ (S.oppF d) - φ d)).sum := by
    congr 1
    refine List.map_congr_left fun d hd => ?_
    rw [hφd d (s2 d hd), hφd _ (hS.oppF_dart (s2 d hd))]
    unfold edgeBoundary toC0
    simp only [Finset.notMem_empty, if_false, smul_sub, ← Pi.single_smul, smul_eq_mul, mul_one]
  rw [hsum, ← hφd a ha, ← hφd b hb]
  obtain ⟨w1, w2⟩ := f3 _ (vertex_cocycle hS hφ)
  rcases hs with ⟨first, last, G, hd⟩ | ⟨s, p, p', e, e', g, rfl, hal, rfl, rfl, rfl, rfl⟩
  · rw [w1 first last G hd, segs_vertex hS hφ segs hd.chord hd.chain hd.head hd.getLast]
    obtain ⟨q, σ, h2⟩ := hd.chord last (List.mem_of_getLast? hd.getLast)
    have e1 : (last.start.label, lastCorner last) = b := by
      unfold lastCorner
      rw [hd.position', ← h2.label, hd.label']
    have e2 : (first.start.label, S.firstCorner first) = a := by
      unfold firstCorner
      rw [hd.position, hd.label]
    rw [e1, e2]
  · rw [w2 s p p' e e' g rfl hal, show S.oppF (s.start.label, e) = _ from oppF_eq hal.opp]

/-- **C79.** The class of a saddle connection is a cycle exactly when the saddle connection starts and ends at the same vertex. -/
theorem C79_cycle [Nontrivial R] (hS : S.Closed valid) (X : HData S valid R) {segs : List (Seg L K)} {a b : L × ℕ} {h k : Vec K}
    (hs : S.IsSaddleVia valid segs a h b k) {c : K} (hc : 0 < c) {n : ℕ} (hn : segs.length ≤ n + 1) (v : Saddle L K) (hv1 : v.start = a)
    (hv2 : v.direction = c • h) : ∃ f : L × ℕ → R, S.saddleChain X.sx n v = .ok f ∧
      (S.boundary1 X.fuel ∅ (items X.sx f) = .ok 0 ↔ S.SameVertex valid a b) := by
  obtain ⟨f, f1, -, va, vb, f3, f4, f5⟩ := C79_boundary (R := R) hS X hs hc hn v hv1 hv2
  obtain ⟨ha, hb⟩ := isSaddleVia_ends hS hs
  refine ⟨f, f1, ?_⟩
  rw [f5, ← surfaceVertex_eq_iff hS.bordered ha hb f3 f4, Except.ok.injEq, sub_eq_zero]
  constructor
  · intro h
    have := congrFun h vb
    rw [Pi.single_eq_same, Pi.single_apply] at this
    by_contra hne
    rw [if_neg (Ne.symm hne)] at this
    exact one_ne_zero this
  · rintro rfl
    rfl

/-- **C79.** On a translation surface, the vectors of the edges with the coefficients of the class add up to the holonomy of the saddle connection. -/
theorem C79_holonomy [Module R K] (hS : S.Closed valid) (ht : S.Translation valid) (X : HData S valid R) {segs : List (Seg L K)} {a b : L × ℕ} {h k : Vec K}
    (hs : S.IsSaddleVia valid segs a h b k) {c : K} (hc : 0 < c) {n : ℕ} (hn : segs.length ≤ n + 1) (v : Saddle L K) (hv1 : v.start = a)
    (hv2 : v.direction = c • h) : ∃ f : L × ℕ → R, S.saddleChain X.sx n v = .ok f ∧
      ∀ u : L × ℕ → Vec K, (∀ l p e, valid l → S.polygon l = .ok p → u (l, e) = p.vertex (e + 1) - p.vertex e) → (X.sx.map fun d => f d • u d).sum = h := by
  obtain ⟨s1, s2, s3, s4⟩ := X.simplices hS
  obtain ⟨f, f1, f2, f3⟩ := saddleChain_pairing (R := R) hS hs hc hn s1 s3 v hv1 hv2
  refine ⟨f, f1, fun u hu => ?_⟩
  have hu' : ∀ l p e, valid l → S.polygon l = .ok p → u (l, e) = p.edge e := hu
  have hw : S.EdgeCocycle valid u := by
    constructor
    · rintro ⟨l, e⟩ hd
      obtain ⟨hl, p, hp, he⟩ := id hd
      have ho := hS.opp_oppF hd
      obtain ⟨hl', p', hp', he'⟩ := id (hS.oppF_dart hd)
      rw [show S.oppF (l, e) = ((S.oppF (l, e)).1, (S.oppF (l, e)).2) from rfl, hu' _ p' _ hl' hp', hu' _ p _ hl hp]
      exact ht l e _ _ p p' hl hp he ho hp'
    · intro l hl
      obtain ⟨p, hp, hv⟩ := hS.poly l hl
      have := potential_edges (l := l) (p := p) u (fun e => hu' l p e hl hp) (S.sides l)
      rw [sides_eq hp] at this ⊢
      refine this.trans ?_
      unfold Poly.vertex
      simp
  obtain ⟨w1, w2⟩ := f3 u hw
  rcases hs with ⟨first, last, G, hd⟩ | ⟨s, p, p', e, e', g, rfl, hal, rfl, rfl, rfl, rfl⟩
  · rw [w1 first last G hd]
    obtain ⟨p, τ, h1⟩ := hd.chord first (List.mem_of_head? hd.head)
    obtain ⟨q, σ, h2⟩ := hd.chord last (List.mem_of_getLast? hd.getLast)
    obtain ⟨h3, -⟩ := segs_vector hS ht hu' hd.develops hd.chord hd.chain hd.head hd.getLast h1.polygon h2.polygon
    rw [hd.holonomy, ← h3]
    have e1 : last.stop.point = q.vertex (lastCorner last) := by
      unfold lastCorner
      rw [hd.position']
      rcases chord_stop_cases hS.bordered h2 with ⟨v, e1, -, e2⟩ | ⟨e, e1, -⟩
      · rw [hd.position'] at e1; cases e1; exact e2
      · rw [hd.position'] at e1; cases e1
    have e2 : first.start.point = p.vertex (S.firstCorner first) := by
      unfold firstCorner
      rw [hd.position]
      rcases chord_start_cases hS.bordered h1 with ⟨v, e1, -, e2⟩ | ⟨e, e1, -⟩
      · rw [hd.position] at e1; cases e1; exact e2
      · rw [hd.position] at e1; cases e1
    rw [← e1, ← e2, sub_self, sub_self, add_zero, add_zero]
  · rw [w2 s p p' e e' g rfl hal]
    exact hu' _ _ _ hal.valid hal.polygon

/-- The chains that are boundaries. -/
def nullSubmodule (S : RSurf L K) (valid : L → Prop) (R : Type) [CommRing R] : Submodule R (L × ℕ → R) where
  carrier := { f | S.Null valid f }
  add_mem' := null_add
  zero_mem' := ⟨0, fun d _ => by simp [flow]⟩
  smul_mem' := by
    rintro c f ⟨w, hw⟩
    refine ⟨c • w, fun d hd => ?_⟩
    rw [flow_smul, hw d hd]
    simp [mul_sub]

/-- The class of an edge modulo boundaries of polygons. -/
theorem null_cocycle (hS : S.Closed valid) :
    S.EdgeCocycle valid fun d => (Submodule.Quotient.mk (Pi.single d 1) : (L × ℕ → R) ⧸ S.nullSubmodule valid R) where
  opp d hd := by
    rw [← Submodule.Quotient.mk_neg, Submodule.Quotient.eq]
    refine ⟨0, fun x hx => ?_⟩
    rw [sub_neg_eq_add, flow_add, flow_single_opp hS hx hd]
    simp
  face l hl := by
    have h1 := null_face (R := R) hS l
    have h2 : ((List.range (S.sides l)).map fun e => (Submodule.Quotient.mk (Pi.single (l, e) 1) : (L × ℕ → R) ⧸ S.nullSubmodule valid R)).sum =
        (S.nullSubmodule valid R).mkQ (pathSum R ((List.range (S.sides l)).map fun e => (l, e))) := by
      unfold pathSum
      rw [map_list_sum, List.map_map, List.map_map]
      rfl
    rw [h2]
    exact (Submodule.Quotient.mk_eq_zero _).2 h1

/-- **C79.** The class of a saddle connection and the class of the same saddle connection in the other direction add up to the boundary of a combination of
polygons. -/
theorem C79_invert (hS : S.Closed valid) (hself : ∀ d, S.IsDart valid d → S.opp d.1 d.2 ≠ .ok (some d)) (X : HData S valid R) {segs : List (Seg L K)}
    {a b : L × ℕ} {h k : Vec K} (hs : S.IsSaddleVia valid segs a h b k) {c c' : K} (hc : 0 < c) (hc' : 0 < c') {n : ℕ} (hn : segs.length ≤ n + 1)
    (v v' : Saddle L K) (hv1 : v.start = a) (hv2 : v.direction = c • h) (hv1' : v'.start = b) (hv2' : v'.direction = c' • k) :
    ∃ f f' : L × ℕ → R, S.saddleChain X.sx n v = .ok f ∧ S.saddleChain X.sx n v' = .ok f' ∧ ∃ w : L → R, S.boundary2 X.sx (items X.ls w) = .ok (f + f') := by
  obtain ⟨s1, s2, s3, s4⟩ := X.simplices hS
  obtain ⟨f, f1, f2, f3⟩ := saddleChain_pairing (R := R) hS hs hc hn s1 s3 v hv1 hv2
  obtain ⟨f', f1', f2', f3'⟩ := saddleChain_pairing (R := R) hS (C68_symm hS hs) hc' (n := n) (by simpa using hn) s1 s3 v' hv1' hv2'
  refine ⟨f, f', f1, f1', ?_⟩
  have hnot : ∀ d, d ∉ X.sx → (f + f') d = 0 := fun d hd => by rw [Pi.add_apply, f2 d hd, f2' d hd, add_zero]
  suffices H : S.Null valid (f + f') by
    rw [← chainOf_items X.sx s1 (f + f') hnot] at H ⊢
    exact (X.mem_B hS _).1 ((X.mem_B_null hS hself _).2 H)
  obtain ⟨w1, w2⟩ := f3 _ (null_cocycle (R := R) hS)
  obtain ⟨w1', w2'⟩ := f3' _ (null_cocycle (R := R) hS)
  have hmk : ∀ g : L × ℕ → R, (∀ x, x ∉ X.sx → g x = 0) →
      (X.sx.map fun x => g x • (Submodule.Quotient.mk (Pi.single x 1) : (L × ℕ → R) ⧸ S.nullSubmodule valid R)).sum = Submodule.Quotient.mk g := by
    intro g hg
    have h1 : (X.sx.map fun x => g x • (Pi.single x 1 : L × ℕ → R)).sum = g := by
      funext d
      have hev : ∀ gs : List (L × ℕ → R), gs.sum d = (gs.map fun y => y d).sum := fun gs => by
        induction gs with
        | nil => rfl
        | cons y gs ih => rw [List.sum_cons, Pi.add_apply, ih, List.map_cons, List.sum_cons]
      rw [hev, List.map_map]
      by_cases hd : d ∈ X.sx
      · have := sum_single X.sx s1 (fun (x : L × ℕ) (r : R) => r * g x) (fun x => zero_mul _) hd 1
        rw [one_mul] at this
        rw [← this]
        congr 1
        refine List.map_congr_left fun x _ => ?_
        simp only [Function.comp_apply, Pi.smul_apply, smul_eq_mul, Pi.single_apply, eq_comm (a := d)]
        ring
      · rw [hg d hd]
        refine List.sum_eq_zero fun y hy => ?_
        obtain ⟨x, hx, rfl⟩ := List.mem_map.1 hy
        simp only [Function.comp_apply, Pi.smul_apply, smul_eq_mul, Pi.single_apply]
        rw [if_neg (by rintro rfl; exact hd hx), mul_zero]
    have h2 := congrArg (S.nullSubmodule valid R).mkQ h1
    rw [map_list_sum, List.map_map] at h2
    exact h2
  rw [hmk f f2] at w1 w2
  rw [hmk f' f2'] at w1' w2'
  have goal : (Submodule.Quotient.mk (f + f') : (L × ℕ → R) ⧸ S.nullSubmodule valid R) = 0 → S.Null valid (f + f') := fun h =>
    (Submodule.Quotient.mk_eq_zero _).1 h
  refine goal ?_
  rw [Submodule.Quotient.mk_add]
  have hs' := C68_symm hS hs
  rcases hs with ⟨first, last, G, hd⟩ | ⟨s, p, p', e, e', g, rfl, hal, rfl, rfl, rfl, rfl⟩
  · rcases hs' with ⟨first', last', G', hd'⟩ | ⟨s, p, p', e, e', g, hs1, hal, -⟩
    · rw [w1 _ _ _ hd, w1' _ _ _ hd', List.map_reverse, List.sum_reverse, List.map_map, ← List.sum_map_add]
      refine (segs_invert hS (null_cocycle hS) segs hd.chord hd.chain hd.head hd.getLast).trans ?_
      rw [hd.position, hd.position']
      simp [edgeValue]
    · exfalso
      have hmem : s ∈ (segs.map Seg.invert).reverse := by rw [hs1]; simp
      rw [List.mem_reverse, List.mem_map] at hmem
      obtain ⟨x, hx, rfl⟩ := hmem
      obtain ⟨q, σ, h2⟩ := hd.chord x hx
      rcases C67_is_edge hS.bordered (.inl ⟨q, σ, isChord_invert h2⟩) with ⟨-, -, hx⟩ | ⟨-, -, -, hx⟩
      · exact hx ⟨q, σ, isChord_invert h2⟩
      · exact hx ⟨_, _, _, _, _, hal⟩
  · have h1 : S.IsDart valid (s.start.label, e) := ⟨hal.valid, p, hal.polygon, hal.lt⟩
    rw [w2 s p p' e e' g rfl hal, w2' s.invert _ _ _ _ _ rfl (isAlong_invert hS.bordered hal),
      show (s.stop.label, e') = S.oppF (s.start.label, e) from (oppF_eq hal.opp).symm, (null_cocycle (R := R) hS).opp _ h1, add_neg_cancel]

theorem exSq_not_self : ∀ d, exSq.IsDart (fun _ => True) d → exSq.opp d.1 d.2 ≠ .ok (some d) := by
  rintro ⟨⟨⟩, e⟩ ⟨-, p, hp, he⟩
  injection hp with hp
  subst hp
  have he : e < 4 := he
  interval_cases e <;> decide +kernel

/-- `C79_boundary`, `C79_cycle`, `C79_holonomy` and `C79_invert` for the saddle connection of the square torus with holonomy `(1, 2)`, which crosses an edge. -/
example : ∃ (X : HData exSq (fun _ => True) ℤ) (n : ℕ) (f f' : Unit × ℕ → ℤ),
    exSq.saddleChain X.sx n (saddleOf ((), 0) (1, 2) ((), 2) (-1, -2)) = .ok f ∧
    exSq.saddleChain X.sx n (saddleOf ((), 2) (-1, -2) ((), 0) (1, 2)) = .ok f' ∧
    (∀ u : Unit × ℕ → Vec ℚ, (∀ l p e, True → exSq.polygon l = .ok p → u (l, e) = p.vertex (e + 1) - p.vertex e) →
      (X.sx.map fun d => f d • u d).sum = (1, 2)) ∧
    (exSq.boundary1 X.fuel ∅ (items X.sx f) = .ok 0 ↔ exSq.SameVertex (fun _ => True) ((), 0) ((), 2)) ∧
    ∃ w : Unit → ℤ, exSq.boundary2 X.sx (items X.ls w) = .ok (f + f') := by
  obtain ⟨X, -⟩ := C78_homology_exists exSq_closed (fun _ _ _ _ => .refl _) exSq_not_self (ls := [()]) (by decide) (by decide) (by decide) ℤ
  obtain ⟨segs, hs⟩ := exSq_saddle
  have hd : (saddleOf ((), 0) (1, 2) ((), 2) (-1, -2) : Saddle Unit ℚ).direction = (1 / 2 : ℚ) • (1, 2) := by decide +kernel
  have hd' : (saddleOf ((), 2) (-1, -2) ((), 0) (1, 2) : Saddle Unit ℚ).direction = (1 / 2 : ℚ) • (-1, -2) := by decide +kernel
  have hn : segs.length ≤ segs.length + 1 := by omega
  obtain ⟨f, f1, f2⟩ := C79_holonomy (R := ℤ) exSq_closed exSq_translation X hs (by norm_num) hn _ rfl hd
  obtain ⟨g, g1, g2⟩ := C79_cycle (R := ℤ) exSq_closed X hs (by norm_num) hn _ rfl hd
  obtain ⟨k, k', k1, k2, k3⟩ := C79_invert (R := ℤ) exSq_closed exSq_not_self X hs (by norm_num) (by norm_num) hn _ _ rfl hd rfl hd'
  rw [f1] at g1 k1
  cases g1
  cases k1
  exact ⟨X, _, f, k', f1, k2, f2, g2, k3⟩

/-- The class of this saddle connection is the class of the horizontal edge plus twice the class of the vertical edge. -/
example : (exSq.saddleChain (R := ℤ) [((), 0), ((), 1)] 5 (saddleOf ((), 0) (1, 2) ((), 2) (-1, -2))).toOption.map (fun f => (f ((), 0), f ((), 1))) =
    some (1, 2) := by decide +kernel

end RSurf
end Flat
