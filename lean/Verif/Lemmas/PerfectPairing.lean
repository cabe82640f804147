import Verif.Lemmas.IntersectionDual
import Mathlib.LinearAlgebra.PerfectPairing.Basic

/-!
# The intersection form on homology
-/

namespace Flat
namespace RSurf
open Duality Betti
variable {L K : Type} [Field K] [LinearOrder K] [IsStrictOrderedRing K] {S : RSurf L K} {valid : L → Prop} [DecidableEq L] {R : Type} [CommRing R]

theorem chainOf_get {sx : List (L × ℕ)} (hn : sx.Nodup) (x : Fin sx.length → R) (i : Fin sx.length) : chainOf sx x sx[i] = x i := by
  unfold chainOf
  rw [Finset.sum_eq_single i]
  · rw [if_pos rfl]
  · intro j _ hj
    rw [if_neg]
    intro h
    exact hj (Fin.ext (hn.getElem_inj_iff.1 h))
  · simp

theorem chainOf_not {sx : List (L × ℕ)} (x : Fin sx.length → R) {d : L × ℕ} (h : d ∉ sx) : chainOf sx x d = 0 := by
  unfold chainOf
  refine Finset.sum_eq_zero fun i _ => if_neg ?_
  rintro rfl
  exact h (List.getElem_mem i.2)

theorem chainOf_add {sx : List (L × ℕ)} (x y : Fin sx.length → R) : chainOf sx (x + y) = chainOf sx x + chainOf sx y := by
  funext d
  simp only [chainOf, Pi.add_apply]
  rw [← Finset.sum_add_distrib]
  refine Finset.sum_congr rfl fun i _ => by split_ifs <;> simp

theorem chainOf_smul {sx : List (L × ℕ)} (r : R) (x : Fin sx.length → R) : chainOf sx (r • x) = r • chainOf sx x := by
  funext d
  simp only [chainOf, Pi.smul_apply, smul_eq_mul]
  rw [Finset.mul_sum]
  refine Finset.sum_congr rfl fun i _ => by split_ifs <;> simp

/-- Sums over the edges in terms of the simplices. -/
theorem sum_chainOf [Fintype {d // S.IsDart valid d}] {sx : List (L × ℕ)} (hn : sx.Nodup) (hsx : ∀ d ∈ sx, S.IsDart valid d) (x : Fin sx.length → R)
    (f : {d // S.IsDart valid d} → R) :
    ∑ d, onDarts valid S (chainOf sx x) d * f d = ∑ i : Fin sx.length, x i * f ⟨sx[i], hsx _ (List.getElem_mem i.2)⟩ := by
  classical
  symm
  refine Finset.sum_of_injOn (fun i : Fin sx.length => (⟨sx[i], hsx _ (List.getElem_mem i.2)⟩ : {d // S.IsDart valid d})) ?_ (fun _ _ => Finset.mem_coe.2 (Finset.mem_univ _)) ?_ ?_
  · intro i _ j _ h
    exact Fin.ext (hn.getElem_inj_iff.1 (Subtype.mk.inj h))
  · intro d _ hd
    unfold onDarts
    rw [chainOf_not, zero_mul]
    intro hm
    obtain ⟨i, hi, e⟩ := List.getElem_of_mem hm
    exact hd ⟨⟨i, hi⟩, Finset.mem_coe.2 (Finset.mem_univ _), Subtype.ext e⟩
  · intro i _
    unfold onDarts
    rw [chainOf_get hn]

/-- The vertex is the same after a turn. -/
theorem turn_vertex (hS : S.Closed valid) {fuel : ℕ} {V : L × ℕ → Finset (L × Vec K)} (hV : ∀ d, S.IsDart valid d → S.surfaceVertex fuel d = .ok (V d))
    (d d' : {d // S.IsDart valid d}) : V d.1 = V d'.1 ↔ (turnPerm hS).SameCycle d d' := by
  rw [surfaceVertex_eq_iff hS.bordered d.2 d'.2 (hV d.1 d.2) (hV d'.1 d'.2), sameVertex_perm hS]
  unfold turnPerm
  rw [Equiv.Perm.sameCycle_inv]

/-- Cycles are the closed chains. -/
theorem ker_closed_iff [Fintype {d // S.IsDart valid d}] (hS : S.Closed valid) {fuel : ℕ} {V : L × ℕ → Finset (L × Vec K)}
    (hV : ∀ d, S.IsDart valid d → S.surfaceVertex fuel d = .ok (V d)) {sx : List (L × ℕ)} (hn : sx.Nodup) (hsx : ∀ d ∈ sx, S.IsDart valid d)
    {vx : List (Finset (L × Vec K))} (hvn : vx.Nodup) (hvx : ∀ d, S.IsDart valid d → V d ∈ vx) (hvd : ∀ v ∈ vx, ∃ d, S.IsDart valid d ∧ V d = v) (x : Fin sx.length → R) :
    x ∈ LinearMap.ker (rowMap (sx.map fun d => vx.map (S.edgeBoundary ∅ V d (1 : R))) sx.length vx.length) ↔
      ClosedChain (oppPerm hS) (turnPerm hS) (onDarts valid S (chainOf sx x)) := by
  classical
  have hrow : ∀ j : Fin vx.length, rowMap (sx.map fun d => vx.map (S.edgeBoundary ∅ V d (1 : R))) sx.length vx.length x j =
      ∑ i : Fin sx.length, x i * ((if V (S.oppF sx[i]) = vx[j] then 1 else 0) - (if V sx[i] = vx[j] then 1 else 0)) := by
    intro j
    rw [rowMap_apply]
    refine Finset.sum_congr rfl fun i _ => ?_
    rw [getD_map_map]
    simp only [edgeBoundary, toC0, Pi.sub_apply, Finset.notMem_empty, if_false, Pi.single_apply, eq_comm]
  rw [LinearMap.mem_ker]
  constructor
  · intro h f hf
    have hconst : ∀ a b : {d // S.IsDart valid d}, (turnPerm hS).SameCycle a b → f a = f b := by
      rintro a b ⟨k, rfl⟩
      · symm
        have hp : ∀ n : ℕ, ∀ a, f (((turnPerm hS) ^ n) a) = f a := by
          intro n
          induction n with
          | zero => intro a; rfl
          | succ n ih => intro a; rw [pow_succ', Equiv.Perm.mul_apply, hf, ih]
        obtain ⟨n, rfl | rfl⟩ := k.eq_nat_or_neg
        · rw [zpow_natCast, hp]
        · have := hp n (((turnPerm hS) ^ (-(n : ℤ))) a)
          rw [← this, zpow_neg, zpow_natCast, ← Equiv.Perm.mul_apply, mul_inv_cancel]
          rfl
    have hrep : ∀ j : Fin vx.length, ∃ d : {d // S.IsDart valid d}, V d.1 = vx[j] := by
      intro j
      obtain ⟨d, hd, e⟩ := hvd vx[j] (List.getElem_mem j.2)
      exact ⟨⟨d, hd⟩, e⟩
    choose rep hrep using hrep
    have hval : ∀ d : {d // S.IsDart valid d}, f d = ∑ j : Fin vx.length, f (rep j) * (if V d.1 = vx[j] then 1 else 0) := by
      intro d
      obtain ⟨j, hj, e⟩ := List.getElem_of_mem (hvx d.1 d.2)
      rw [Finset.sum_eq_single (⟨j, hj⟩ : Fin vx.length)]
      · rw [if_pos (show V d.1 = vx[(⟨j, hj⟩ : Fin vx.length)] from e.symm), mul_one]
        exact hconst _ _ ((turn_vertex hS hV _ _).1 (e.symm.trans (hrep ⟨j, hj⟩).symm))
      · intro k _ hk
        rw [if_neg, mul_zero]
        intro h'
        exact hk (Fin.ext (hvn.getElem_inj_iff.1 (h'.symm.trans e.symm)))
      · simp
    rw [sum_chainOf hn hsx]
    have h1 : ∀ i : Fin sx.length, x i * (f (oppPerm hS ⟨sx[i], hsx _ (List.getElem_mem i.2)⟩) - f ⟨sx[i], hsx _ (List.getElem_mem i.2)⟩) =
        ∑ j : Fin vx.length, f (rep j) * (x i * ((if V (S.oppF sx[i]) = vx[j] then 1 else 0) - (if V sx[i] = vx[j] then 1 else 0))) := by
      intro i
      rw [hval (oppPerm hS _), hval ⟨sx[i], _⟩, ← Finset.sum_sub_distrib, Finset.mul_sum]
      refine Finset.sum_congr rfl fun j _ => ?_
      rw [oppPerm_val]
      ring
    simp only [h1]
    rw [Finset.sum_comm]
    refine Finset.sum_eq_zero fun j _ => ?_
    rw [← Finset.mul_sum, ← hrow, h]
    simp
  · intro h
    funext j
    rw [hrow, Pi.zero_apply]
    have := h (fun d => if V d.1 = vx[j] then 1 else 0) (fun d => by
      have : V (turnPerm hS d).1 = V d.1 := (turn_vertex hS hV _ _).2 (Equiv.Perm.sameCycle_apply_left.2 (Equiv.Perm.SameCycle.refl _ _))
      simp only [this])
    rw [sum_chainOf hn hsx] at this
    refine Eq.trans (Finset.sum_congr rfl fun i _ => ?_) this
    rw [oppPerm_val]

/-- The flow of a chain of simplices, if no edge is glued to itself. -/
theorem flow_chainOf (hS : S.Closed valid) {sx : List (L × ℕ)} (hn : sx.Nodup) (hsx : ∀ d ∈ sx, S.IsDart valid d)
    (hsx2 : ∀ d, S.IsDart valid d → d ∈ sx ∨ S.oppF d ∈ sx) (hsx3 : ∀ d ∈ sx, S.oppF d ∈ sx → S.oppF d = d) (hself : ∀ d, S.IsDart valid d → S.oppF d ≠ d)
    {x : Fin sx.length → R} {w : {d // S.IsDart valid d} → R} (hw : ∀ d, w (oppPerm hS d) = - w d) (hx : ∀ i : Fin sx.length, x i = w ⟨sx[i], hsx _ (List.getElem_mem i.2)⟩)
    (d : {d // S.IsDart valid d}) : onDarts valid S (chainOf sx x) d - onDarts valid S (chainOf sx x) (oppPerm hS d) = w d := by
  have key : ∀ d : {d // S.IsDart valid d}, d.1 ∈ sx → onDarts valid S (chainOf sx x) d = w d ∧ onDarts valid S (chainOf sx x) (oppPerm hS d) = 0 := by
    intro d hd
    unfold onDarts
    obtain ⟨i, hi, e⟩ := List.getElem_of_mem hd
    constructor
    · have e' : d = ⟨sx[(⟨i, hi⟩ : Fin sx.length)], hsx _ (List.getElem_mem hi)⟩ := Subtype.ext e.symm
      rw [e', ← hx ⟨i, hi⟩]
      exact chainOf_get hn x ⟨i, hi⟩
    · rw [oppPerm_val]
      exact chainOf_not _ fun h => hself _ d.2 (hsx3 _ hd h)
  rcases hsx2 d.1 d.2 with hd | hd
  · rw [(key d hd).1, (key d hd).2, sub_zero]
  · rw [← oppPerm_val hS] at hd
    have h1 := key _ hd
    rw [oppPerm_oppPerm, hw] at h1
    rw [h1.1, h1.2]
    ring

omit [DecidableEq L] in
/-- Functions that are constant on polygons. -/
theorem const_polygon (hS : S.Closed valid) {x : {d // S.IsDart valid d} → R} (hx : ∀ d, x (nextPerm hS.bordered d) = x d) {l : L} {e : ℕ}
    (h : S.IsDart valid (l, e)) (h0 : S.IsDart valid (l, 0)) : x ⟨(l, e), h⟩ = x ⟨(l, 0), h0⟩ := by
  induction e with
  | zero => rfl
  | succ e ih =>
    have h1 := (isDart_iff hS.bordered _).1 h
    have h2 : S.IsDart valid (l, e) := (isDart_iff hS.bordered _).2 ⟨h1.1, by have := h1.2; dsimp only at this ⊢; omega⟩
    rw [← ih h2, ← hx ⟨(l, e), h2⟩]
    congr 1
    refine Subtype.ext (Prod.ext rfl ?_)
    show e + 1 = (e + 1) % S.sides l
    exact (Nat.mod_eq_of_lt h1.2).symm

/-- Boundaries of polygons. -/
theorem range_face_iff (hS : S.Closed valid) {sx : List (L × ℕ)} (hsx : ∀ d ∈ sx, S.IsDart valid d) (hself : ∀ d, S.IsDart valid d → S.oppF d ≠ d)
    {ls : List L} (hn : ls.Nodup) (hls : ∀ l, l ∈ ls ↔ valid l) (y : Fin sx.length → R) :
    y ∈ LinearMap.range (rowMap (ls.map fun l => sx.map fun c => (if c.1 = l then (1 : R) else 0) - (if S.oppF c ≠ c ∧ (S.oppF c).1 = l then 1 else 0)) ls.length sx.length) ↔
      ∃ x : {d // S.IsDart valid d} → R, (∀ d, x (nextPerm hS.bordered d) = x d) ∧
        ∀ i : Fin sx.length, y i = x ⟨sx[i], hsx _ (List.getElem_mem i.2)⟩ - x (oppPerm hS ⟨sx[i], hsx _ (List.getElem_mem i.2)⟩) := by
  have hrow : ∀ (X : Fin ls.length → R) (i : Fin sx.length),
      rowMap (ls.map fun l => sx.map fun c => (if c.1 = l then (1 : R) else 0) - (if S.oppF c ≠ c ∧ (S.oppF c).1 = l then 1 else 0)) ls.length sx.length X i =
      ∑ k : Fin ls.length, X k * (if sx[i].1 = ls[k] then 1 else 0) - ∑ k : Fin ls.length, X k * (if (S.oppF sx[i]).1 = ls[k] then 1 else 0) := by
    intro X i
    rw [rowMap_apply, ← Finset.sum_sub_distrib]
    refine Finset.sum_congr rfl fun k _ => ?_
    rw [getD_map_map]
    have := hself _ (hsx sx[i] (List.getElem_mem i.2))
    simp only [ne_eq, this, not_false_iff, true_and]
    ring
  constructor
  · rintro ⟨X, rfl⟩
    refine ⟨fun d => ∑ k : Fin ls.length, X k * (if d.1.1 = ls[k] then 1 else 0), fun d => rfl, fun i => ?_⟩
    rw [hrow]
    simp only [oppPerm_val]
  · rintro ⟨x, hx, hy⟩
    have h0 : ∀ l, valid l → S.IsDart valid (l, 0) := by
      intro l hl
      obtain ⟨p, hp, hv⟩ := hS.poly l hl
      have := hv.len3
      exact ⟨hl, p, hp, by dsimp only; omega⟩
    have hget : ∀ k : Fin ls.length, valid ls[k] := fun k => (hls _).1 (List.getElem_mem k.2)
    refine ⟨fun k => x ⟨(ls[k], 0), h0 _ (hget k)⟩, ?_⟩
    have hsum : ∀ d : {d // S.IsDart valid d}, ∑ k : Fin ls.length, x ⟨(ls[k], 0), h0 _ (hget k)⟩ * (if d.1.1 = ls[k] then 1 else 0) = x d := by
      intro d
      obtain ⟨k, hk, e⟩ := List.getElem_of_mem ((hls _).2 d.2.1)
      rw [Finset.sum_eq_single (⟨k, hk⟩ : Fin ls.length)]
      · rw [if_pos (show d.1.1 = ls[(⟨k, hk⟩ : Fin ls.length)] from e.symm), mul_one]
        obtain ⟨⟨l, e'⟩, hd⟩ := d
        dsimp only at e
        subst e
        exact (const_polygon hS hx hd _).symm
      · intro k' _ hk'
        rw [if_neg, mul_zero]
        intro h'
        exact hk' (Fin.ext (hn.getElem_inj_iff.1 (h'.symm.trans e.symm)))
      · simp
    funext i
    rw [hrow, hy]
    have e1 := hsum ⟨sx[i], hsx _ (List.getElem_mem i.2)⟩
    have e2 := hsum (oppPerm hS ⟨sx[i], hsx _ (List.getElem_mem i.2)⟩)
    rw [oppPerm_val] at e2
    rw [← e1, ← e2]

/-- Closed chains are determined by the flow. -/
theorem closedChain_congr [Fintype {d // S.IsDart valid d}] (hS : S.Closed valid) {o o' : {d // S.IsDart valid d} → R}
    (h : ∀ d, o d - o (oppPerm hS d) = o' d - o' (oppPerm hS d)) (ho : ClosedChain (oppPerm hS) (turnPerm hS) o) : ClosedChain (oppPerm hS) (turnPerm hS) o' := by
  intro f hf
  have := ho f hf
  rw [sum_vertices (oppPerm_oppPerm hS)] at this ⊢
  simpa only [h] using this

/-- The intersection form on homology is well-defined, alternating, and a perfect pairing. -/
theorem perfect_pairing [DecidableEq R] (hS : S.Closed valid) (hc : S.Joined valid) (hself : ∀ d, S.IsDart valid d → S.oppF d ≠ d) {d0 : L × ℕ}
    (hd0 : S.IsDart valid d0) {es : List (L × ℕ)} (hes : ∀ d, d ∈ es ↔ S.IsDart valid d) {fuel : ℕ} (hf : es.length < fuel) {starts : List (L × ℕ)}
    (hst : S.IsStarts valid starts) {sx : List (L × ℕ)} (hn : sx.Nodup) (hsx : ∀ d ∈ sx, S.IsDart valid d)
    (hsx2 : ∀ d, S.IsDart valid d → d ∈ sx ∨ S.oppF d ∈ sx) (hsx3 : ∀ d ∈ sx, S.oppF d ∈ sx → S.oppF d = d) [Fintype {d // S.IsDart valid d}]
    {Z W : Submodule R (Fin sx.length → R)} (hZ : ∀ x, x ∈ Z ↔ ClosedChain (oppPerm hS) (turnPerm hS) (onDarts valid S (chainOf sx x)))
    (hW : ∀ y, y ∈ W ↔ ∃ x : {d // S.IsDart valid d} → R, (∀ d, x (nextPerm hS.bordered d) = x d) ∧
        ∀ i : Fin sx.length, y i = x ⟨sx[i], hsx _ (List.getElem_mem i.2)⟩ - x (oppPerm hS ⟨sx[i], hsx _ (List.getElem_mem i.2)⟩)) :
    ∃ B : (Z ⧸ W.submoduleOf Z) →ₗ[R] (Z ⧸ W.submoduleOf Z) →ₗ[R] R,
      (∀ x y : Z, S.algebraicIntersection fuel starts (chainOf sx x.1) (chainOf sx y.1) = .ok (B (Submodule.Quotient.mk x) (Submodule.Quotient.mk y))) ∧
      B.IsPerfPair ∧ B.IsAlt := by
  classical
  have hdual := fun m o : L × ℕ → R => algebraicIntersection_dual hS hes hf hst m o
  have hdef : ∀ x y : Z, ∃ r, S.algebraicIntersection fuel starts (chainOf sx x.1) (chainOf sx y.1) = .ok r := fun x y =>
    (hdual _ _).1.2 ⟨(hZ _).1 x.2, (hZ _).1 y.2⟩
  choose b hb using hdef
  have huniq : ∀ {m o : L × ℕ → R} {r r' : R}, S.algebraicIntersection fuel starts m o = .ok r → S.algebraicIntersection fuel starts m o = .ok r' → r = r' := by
    intro m o r r' h h'
    rw [h] at h'
    injection h'
  let B0 : Z →ₗ[R] Z →ₗ[R] R := LinearMap.mk₂ R b
    (fun x x' y => huniq (hb _ _) (by
      have := (C40_left hS hes hf hst (hb x y) (hb x' y) 1).1
      rwa [← chainOf_add] at this))
    (fun r x y => huniq (hb _ _) (by
      have := (C40_left hS hes hf hst (hb x y) (hb x y) r).2
      rwa [← chainOf_smul] at this))
    (fun x y y' => huniq (hb _ _) (by
      have := (C40_right hS hes hf hst (hb x y) (hb x y') 1).1
      rwa [← chainOf_add] at this))
    (fun r x y => huniq (hb _ _) (by
      have := (C40_right hS hes hf hst (hb x y) (hb x y) r).2
      rwa [← chainOf_smul] at this))
  have hB0 : ∀ x y, B0 x y = b x y := fun x y => rfl
  have hskew : ∀ x y, b x y = - b y x := fun x y => huniq (hb x y) (C40_antisymmetric hS hes hf hst (hb y x))
  have hval : ∀ (x y : Z) (c : {d // S.IsDart valid d} → R),
      (∀ d, c (turnPerm hS d) = c d + (onDarts valid S (chainOf sx x.1) d - onDarts valid S (chainOf sx x.1) (oppPerm hS d))) →
      b x y = ∑ d, (c d + onDarts valid S (chainOf sx x.1) d) * (onDarts valid S (chainOf sx y.1) d - onDarts valid S (chainOf sx y.1) (oppPerm hS d)) :=
    fun x y c hc => (hdual _ _).2 _ (hb x y) c fun d => by rw [hc, flow_onDarts hS]
  have hopp := oppPerm_oppPerm hS
  have hν := next_opp_turn hS
  have hnear := near_all hS hc ⟨d0, hd0⟩
  have hpot : ∀ x : Z, ∃ c : {d // S.IsDart valid d} → R,
      ∀ d, c (turnPerm hS d) = c d + (onDarts valid S (chainOf sx x.1) d - onDarts valid S (chainOf sx x.1) (oppPerm hS d)) := fun x =>
    potential _ _ ((closedChain_iff hopp _).1 ((hZ _).1 x.2))
  -- boundaries
  have hkill : ∀ x y : Z, x.1 ∈ W → b x y = 0 := by
    intro x y hx
    obtain ⟨X, hX, hx⟩ := (hW _).1 hx
    have hfl := flow_chainOf hS hn hsx hsx2 hsx3 hself (w := fun d => X d - X (oppPerm hS d)) (fun d => by rw [hopp]; ring) hx
    have hX2 : ∀ d, X (oppPerm hS (turnPerm hS d)) = X d := fun d => by rw [← hX, hν]
    rw [hval x y (fun d => X (oppPerm hS d)) (fun d => by rw [hfl, hX2]; ring), sum_crossing hopp]
    refine Finset.sum_eq_zero fun d _ => ?_
    have := hfl d
    unfold crossing
    dsimp only
    rw [hopp]
    linear_combination (onDarts valid S (chainOf sx y.1) d) * this
  have hker1 : W.submoduleOf Z ≤ LinearMap.ker B0.flip := by
    intro y hy
    rw [LinearMap.mem_ker]
    ext x
    show b x y = 0
    rw [hskew, hkill y x hy, neg_zero]
  let B1 : Z →ₗ[R] (Z ⧸ W.submoduleOf Z) →ₗ[R] R := ((W.submoduleOf Z).liftQ B0.flip hker1).flip
  have hB1 : ∀ x y, B1 x (Submodule.Quotient.mk y) = b x y := fun x y => rfl
  have hker2 : W.submoduleOf Z ≤ LinearMap.ker B1 := by
    intro x hx
    rw [LinearMap.mem_ker]
    refine LinearMap.ext fun q => ?_
    obtain ⟨y, rfl⟩ := Submodule.Quotient.mk_surjective _ q
    rw [hB1, hkill x y hx, LinearMap.zero_apply]
  let B : (Z ⧸ W.submoduleOf Z) →ₗ[R] (Z ⧸ W.submoduleOf Z) →ₗ[R] R := (W.submoduleOf Z).liftQ B1 hker2
  have hB : ∀ x y, B (Submodule.Quotient.mk x) (Submodule.Quotient.mk y) = b x y := fun x y => rfl
  have hflip : B.flip = -B := by
    refine LinearMap.ext fun p => LinearMap.ext fun q => ?_
    obtain ⟨x, rfl⟩ := Submodule.Quotient.mk_surjective _ p
    obtain ⟨y, rfl⟩ := Submodule.Quotient.mk_surjective _ q
    rw [LinearMap.flip_apply, LinearMap.neg_apply, LinearMap.neg_apply, hB, hB, hskew]
  -- closed chains of edges in terms of simplices
  let fold : ({d // S.IsDart valid d} → R) → Fin sx.length → R := fun o i =>
    o ⟨sx[i], hsx _ (List.getElem_mem i.2)⟩ - o (oppPerm hS ⟨sx[i], hsx _ (List.getElem_mem i.2)⟩)
  have hfold : ∀ o d, onDarts valid S (chainOf sx (fold o)) d - onDarts valid S (chainOf sx (fold o)) (oppPerm hS d) = o d - o (oppPerm hS d) := fun o =>
    flow_chainOf hS hn hsx hsx2 hsx3 hself (w := fun d => o d - o (oppPerm hS d)) (fun d => by rw [hopp]; ring) fun i => rfl
  have hfoldZ : ∀ o, ClosedChain (oppPerm hS) (turnPerm hS) o → fold o ∈ Z := fun o ho => (hZ _).2 (closedChain_congr hS (fun d => (hfold o d).symm) ho)
  have hfoldx : ∀ x : Fin sx.length → R, fold (onDarts valid S (chainOf sx x)) = x := by
    intro x
    funext i
    show chainOf sx x sx[i] - chainOf sx x (oppPerm hS _).1 = x i
    rw [chainOf_get hn, oppPerm_val, chainOf_not, sub_zero]
    intro h
    exact hself _ (hsx _ (List.getElem_mem i.2)) (hsx3 _ (List.getElem_mem i.2) h)
  have hinj : Function.Injective B := by
    rw [injective_iff_map_eq_zero]
    intro p hp
    obtain ⟨x, rfl⟩ := Submodule.Quotient.mk_surjective _ p
    rw [Submodule.Quotient.mk_eq_zero]
    obtain ⟨c, hcx⟩ := hpot x
    obtain ⟨X, hX, hX2⟩ := nondegenerate hopp hν hnear hcx (fun o ho => by
      have h1 := hval x ⟨fold o, hfoldZ o ho⟩ c hcx
      have h2 : b x ⟨fold o, hfoldZ o ho⟩ = 0 := by rw [← hB, hp]; rfl
      rw [h2] at h1
      simpa only [hfold] using h1.symm)
    refine (hW _).2 ⟨X, hX, fun i => ?_⟩
    rw [← hX2]
    exact congrFun (hfoldx x.1).symm i
  have hsurj : Function.Surjective B := by
    intro φ
    let F : ({d // S.IsDart valid d} → R) → R := fun o =>
      if ho : ClosedChain (oppPerm hS) (turnPerm hS) o then φ (Submodule.Quotient.mk ⟨fold o, hfoldZ o ho⟩) else 0
    have hF : ∀ o (ho : ClosedChain (oppPerm hS) (turnPerm hS) o), F o = φ (Submodule.Quotient.mk ⟨fold o, hfoldZ o ho⟩) := fun o ho => dif_pos ho
    obtain ⟨w, c, hw, hcw, hrep⟩ := represent (F := F) hopp hν hnear
      (fun o o' ho ho' => by
        have hs : ClosedChain (oppPerm hS) (turnPerm hS) (o + o') := fun f hf => by
          simp only [Pi.add_apply, add_mul, Finset.sum_add_distrib, ho f hf, ho' f hf, add_zero]
        rw [hF _ hs, hF _ ho, hF _ ho', ← map_add, ← Submodule.Quotient.mk_add]
        congr 2
        refine Subtype.ext (funext fun i => ?_)
        show (o _ + o' _) - (o _ + o' _) = (o _ - o _) + (o' _ - o' _)
        ring)
      (fun r o ho => by
        have hs : ClosedChain (oppPerm hS) (turnPerm hS) (r • o) := fun f hf => by
          simp only [Pi.smul_apply, smul_eq_mul, mul_assoc, ← Finset.mul_sum, ho f hf, mul_zero]
        rw [hF _ hs, hF _ ho, ← smul_eq_mul, ← map_smul, ← Submodule.Quotient.mk_smul]
        congr 2
        refine Subtype.ext (funext fun i => ?_)
        show r * o _ - r * o _ = r * (o _ - o _)
        ring)
      (fun o ho => by
        by_cases h : ClosedChain (oppPerm hS) (turnPerm hS) o
        · rw [hF _ h]
          have : (⟨fold o, hfoldZ o h⟩ : Z) = 0 := Subtype.ext (funext fun i => by
            show o _ - o _ = 0
            rw [← ho, sub_self])
          rw [this, Submodule.Quotient.mk_zero, map_zero]
        · exact dif_neg h)
      (fun X hX => by
        by_cases h : ClosedChain (oppPerm hS) (turnPerm hS) X
        · rw [hF _ h]
          have : (Submodule.Quotient.mk ⟨fold X, hfoldZ X h⟩ : Z ⧸ W.submoduleOf Z) = 0 := by
            rw [Submodule.Quotient.mk_eq_zero]
            exact (hW _).2 ⟨X, hX, fun i => rfl⟩
          rw [this, map_zero]
        · exact dif_neg h)
    let x : Fin sx.length → R := fun i => w ⟨sx[i], hsx _ (List.getElem_mem i.2)⟩
    have hfl := flow_chainOf hS hn hsx hsx2 hsx3 hself (x := x) hw fun i => rfl
    have hxZ : x ∈ Z := by
      rw [hZ]
      intro f hf
      rw [sum_vertices hopp, neg_eq_zero]
      simp only [hfl]
      have h1 : ∑ d, f (turnPerm hS d) * c (turnPerm hS d) = ∑ d, f d * c d := Fintype.sum_equiv (turnPerm hS) _ _ fun d => rfl
      have h2 : ∑ d, (f (turnPerm hS d) * c (turnPerm hS d) - f d * c d) = 0 := by rw [Finset.sum_sub_distrib, h1, sub_self]
      rw [← h2]
      refine Finset.sum_congr rfl fun d _ => ?_
      rw [hf, hcw]
      ring
    refine ⟨Submodule.Quotient.mk ⟨x, hxZ⟩, LinearMap.ext fun q => ?_⟩
    obtain ⟨y, rfl⟩ := Submodule.Quotient.mk_surjective _ q
    rw [hB, hval ⟨x, hxZ⟩ y c (fun d => by rw [hcw, hfl]), hrep _ hfl _ ((hZ _).1 y.2), hF _ ((hZ _).1 y.2)]
    congr 2
    exact Subtype.ext (hfoldx y.1)
  refine ⟨B, fun x y => hb x y, ⟨⟨hinj, hsurj⟩, ?_⟩, ?_⟩
  · rw [hflip]
    refine ⟨fun p q h => hinj ?_, fun φ => ?_⟩
    · simpa using h
    · obtain ⟨p, hp⟩ := hsurj (-φ)
      exact ⟨p, by rw [LinearMap.neg_apply, hp, neg_neg]⟩
  · intro p
    obtain ⟨x, rfl⟩ := Submodule.Quotient.mk_surjective _ p
    obtain ⟨c, hcx⟩ := hpot x
    rw [hB, hval x x c hcx]
    exact alternating hopp hnear hcx ((hZ _).1 x.2)

end RSurf
end Flat
