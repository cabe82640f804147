import Verif.Lemmas.AddPolys
import Verif.Lemmas.Grid
import Mathlib.Algebra.BigOperators.Ring.Finset
import Mathlib.Algebra.Order.BigOperators.Group.Finset

/-!
# C74: the Thurston-Veech construction
-/

namespace Flat
namespace MSurf
variable {K : Type} [Field K] [LinearOrder K] [IsStrictOrderedRing K]

omit [LinearOrder K] [IsStrictOrderedRing K] in
theorem list_range_sum (f : ℕ → K) (m : ℕ) : ((List.range m).map f).sum = ∑ j ∈ Finset.range m, f j := by
  induction m with
  | zero => simp
  | succ m ih => rw [List.range_succ, List.map_append, List.sum_append, ih, Finset.sum_range_succ]; simp

omit [LinearOrder K] [IsStrictOrderedRing K] in
theorem tvE_cast (n : ℕ) (hc vc : ℕ → ℕ) (i j : ℕ) : (tvE n hc vc i j : K) = ∑ k ∈ Finset.range n, if hc k = i ∧ vc k = j then 1 else 0 := by
  unfold tvE
  induction n with
  | zero => simp
  | succ n ih =>
    rw [List.range_succ, List.countP_append, Finset.sum_range_succ, Nat.cast_add, ih]
    congr 1
    by_cases h : hc n = i ∧ vc n = j <;> simp [h, List.countP_cons]

omit [LinearOrder K] [IsStrictOrderedRing K] in
/-- The circumference of a horizontal cylinder. -/
theorem sum_tvE_row {n numV : ℕ} {hc vc : ℕ → ℕ} (hv : ∀ k < n, vc k < numV) (v : ℕ → K) (i : ℕ) :
    ∑ j ∈ Finset.range numV, (tvE n hc vc i j : K) * v j = ∑ k ∈ Finset.range n with hc k = i, v (vc k) := by
  simp only [tvE_cast, Finset.sum_mul]
  rw [Finset.sum_comm, Finset.sum_filter]
  refine Finset.sum_congr rfl fun k hk => ?_
  by_cases h : hc k = i
  · simp [h, hv k (Finset.mem_range.1 hk)]
  · simp [h]

omit [LinearOrder K] [IsStrictOrderedRing K] in
/-- The circumference of a vertical cylinder. -/
theorem sum_tvE_col {n numH : ℕ} {hc vc : ℕ → ℕ} (hh : ∀ k < n, hc k < numH) (h : ℕ → K) (j : ℕ) :
    ∑ i ∈ Finset.range numH, (tvE n hc vc i j : K) * h i = ∑ k ∈ Finset.range n with vc k = j, h (hc k) := by
  simp only [tvE_cast, Finset.sum_mul]
  rw [Finset.sum_comm, Finset.sum_filter]
  refine Finset.sum_congr rfl fun k hk => ?_
  by_cases h : vc k = j
  · simp [h, hh k (Finset.mem_range.1 hk)]
  · simp [h]

/-- The permutations of the squares, and the numbers of their cycles. -/
structure TVInput (n numH numV : ℕ) (r u : Equiv.Perm ℕ) (hc vc : ℕ → ℕ) : Prop where
  right_lt : ∀ i, r i < n ↔ i < n
  up_lt : ∀ i, u i < n ↔ i < n
  h_lt : ∀ i < n, hc i < numH
  v_lt : ∀ i < n, vc i < numV
  h_surj : ∀ a < numH, ∃ i < n, hc i = a
  v_surj : ∀ a < numV, ∃ i < n, vc i = a
  h_cycle : ∀ i < n, ∀ j < n, hc i = hc j ↔ r.SameCycle i j
  v_cycle : ∀ i < n, ∀ j < n, vc i = vc j ↔ u.SameCycle i j

/-- The kernel vector is an eigenvector of the matrix `F` to the eigenvalue `pf`. -/
def IsEigen (n numH numV : ℕ) (hc vc : ℕ → ℕ) (hmult vmult : List K) (pf : K) (x : ℕ → K) : Prop :=
  ∀ i < min numH numV, tvMulVec (min numH numV) (tvF n numH numV hc vc (fun i => hmult.getD i 0) (fun j => vmult.getD j 0)) x i = pf * x i

variable {n numH numV : ℕ} {r u : Equiv.Perm ℕ} {hc vc : ℕ → ℕ} {hmult vmult : List K} {pf : K} {x : ℕ → K}

omit [LinearOrder K] [IsStrictOrderedRing K] in
theorem mulVec_mul (a b : ℕ) (A B : ℕ → ℕ → K) (x : ℕ → K) (i : ℕ) :
    tvMulVec a (tvMul b A B) x i = ∑ k ∈ Finset.range b, A i k * tvMulVec a B x k := by
  unfold tvMulVec tvMul
  simp only [list_range_sum]
  simp only [Finset.sum_mul, Finset.mul_sum]
  rw [Finset.sum_comm]
  exact Finset.sum_congr rfl fun k _ => Finset.sum_congr rfl fun j _ => by ring

/-- What the numbers computed by the construction satisfy. -/
structure TVDims (n numH numV : ℕ) (hc vc : ℕ → ℕ) (hm vm : ℕ → K) (pf : K) (h v : ℕ → K) (c d : K) : Prop where
  c_pos : 0 < c
  d_pos : 0 < d
  prod : c * d = pf
  h_pos : ∀ i < numH, 0 < h i
  v_pos : ∀ j < numV, 0 < v j
  h_mod : ∀ i < numH, hm i * ∑ k ∈ Finset.range n with hc k = i, v (vc k) = c * h i
  v_mod : ∀ j < numV, vm j * ∑ k ∈ Finset.range n with vc k = j, h (hc k) = d * v j

theorem row_pos (hI : TVInput n numH numV r u hc vc) {v : ℕ → K} (hv : ∀ j < numV, 0 < v j) {i : ℕ} (hi : i < numH) :
    0 < ∑ k ∈ Finset.range n with hc k = i, v (vc k) := by
  obtain ⟨k, hk, rfl⟩ := hI.h_surj i hi
  refine Finset.sum_pos (fun k hk => hv _ (hI.v_lt k (Finset.mem_range.1 (Finset.mem_filter.1 hk).1))) ⟨k, ?_⟩
  simp [hk]

theorem col_pos (hI : TVInput n numH numV r u hc vc) {h : ℕ → K} (hh : ∀ i < numH, 0 < h i) {j : ℕ} (hj : j < numV) :
    0 < ∑ k ∈ Finset.range n with vc k = j, h (hc k) := by
  obtain ⟨k, hk, rfl⟩ := hI.v_surj j hj
  refine Finset.sum_pos (fun k hk => hh _ (hI.h_lt k (Finset.mem_range.1 (Finset.mem_filter.1 hk).1))) ⟨k, ?_⟩
  simp [hk]

theorem getD_pos {l : List K} (hl : ∀ a ∈ l, 0 < a) {i : ℕ} (hi : i < l.length) : 0 < l.getD i 0 := by
  rw [show l.getD i 0 = l[i] by simp [hi]]
  exact hl _ (List.getElem_mem hi)

/-- The numbers that the construction computes from a positive eigenvector. -/
theorem tvDims_ok (hI : TVInput n numH numV r u hc vc) (hn : 0 < n) (hlh : hmult.length = numH) (hlv : vmult.length = numV)
    (hhm : ∀ a ∈ hmult, 0 < a) (hvm : ∀ a ∈ vmult, 0 < a) (hx : ∀ i < min numH numV, 0 < x i) (he : IsEigen n numH numV hc vc hmult vmult pf x) :
    ∃ h v c d, tvDims n numH numV hc vc hmult vmult pf x = .ok (h, v, c, d) ∧
      TVDims n numH numV hc vc (fun i => hmult.getD i 0) (fun j => vmult.getD j 0) pf h v c d := by
  have hm : ∀ i < numH, 0 < hmult.getD i 0 := fun i hi => getD_pos hhm (by omega)
  have vm : ∀ j < numV, 0 < vmult.getD j 0 := fun j hj => getD_pos hvm (by omega)
  unfold tvDims
  rw [if_neg (by simp [hlh, hlv])]
  dsimp only
  by_cases hlt : numH < numV
  · rw [if_pos hlt]
    have hmin : min numH numV = numH := by omega
    unfold IsEigen at he
    rw [hmin] at hx he
    rw [if_neg (not_not.2 hx)]
    -- the circumference of the vertical cylinders
    have hvc : ∀ j, tvMulVec numH (tvV n hc vc fun i => hmult.getD i 0) x j = ∑ k ∈ Finset.range n with vc k = j, x (hc k) * hmult.getD (hc k) 0 := by
      intro j
      unfold tvMulVec tvV
      rw [list_range_sum, ← sum_tvE_col hI.h_lt (fun i => x i * hmult.getD i 0)]
      exact Finset.sum_congr rfl fun i _ => by ring
    have hvpos : ∀ j < numV, 0 < tvMulVec numH (tvV n hc vc fun i => hmult.getD i 0) x j := fun j hj => by
      rw [hvc]
      exact col_pos hI (h := fun i => x i * hmult.getD i 0) (fun i hi => mul_pos (hx i hi) (hm i hi)) hj
    -- the eigenvector
    have hF : ∀ i < numH, ∑ k ∈ Finset.range n with hc k = i, tvMulVec numH (tvV n hc vc fun i => hmult.getD i 0) x (vc k) * vmult.getD (vc k) 0 = pf * x i := by
      intro i hi
      have := he i hi
      unfold tvF at this
      rw [if_pos hlt, mulVec_mul] at this
      rw [← this, ← sum_tvE_row hI.v_lt (fun j => tvMulVec numH (tvV n hc vc fun i => hmult.getD i 0) x j * vmult.getD j 0)]
      unfold tvH
      exact Finset.sum_congr rfl fun j _ => by ring
    have h0 : hc 0 < numH := hI.h_lt 0 hn
    have hpf : 0 < pf := by
      have h1 := hF _ h0
      have h2 := row_pos hI (v := fun j => tvMulVec numH (tvV n hc vc fun i => hmult.getD i 0) x j * vmult.getD j 0) (fun j hj => mul_pos (hvpos j hj) (vm j hj)) h0
      rw [h1] at h2
      exact (pos_iff_pos_of_mul_pos h2).2 (hx _ h0)
    rw [if_neg hpf.ne']
    refine ⟨_, _, _, _, rfl, ⟨one_pos, hpf, one_mul _, fun i hi => ?_, fun j hj => ?_, fun i hi => ?_, fun j hj => ?_⟩⟩
    · rw [div_one]; exact mul_pos (hx i hi) (hm i hi)
    · exact div_pos (mul_pos (hvpos j hj) (vm j hj)) hpf
    · rw [← Finset.sum_div, hF i hi, mul_div_cancel_left₀ _ hpf.ne']
      ring
    · simp only [div_one]
      rw [← hvc j, mul_div_cancel₀ _ hpf.ne', mul_comm]
  · rw [if_neg hlt]
    have hmin : min numH numV = numV := by omega
    unfold IsEigen at he
    rw [hmin] at hx he
    rw [if_neg (not_not.2 hx)]
    have hhc : ∀ i, tvMulVec numV (tvH n hc vc fun j => vmult.getD j 0) x i = ∑ k ∈ Finset.range n with hc k = i, x (vc k) * vmult.getD (vc k) 0 := by
      intro i
      unfold tvMulVec tvH
      rw [list_range_sum, ← sum_tvE_row hI.v_lt (fun j => x j * vmult.getD j 0)]
      exact Finset.sum_congr rfl fun i _ => by ring
    have hhpos : ∀ i < numH, 0 < tvMulVec numV (tvH n hc vc fun j => vmult.getD j 0) x i := fun i hi => by
      rw [hhc]
      exact row_pos hI (v := fun j => x j * vmult.getD j 0) (fun j hj => mul_pos (hx j hj) (vm j hj)) hi
    have hF : ∀ j < numV, ∑ k ∈ Finset.range n with vc k = j, tvMulVec numV (tvH n hc vc fun j => vmult.getD j 0) x (hc k) * hmult.getD (hc k) 0 = pf * x j := by
      intro j hj
      have := he j hj
      unfold tvF at this
      rw [if_neg hlt, mulVec_mul] at this
      rw [← this, ← sum_tvE_col hI.h_lt (fun i => tvMulVec numV (tvH n hc vc fun j => vmult.getD j 0) x i * hmult.getD i 0)]
      unfold tvV
      exact Finset.sum_congr rfl fun j _ => by ring
    have h0 : vc 0 < numV := hI.v_lt 0 hn
    have hpf : 0 < pf := by
      have h1 := hF _ h0
      have h2 := col_pos hI (h := fun i => tvMulVec numV (tvH n hc vc fun j => vmult.getD j 0) x i * hmult.getD i 0) (fun j hj => mul_pos (hhpos j hj) (hm j hj)) h0
      rw [h1] at h2
      exact (pos_iff_pos_of_mul_pos h2).2 (hx _ h0)
    rw [if_neg hpf.ne']
    refine ⟨_, _, _, _, rfl, ⟨hpf, one_pos, mul_one _, fun i hi => ?_, fun j hj => ?_, fun i hi => ?_, fun j hj => ?_⟩⟩
    · exact div_pos (mul_pos (hhpos i hi) (hm i hi)) hpf
    · rw [div_one]; exact mul_pos (hx j hj) (vm j hj)
    · simp only [div_one]
      rw [← hhc i, mul_div_cancel₀ _ hpf.ne', mul_comm]
    · rw [← Finset.sum_div, hF j hj, mul_div_cancel_left₀ _ hpf.ne']
      ring

/-- The gluings of the construction. -/
def tvG (n : ℕ) (r u : Equiv.Perm ℕ) (l e : ℕ) : Option (ℕ × Int) :=
  if l < n then
    if e = 0 then some (u l, 2) else if e = 1 then some (r l, 3) else if e = 2 then some (u⁻¹ l, 0) else if e = 3 then some (r⁻¹ l, 1) else none
  else none

theorem perm_inv_lt {f : Equiv.Perm ℕ} (h : ∀ i, f i < n ↔ i < n) (i : ℕ) : f⁻¹ i < n ↔ i < n := by
  rw [← h (f⁻¹ i), RSurf.perm_inv_self]

theorem tvG_lt {l e : ℕ} {c : ℕ × Int} (h : tvG n r u l e = some c) : l < n ∧ e < 4 := by
  unfold tvG at h
  split_ifs at h with h1 h2 h3 h4 h5 <;> exact ⟨h1, by omega⟩

theorem tvG_inv (hr : ∀ i, r i < n ↔ i < n) (hu : ∀ i, u i < n ↔ i < n) : ∀ l (e : ℕ) l' e', tvG n r u l e = some (l', e') →
    ∃ k : ℕ, e' = k ∧ tvG n r u l' k = some (l, (e : Int)) := by
  intro l e l' e' h
  obtain ⟨hl, he⟩ := tvG_lt h
  unfold tvG at h
  rw [if_pos hl] at h
  interval_cases e
  · simp only [if_true] at h
    injection h with h; injection h with h1 h2
    subst h1 h2
    exact ⟨2, rfl, by simp [tvG, (hu l).2 hl, RSurf.inv_perm_self]⟩
  · simp only [if_true, if_neg one_ne_zero] at h
    injection h with h; injection h with h1 h2
    subst h1 h2
    exact ⟨3, rfl, by simp [tvG, (hr l).2 hl, RSurf.inv_perm_self]⟩
  · simp at h
    obtain ⟨h1, h2⟩ := h
    subst h1 h2
    exact ⟨0, rfl, by
      have : (Equiv.symm u) l < n := (perm_inv_lt hu l).2 hl
      simp [tvG, this]⟩
  · simp at h
    obtain ⟨h1, h2⟩ := h
    subst h1 h2
    exact ⟨1, rfl, by
      have : (Equiv.symm r) l < n := (perm_inv_lt hr l).2 hl
      simp [tvG, this]⟩

theorem mem_tvPairs {y : (ℕ × Int) × (ℕ × Int)} : y ∈ tvPairs n r u ↔ ∃ i < n, y = ((i, 1), (r i, 3)) ∨ y = ((i, 0), (u i, 2)) := by
  unfold tvPairs
  simp [List.mem_flatMap]

theorem tvPolygons_ok {h v : ℕ → K} (hh : ∀ i < n, 0 < h (hc i)) (hv : ∀ i < n, 0 < v (vc i)) :
    tvPolygons n hc vc h v = .ok ((List.range n).map fun i => Surf.rect (v (vc i)) (h (hc i))) :=
  RSurf.Grid.mapM_const_ok _ _ _ fun i hi => Surf.rect_ofEdges (hv i (List.mem_range.1 hi)) (hh i (List.mem_range.1 hi))

/-- **C74.** The construction succeeds on positive multiplicities and creates an immutable surface whose labels are the numbers of the squares of the origami; the
`i`-th polygon is the rectangle whose width is the one of the vertical cylinder and whose height is the one of the horizontal cylinder of the square; on its
right is the rectangle `r i`, and `u i` is *below* it. -/
theorem C74_surface (hI : TVInput n numH numV r u hc vc) (hn : 0 < n) (hlh : hmult.length = numH) (hlv : vmult.length = numV)
    (hhm : ∀ a ∈ hmult, 0 < a) (hvm : ∀ a ∈ vmult, 0 < a) (hx : ∀ i < min numH numV, 0 < x i) (he : IsEigen n numH numV hc vc hmult vmult pf x) :
    ∃ (t : MSurf ℕ (Poly K)) (h v : ℕ → K) (c d : K), thurstonVeech n numH numV r u hc vc hmult vmult pf x MSurf.empty = .ok () t ∧ Reachable t ∧ t.mutable = false ∧
      (∀ l, (∃ p, t.polygon l = .ok p) ↔ l < n) ∧
      (RSurf.ofMSurf t).Grid (· < n) r u⁻¹ (fun i => v (vc i)) (fun i => h (hc i)) ∧
      TVDims n numH numV hc vc (fun i => hmult.getD i 0) (fun j => vmult.getD j 0) pf h v c d := by
  obtain ⟨h, v, c, d, hd, hD⟩ := tvDims_ok hI hn hlh hlv hhm hvm hx he
  have hhp : ∀ i < n, 0 < h (hc i) := fun i hi => hD.h_pos _ (hI.h_lt i hi)
  have hvp : ∀ i < n, 0 < v (vc i) := fun i hi => hD.v_pos _ (hI.v_lt i hi)
  have key : wp (thurstonVeech n numH numV r u hc vc hmult vmult pf x) (fun _ t => Reachable t ∧ t.mutable = false ∧
      (∀ i, t.polygons.get i = if i < n then some (Surf.rect (v (vc i)) (h (hc i))) else none) ∧ ∀ l e, t.opp l e = tvG n r u l e) (fun _ _ => False) MSurf.empty := by
    unfold thurstonVeech
    rw [wp_bind, hd]
    simp only [liftE, wp_pure]
    rw [wp_bind, tvPolygons_ok hhp hvp]
    simp only [liftE, wp_pure]
    rw [wp_bind]
    refine wp_mono (wp_addPolys Reachable.empty numbered_empty _) ?_ (fun _ _ hh => hh)
    rintro _ t ⟨hre, hN, hg⟩
    have hg' : ∀ i, t.polygons.get i = if i < n then some (Surf.rect (v (vc i)) (h (hc i))) else none := by
      intro i
      rw [hg]
      by_cases hi : i < n <;> simp [hi]
    refine wp_mono (build_tail hre hN.unlocked hN.opp (tvG n r u) (tvG_inv hI.right_lt hI.up_lt) ?_ (tvPairs n r u) ?_ ?_ (.inl hN.roots)) ?_ (fun _ _ hh => hh)
    · intro l e c hc
      obtain ⟨h1, h2⟩ := tvG_lt hc
      exact ⟨_, by rw [hg', if_pos h1], h2⟩
    · intro y hy
      obtain ⟨i, hi, rfl | rfl⟩ := mem_tvPairs.1 hy
      · exact ⟨1, rfl, by simp [tvG, hi]⟩
      · exact ⟨0, rfl, by simp [tvG, hi]⟩
    · intro l e c hc
      obtain ⟨h1, h2⟩ := tvG_lt hc
      unfold tvG at hc
      rw [if_pos h1] at hc
      interval_cases e
      · simp at hc
        exact .inl (mem_tvPairs.2 ⟨l, h1, .inr (by rw [← hc]; rfl)⟩)
      · simp at hc
        exact .inl (mem_tvPairs.2 ⟨l, h1, .inl (by rw [← hc]; rfl)⟩)
      · simp at hc
        exact .inr (mem_tvPairs.2 ⟨u⁻¹ l, (perm_inv_lt hI.up_lt l).2 h1, .inr (by rw [← hc, RSurf.perm_inv_self]; rfl)⟩)
      · simp at hc
        exact .inr (mem_tvPairs.2 ⟨r⁻¹ l, (perm_inv_lt hI.right_lt l).2 h1, .inl (by rw [← hc, RSurf.perm_inv_self]; rfl)⟩)
    · rintro _ t' ⟨h1, h2, h3, h4⟩
      exact ⟨h1, h2, fun i => by rw [h3, hg'], h4⟩
  unfold wp at key
  cases hrun : thurstonVeech n numH numV r u hc vc hmult vmult pf x MSurf.empty with
  | error e t => rw [hrun] at key; exact key.elim
  | ok a t =>
    rw [hrun] at key
    obtain ⟨h1, h2, h3, h4⟩ := key
    have hpoly : ∀ l < n, t.polygon l = .ok (Surf.rect (v (vc l)) (h (hc l))) := fun l hl => by unfold polygon; rw [h3, if_pos hl]
    have hopp : ∀ l < n, ∀ e < 4, (RSurf.ofMSurf t).opp l e = .ok ((tvG n r u l e).map fun c => (c.1, c.2.toNat)) := by
      intro l hl e he
      unfold RSurf.ofMSurf
      simp only [oppositeEdge_eq_opp h1.ginv.toShape ⟨_, by rw [h3, if_pos hl], he⟩, h4, bind, Except.bind, pure, Except.pure]
      cases tvG n r u l e <;> rfl
    refine ⟨t, h, v, c, d, rfl, h1, h2, fun l => ⟨?_, fun hl => ⟨_, hpoly l hl⟩⟩, ⟨hI.right_lt, perm_inv_lt hI.up_lt, hvp, hhp, ?_, ?_, hpoly, ?_, ?_, ?_, ?_⟩, hD⟩
    · rintro ⟨p, hp⟩
      by_contra hl
      unfold polygon at hp
      rw [h3, if_neg hl] at hp
      cases hp
    · intro l hl
      have : vc (u⁻¹ l) = vc l := (hI.v_cycle _ ((perm_inv_lt hI.up_lt l).2 hl) _ hl).2 ⟨1, by rw [zpow_one]; exact RSurf.perm_inv_self u l⟩
      rw [this]
    · intro l hl
      have : hc (r l) = hc l := (hI.h_cycle _ ((hI.right_lt l).2 hl) _ hl).2 ⟨-1, by rw [zpow_neg_one]; exact RSurf.inv_perm_self r l⟩
      rw [this]
    · intro l hl
      rw [hopp l hl 0 (by omega)]
      simp [tvG, hl]
    · intro l hl
      rw [hopp l hl 1 (by omega)]
      simp [tvG, hl]
    · intro l hl
      rw [hopp l hl 2 (by omega)]
      simp [tvG, hl]
    · intro l hl
      rw [hopp l hl 3 (by omega)]
      simp [tvG, hl]

/-- **C74.** The surface is a translation surface without boundary of strictly convex polygons.  The multiplicity of a horizontal cylinder times its circumference is the same multiple
`c` of its height for all horizontal cylinders, and accordingly for the vertical cylinders and a number `d`: the directions have multitwists with these
multiplicities.  The product of `c` and `d` is the eigenvalue. -/
theorem C74_multitwists (hI : TVInput n numH numV r u hc vc) (hn : 0 < n) (hlh : hmult.length = numH) (hlv : vmult.length = numV)
    (hhm : ∀ a ∈ hmult, 0 < a) (hvm : ∀ a ∈ vmult, 0 < a) (hx : ∀ i < min numH numV, 0 < x i) (he : IsEigen n numH numV hc vc hmult vmult pf x) :
    ∃ (t : MSurf ℕ (Poly K)) (width height : ℕ → K) (c d : K), thurstonVeech n numH numV r u hc vc hmult vmult pf x MSurf.empty = .ok () t ∧
      (RSurf.ofMSurf t).Closed (· < n) ∧ (RSurf.ofMSurf t).Translation (· < n) ∧ (RSurf.ofMSurf t).AllStrict (· < n) ∧
      (∀ i < n, t.polygon i = .ok [(0, 0), (width i, 0), (width i, height i), (0, height i)] ∧ 0 < width i ∧ 0 < height i) ∧
      0 < c ∧ 0 < d ∧ c * d = pf ∧
      ∀ i < n, (∀ row : Finset ℕ, (∀ k, k ∈ row ↔ k < n ∧ r.SameCycle i k) → hmult.getD (hc i) 0 * ∑ k ∈ row, width k = c * height i) ∧
        ∀ col : Finset ℕ, (∀ k, k ∈ col ↔ k < n ∧ u.SameCycle i k) → vmult.getD (vc i) 0 * ∑ k ∈ col, height k = d * width i := by
  obtain ⟨t, h, v, c, d, h1, -, -, -, g, hD⟩ := C74_surface hI hn hlh hlv hhm hvm hx he
  refine ⟨t, _, _, c, d, h1, g.closed, g.translation, g.strict, fun i hi => ⟨g.polygon i hi, g.width_pos i hi, g.height_pos i hi⟩, hD.c_pos, hD.d_pos, hD.prod, fun i hi => ⟨?_, ?_⟩⟩
  · intro row hrow
    rw [← hD.h_mod _ (hI.h_lt i hi)]
    congr 1
    refine Finset.sum_congr (Finset.ext fun k => ?_) fun _ _ => rfl
    rw [hrow, Finset.mem_filter, Finset.mem_range]
    exact and_congr_right fun hk => ((eq_comm.trans (hI.h_cycle i hi k hk)).symm)
  · intro col hcol
    rw [← hD.v_mod _ (hI.v_lt i hi)]
    congr 1
    refine Finset.sum_congr (Finset.ext fun k => ?_) fun _ _ => rfl
    rw [hcol, Finset.mem_filter, Finset.mem_range]
    exact and_congr_right fun hk => ((eq_comm.trans (hI.v_cycle i hi k hk)).symm)

theorem closure_inv_right (r u : Equiv.Perm ℕ) : Subgroup.closure {r, u⁻¹} = Subgroup.closure {r, u} := by
  apply le_antisymm <;> rw [Subgroup.closure_le] <;> rintro y (rfl | rfl)
  · exact Subgroup.subset_closure (by simp)
  · exact inv_mem (Subgroup.subset_closure (by simp))
  · exact Subgroup.subset_closure (by simp)
  · have : y⁻¹ ∈ Subgroup.closure {r, y⁻¹} := Subgroup.subset_closure (by simp)
    simpa using inv_mem this

/-- The commutator with the inverse permutation. -/
theorem vertexPerm_inv (r u : Equiv.Perm ℕ) : RSurf.vertexPerm r u⁻¹ = u⁻¹ * (r * u * r⁻¹ * u⁻¹)⁻¹ * u := by
  unfold RSurf.vertexPerm
  group

theorem sameCycle_vertexPerm_inv (r u : Equiv.Perm ℕ) (a b : ℕ) :
    (RSurf.vertexPerm r u⁻¹).SameCycle (u⁻¹ a) (u⁻¹ b) ↔ (r * u * r⁻¹ * u⁻¹).SameCycle a b := by
  rw [vertexPerm_inv]
  have h := Equiv.Perm.sameCycle_conj (f := (r * u * r⁻¹ * u⁻¹)⁻¹) (g := u⁻¹) (x := u⁻¹ a) (y := u⁻¹ b)
  rw [inv_inv] at h
  rw [h, Equiv.Perm.sameCycle_inv, RSurf.perm_inv_self, RSurf.perm_inv_self]

theorem period_vertexPerm_inv (r u : Equiv.Perm ℕ) (a : ℕ) :
    Function.minimalPeriod (RSurf.vertexPerm r u⁻¹) (u⁻¹ a) = Function.minimalPeriod (r * u * r⁻¹ * u⁻¹) a := by
  have key : ∀ k, Function.IsPeriodicPt (RSurf.vertexPerm r u⁻¹) k (u⁻¹ a) ↔ Function.IsPeriodicPt (r * u * r⁻¹ * u⁻¹) k a := by
    intro k
    unfold Function.IsPeriodicPt Function.IsFixedPt
    rw [RSurf.Grid.iterate_eq_pow, RSurf.Grid.iterate_eq_pow, vertexPerm_inv]
    generalize r * u * r⁻¹ * u⁻¹ = f
    have : (u⁻¹ * f⁻¹ * u) ^ k = u⁻¹ * (f ^ k)⁻¹ * u := by
      have h := conj_pow (i := k) (a := u⁻¹) (b := f⁻¹)
      rw [inv_inv] at h
      rw [h, inv_pow]
    rw [this]
    simp only [Equiv.Perm.mul_apply, RSurf.perm_inv_self, EmbeddingLike.apply_eq_iff_eq]
    constructor
    · intro h
      have := congrArg (⇑(f ^ k)) h
      rw [RSurf.perm_inv_self] at this
      exact this.symm
    · intro h
      have := congrArg (⇑((f ^ k)⁻¹ : Equiv.Perm ℕ)) h
      rw [RSurf.inv_perm_self] at this
      exact this.symm
  exact Nat.dvd_antisymm ((key _).2 (Function.isPeriodicPt_minimalPeriod _ _)).minimalPeriod_dvd ((key _).1 (Function.isPeriodicPt_minimalPeriod _ _)).minimalPeriod_dvd

/-- **C74.** The surface is connected if and only if the permutations act transitively on the squares. -/
theorem C74_connected (hI : TVInput n numH numV r u hc vc) (hn : 0 < n) (hlh : hmult.length = numH) (hlv : vmult.length = numV)
    (hhm : ∀ a ∈ hmult, 0 < a) (hvm : ∀ a ∈ vmult, 0 < a) (hx : ∀ i < min numH numV, 0 < x i) (he : IsEigen n numH numV hc vc hmult vmult pf x)
    {t : MSurf ℕ (Poly K)} (ht : thurstonVeech n numH numV r u hc vc hmult vmult pf x MSurf.empty = .ok () t) :
    (RSurf.ofMSurf t).Joined (· < n) ↔ ∀ a b, a < n → b < n → ∃ y ∈ Subgroup.closure {r, u}, y a = b := by
  obtain ⟨t', h, v, c, d, h1, -, -, -, g, -⟩ := C74_surface hI hn hlh hlv hhm hvm hx he
  rw [ht] at h1
  injection h1 with _ h1
  subst h1
  rw [g.joined_iff, closure_inv_right]

/-- **C74.** The stratum of the surface is the stratum of the origami, whatever the multiplicities are: with one square for each cycle of the commutator, the angles at the upper left
corners of these squares are the lengths of the cycles, the degrees of the zeros are the lengths minus one, and their sum is `2g - 2`. -/
theorem C74_stratum {ι : K →+* ℝ} (hι : StrictMono ι) (hI : TVInput n numH numV r u hc vc) (hn : 0 < n) (hlh : hmult.length = numH) (hlv : vmult.length = numV)
    (hhm : ∀ a ∈ hmult, 0 < a) (hvm : ∀ a ∈ vmult, 0 < a) (hx : ∀ i < min numH numV, 0 < x i) (he : IsEigen n numH numV hc vc hmult vmult pf x)
    {t : MSurf ℕ (Poly K)} (ht : thurstonVeech n numH numV r u hc vc hmult vmult pf x MSurf.empty = .ok () t)
    {cs : List ℕ} (hv : ∀ c ∈ cs, c < n) (ha : cs.Pairwise fun a b => ¬ (r * u * r⁻¹ * u⁻¹).SameCycle a b) (hcov : ∀ l < n, ∃ c ∈ cs, (r * u * r⁻¹ * u⁻¹).SameCycle c l)
    {fuel : ℕ} (hf : 4 * n < fuel) :
    (RSurf.ofMSurf t).IsStarts (· < n) (cs.map fun c => (c, 3)) ∧
    (RSurf.ofMSurf t).angles ι fuel (cs.map fun c => (c, 3)) = .ok (cs.map fun c => (Function.minimalPeriod (r * u * r⁻¹ * u⁻¹) c : ℝ)) ∧
    (RSurf.ofMSurf t).abelianStratum ι fuel (cs.map fun c => (c, 3)) = .ok (cs.map fun c => (Function.minimalPeriod (r * u * r⁻¹ * u⁻¹) c : ℤ) - 1) ∧
    ∃ γ : ℤ, (RSurf.ofMSurf t).genus fuel (List.range n) = .ok γ ∧ (cs.map fun c => (Function.minimalPeriod (r * u * r⁻¹ * u⁻¹) c : ℤ) - 1).sum = 2 * γ - 2 := by
  obtain ⟨t', h, v, c, d, h1, -, -, -, g, -⟩ := C74_surface hI hn hlh hlv hhm hvm hx he
  rw [ht] at h1
  injection h1 with _ h1
  subst h1
  have hdart : ∀ c < n, (RSurf.ofMSurf t).IsDart (· < n) (c, 3) := fun c hc => (g.dart_iff _).2 ⟨hc, by simp⟩
  have hll : ∀ c, RSurf.lowerLeft r u⁻¹ (c, 3) = u⁻¹ c := fun _ => rfl
  have hst : (RSurf.ofMSurf t).IsStarts (· < n) (cs.map fun c => (c, 3)) := by
    refine ⟨?_, ?_, ?_⟩
    · intro d hd
      obtain ⟨c, hc, rfl⟩ := List.mem_map.1 hd
      exact hdart c (hv c hc)
    · rw [List.pairwise_map]
      refine List.Pairwise.imp_of_mem ?_ ha
      intro a b hma hmb hab hs
      rw [g.sameVertex_iff (hdart a (hv a hma)) (hdart b (hv b hmb)), hll, hll, sameCycle_vertexPerm_inv] at hs
      exact hab hs
    · intro d hd
      obtain ⟨c, hcm, hs⟩ := hcov _ ((perm_inv_lt hI.up_lt _).1 (by rw [RSurf.inv_perm_self]; exact g.lowerLeft_valid hd) : u (RSurf.lowerLeft r u⁻¹ d) < n)
      refine ⟨(c, 3), List.mem_map.2 ⟨c, hcm, rfl⟩, (g.sameVertex_iff (hdart c (hv c hcm)) hd).2 ?_⟩
      rw [hll]
      rw [← sameCycle_vertexPerm_inv, RSurf.inv_perm_self] at hs
      exact hs
  have hls : ∀ l, l < n → l ∈ List.range n := fun l hl => List.mem_range.2 hl
  obtain ⟨h1, h2⟩ := g.angles_eq hι hls (by rwa [List.length_range]) hst.dart
  rw [List.map_map] at h1 h2
  have hper : ∀ c, Function.minimalPeriod (RSurf.vertexPerm r u⁻¹) (RSurf.lowerLeft r u⁻¹ (c, 3)) = Function.minimalPeriod (r * u * r⁻¹ * u⁻¹) c :=
    fun c => by rw [hll, period_vertexPerm_inv]
  have e1 : (fun d : ℕ × ℕ => (Function.minimalPeriod (RSurf.vertexPerm r u⁻¹) (RSurf.lowerLeft r u⁻¹ d) : ℝ)) ∘ (fun c => (c, 3)) = fun c => (Function.minimalPeriod (r * u * r⁻¹ * u⁻¹) c : ℝ) :=
    funext fun c => by rw [Function.comp_apply, hper]
  have e2 : (fun d : ℕ × ℕ => (Function.minimalPeriod (RSurf.vertexPerm r u⁻¹) (RSurf.lowerLeft r u⁻¹ d) : ℤ) - 1) ∘ (fun c => (c, 3)) = fun c => (Function.minimalPeriod (r * u * r⁻¹ * u⁻¹) c : ℤ) - 1 :=
    funext fun c => by rw [Function.comp_apply, hper]
  rw [e1] at h1
  rw [e2] at h2
  obtain ⟨es, hes, hnd, hmem⟩ := RSurf.edges_spec g.closed.bordered (List.range n) List.nodup_range (fun l hl => List.mem_range.1 hl)
  have hlen : es.length ≤ 4 * n := by
    have hsub : es ⊆ (List.range n).flatMap fun l => [(l, 0), (l, 1), (l, 2), (l, 3)] := by
      rintro ⟨l, e⟩ hd
      obtain ⟨hl, hd⟩ := (hmem _).1 hd
      have := ((g.dart_iff _).1 hd).2
      rw [List.mem_flatMap]
      refine ⟨l, hl, ?_⟩
      dsimp only at this
      interval_cases e <;> simp
    have := (List.Nodup.subperm hnd hsub).length_le
    rw [List.length_flatMap] at this
    simpa [mul_comm] using this
  obtain ⟨as, ks, γ, -, k1, -, -, k2, k3⟩ := RSurf.C64_abelian_stratum hι g.closed g.translation List.nodup_range (fun l => List.mem_range) hes (fuel := fuel) (by omega) hst
  rw [h2] at k1
  injection k1 with k1
  exact ⟨hst, h1, h2, γ, k2, by rw [← k3, ← k1]⟩

omit [IsStrictOrderedRing K] in
/-- **C74.** Lists of multiplicities of the wrong lengths are refused, and the surface is untouched. -/
theorem C74_lengths (r u : ℕ → ℕ) (hl : hmult.length ≠ numH ∨ vmult.length ≠ numV) (s : MSurf ℕ (Poly K)) :
    thurstonVeech n numH numV r u hc vc hmult vmult pf x s = .error .valueError s := by
  unfold thurstonVeech tvDims
  rw [if_pos hl]
  rfl

/-! ## Examples -/

/-- The horizontal permutation `(1,2)(3,4)` of the documentation. -/
def exTVr : Equiv.Perm ℕ := Equiv.swap 0 1 * Equiv.swap 2 3

/-- The vertical permutation `(2,3)` of the documentation. -/
def exTVu : Equiv.Perm ℕ := Equiv.swap 1 2

/-- The numbers of the horizontal cylinders. -/
def exTVh (i : ℕ) : ℕ := i / 2

/-- The numbers of the vertical cylinders. -/
def exTVv (i : ℕ) : ℕ := if i = 0 then 0 else if i = 1 ∨ i = 2 then 1 else if i = 3 then 2 else i

theorem sameCycle_inv_fun {f : Equiv.Perm ℕ} {g : ℕ → ℕ} (hf : ∀ i, g (f i) = g i) {a b : ℕ} (h : f.SameCycle a b) : g a = g b := by
  obtain ⟨k, rfl⟩ := h
  have hpow : ∀ (m : ℕ) (a : ℕ), g ((f ^ m) a) = g a := by
    intro m
    induction m with
    | zero => exact fun _ => rfl
    | succ m ih => intro a; rw [pow_succ', Equiv.Perm.mul_apply, hf, ih]
  rcases Int.eq_nat_or_neg k with ⟨m, rfl | rfl⟩
  · rw [zpow_natCast, hpow]
  · rw [zpow_neg, zpow_natCast]
    have := hpow m ((f ^ m)⁻¹ a)
    rw [RSurf.perm_inv_self] at this
    exact this

theorem exTVr_big {i : ℕ} (hi : 4 ≤ i) : exTVr i = i := by
  simp only [exTVr, Equiv.Perm.mul_apply]
  rw [Equiv.swap_apply_of_ne_of_ne (a := 2) (by omega) (by omega), Equiv.swap_apply_of_ne_of_ne (by omega) (by omega)]

theorem exTVu_big {i : ℕ} (hi : 4 ≤ i) : exTVu i = i := Equiv.swap_apply_of_ne_of_ne (by omega) (by omega)

theorem exTV_input : TVInput 4 2 3 exTVr exTVu exTVh exTVv where
  right_lt i := by
    by_cases hi : i < 4
    · interval_cases i <;> decide
    · rw [exTVr_big (by omega)]
  up_lt i := by
    by_cases hi : i < 4
    · interval_cases i <;> decide
    · rw [exTVu_big (by omega)]
  h_lt := by decide
  v_lt := by decide
  h_surj := by decide
  v_surj := by decide
  h_cycle i hi j hj := by
    constructor
    · intro h
      have key : ∀ i < 4, ∀ j < 4, exTVh i = exTVh j → j = i ∨ exTVr i = j := by decide
      rcases key i hi j hj h with rfl | h
      · exact .refl _ _
      · exact ⟨1, by rw [zpow_one, h]⟩
    · refine sameCycle_inv_fun fun i => ?_
      by_cases hi : i < 4
      · interval_cases i <;> decide
      · rw [exTVr_big (by omega)]
  v_cycle i hi j hj := by
    constructor
    · intro h
      have key : ∀ i < 4, ∀ j < 4, exTVv i = exTVv j → j = i ∨ exTVu i = j := by decide
      rcases key i hi j hj h with rfl | h
      · exact .refl _ _
      · exact ⟨1, by rw [zpow_one, h]⟩
    · refine sameCycle_inv_fun fun i => ?_
      by_cases hi : i < 4
      · interval_cases i <;> decide
      · rw [exTVu_big (by omega)]

theorem exTV_eigen : IsEigen 4 2 3 exTVh exTVv ([1, 1] : List ℚ) [2, 1, 2] 4 (fun _ => 1) := by
  unfold IsEigen
  decide +kernel

/-- The example of the documentation with the multiplicities `[1, 1]` and `[2, 1, 2]` meets the hypotheses. -/
example : ∃ (t : MSurf ℕ (Poly ℚ)) (width height : ℕ → ℚ) (c d : ℚ), thurstonVeech 4 2 3 exTVr exTVu exTVh exTVv [1, 1] [2, 1, 2] 4 (fun _ => 1) MSurf.empty = .ok () t ∧
      (RSurf.ofMSurf t).Closed (· < 4) ∧ c * d = 4 ∧ t.polygon 1 = .ok [(0, 0), (width 1, 0), (width 1, height 1), (0, height 1)] := by
  obtain ⟨t, w, h, c, d, h1, h2, -, -, h3, -, -, h4, -⟩ := C74_multitwists exTV_input (by norm_num) (hmult := ([1, 1] : List ℚ)) (vmult := [2, 1, 2]) rfl rfl
    (by decide +kernel) (by decide +kernel) (pf := 4) (x := fun _ => 1) (fun _ _ => one_pos) exTV_eigen
  exact ⟨t, w, h, c, d, h1, h2, h4, (h3 1 (by norm_num)).1⟩

/-- The surface of the example. -/
def exTVSurf : MSurf ℕ (Poly ℚ) :=
  match thurstonVeech 4 2 3 exTVr exTVu exTVh exTVv ([1, 1] : List ℚ) [2, 1, 2] 4 (fun _ => 1) MSurf.empty with
  | .ok _ t => t
  | .error _ _ => MSurf.empty

/-- The size of a rectangle of this surface. -/
example : (exTVSurf.polygon 1).toOption = some [(0, 0), (1 / 2, 0), (1 / 2, 1), (0, 1)] := by decide +kernel

/-- The gluings of the second rectangle: the third one is below. -/
example : (exTVSurf.oppositeEdge 1 0).toOption = some (some (2, 2)) ∧ (exTVSurf.oppositeEdge 1 1).toOption = some (some (0, 3)) := by decide +kernel

theorem exTV_period : Function.minimalPeriod (exTVr * exTVu * exTVr⁻¹ * exTVu⁻¹) 0 = 2 ∧ Function.minimalPeriod (exTVr * exTVu * exTVr⁻¹ * exTVu⁻¹) 1 = 2 := by
  haveI : Fact (Nat.Prime 2) := ⟨by decide⟩
  constructor <;> refine Function.minimalPeriod_eq_prime ?_ ?_
  · change (exTVr * exTVu * exTVr⁻¹ * exTVu⁻¹)^[2] 0 = 0
    decide
  · change ¬ (exTVr * exTVu * exTVr⁻¹ * exTVu⁻¹) 0 = 0
    decide
  · change (exTVr * exTVu * exTVr⁻¹ * exTVu⁻¹)^[2] 1 = 1
    decide
  · change ¬ (exTVr * exTVu * exTVr⁻¹ * exTVu⁻¹) 1 = 1
    decide

/-- The stratum of the example is `H_2(1^2)`. -/
example : ∃ t, thurstonVeech 4 2 3 exTVr exTVu exTVh exTVv ([1, 1] : List ℚ) [2, 1, 2] 4 (fun _ => 1) MSurf.empty = .ok () t ∧
    (RSurf.ofMSurf t).abelianStratum (Rat.castHom ℝ) 17 [(0, 3), (1, 3)] = .ok [1, 1] ∧ (RSurf.ofMSurf t).genus 17 [0, 1, 2, 3] = .ok 2 := by
  obtain ⟨t, w, h, c, d, h1, -⟩ := C74_multitwists exTV_input (by norm_num) (hmult := ([1, 1] : List ℚ)) (vmult := [2, 1, 2]) rfl rfl
    (by decide +kernel) (by decide +kernel) (pf := 4) (x := fun _ => 1) (fun _ _ => one_pos) exTV_eigen
  obtain ⟨p0, p1⟩ := exTV_period
  have hcyc : ∀ a b, (exTVr * exTVu * exTVr⁻¹ * exTVu⁻¹) a = b → (exTVr * exTVu * exTVr⁻¹ * exTVu⁻¹).SameCycle a b := fun a b h => ⟨1, by rw [zpow_one, h]⟩
  obtain ⟨-, -, h2, γ, h3, h4⟩ := C74_stratum RSurf.castHom_strictMono exTV_input (by norm_num) (hmult := ([1, 1] : List ℚ)) (vmult := [2, 1, 2]) rfl rfl
    (by decide +kernel) (by decide +kernel) (pf := 4) (x := fun _ => 1) (fun _ _ => one_pos) exTV_eigen h1 (cs := [0, 1]) (by decide) (by
      simp only [List.pairwise_cons, List.mem_singleton, List.not_mem_nil, false_imp_iff, implies_true, List.Pairwise.nil, and_true, forall_eq]
      rw [RSurf.Grid.sameCycle_iff_iterate (by rw [p0]; norm_num), p0]
      decide) (by
      intro l hl
      have : l = 0 ∨ l = 1 ∨ (exTVr * exTVu * exTVr⁻¹ * exTVu⁻¹) 0 = l ∨ (exTVr * exTVu * exTVr⁻¹ * exTVu⁻¹) 1 = l := by
        revert l
        decide
      rcases this with rfl | rfl | h | h
      · exact ⟨0, by simp, .refl _ _⟩
      · exact ⟨1, by simp, .refl _ _⟩
      · exact ⟨0, by simp, hcyc _ _ h⟩
      · exact ⟨1, by simp, hcyc _ _ h⟩) (fuel := 17) (by norm_num)
  simp only [List.map_cons, List.map_nil, p0, p1] at h2 h4
  have hg : γ = 2 := by
    simp at h4
    omega
  subst hg
  exact ⟨t, h1, h2, h3⟩

/-- Wrong lengths. -/
example : thurstonVeech 4 2 3 exTVr exTVu exTVh exTVv ([1] : List ℚ) [2, 1, 2] 4 (fun _ => 1) MSurf.empty = .error .valueError MSurf.empty :=
  C74_lengths _ _ (by decide) _

/-- The vertical permutation `(1,2,3)`. -/
def exTVc : Equiv.Perm ℕ := Equiv.swap 0 1 * Equiv.swap 1 2

/-- **C74, violation.** The documentation says that the vertical permutation describes the gluings when going up (thurston_veech.py 9-10), but it describes
the gluings when going down: above the first square of the vertical cylinder `(1,2,3)` is the third one. -/
theorem C74_up_violation : exTVc 0 = 1 ∧
    ((match thurstonVeech 3 3 1 id exTVc id (fun _ => 0) ([1, 1, 1] : List ℚ) [1] 3 (fun _ => 1) MSurf.empty with
      | .ok _ t => (t.oppositeEdge 0 2).toOption
      | .error _ _ => none) : Option (Option (ℕ × Int))) = some (some (2, 0)) := by
  decide +kernel

end MSurf
end Flat
