import Verif.Lemmas.HalfSpaceDisk

/-!
# The loop over the edges

Helper lemmas about `Verif.Model.HyperbolicPolygon`: what `dropUnitDisk` returns.
-/

namespace Flat
namespace Hyp

variable {K F : Type} [Field K] [LinearOrder K] [IsStrictOrderedRing K] [Field F] [LinearOrder F] [IsStrictOrderedRing F]

/-- What the state of the loop says about the edges that have been visited. -/
structure DiskInv (X : ℕ → Geo K) (E : ℕ → ConvexSet K) (pre : List ℕ) (s : DiskState K) : Prop where
  req : s.required = (pre.filter fun i => (E i).nondegenerate).map X
  emp : s.maybeEmpty = true ↔ ∀ i ∈ pre, E i = .empty
  pt : match s.maybePoint with
    | .yes => ∀ i ∈ pre, E i = .empty
    | .val p => (∀ i ∈ pre, E i = .empty ∨ E i = .point p) ∧ ∃ i ∈ pre, E i = .point p
    | .no => (∃ i ∈ pre, (E i).nondegenerate = true) ∨ ∃ i ∈ pre, ∃ j ∈ pre, ∃ p q, E i = .point p ∧ E j = .point q ∧ p ≠ q
  seg : match s.maybeSegment with
    | .yes => (pre.filter fun i => (E i).nondegenerate) = []
    | .val e => ∃ i, (pre.filter fun i => (E i).nondegenerate) = [i] ∧ e = E i
    | .no => ∃ i j rest, (pre.filter fun i => (E i).nondegenerate) = i :: j :: rest ∧ eqNeg (E i) (E j) = false

/-- When the assertion in the loop cannot fail. -/
def NoAssert (E : ℕ → ConvexSet K) (l : List ℕ) : Prop :=
  ∀ pre i post, l = pre ++ i :: post → ∀ j ∈ pre, ∀ p q, E j = .point q → E i = .point p → q ≠ p → (∀ k ∈ pre, (E k).nondegenerate = false) → finitePoint q = false ∧ finitePoint p = false

omit [IsStrictOrderedRing K] in
theorem diskStep_inv {X : ℕ → Geo K} {E : ℕ → ConvexSet K} {pre : List ℕ} {s : DiskState K} (h : DiskInv X E pre s) (i : ℕ)
    (hA : ∀ j ∈ pre, ∀ p q, E j = .point q → E i = .point p → q ≠ p → (∀ k ∈ pre, (E k).nondegenerate = false) → finitePoint q = false ∧ finitePoint p = false) :
    (∃ s', diskStep s (X i) (E i) = .ok (.inl s') ∧ DiskInv X E (pre ++ [i]) s') ∨
      (diskStep s (X i) (E i) = .ok (.inr (E i)) ∧ (E i).nondegenerate = true ∧ ∃ j, (pre.filter fun i => (E i).nondegenerate) = [j] ∧ eqNeg (E j) (E i) = true) := by
  obtain ⟨req, emp, pt, seg⟩ := h
  have deg : (E i).nondegenerate = false → ((pre ++ [i]).filter fun i => (E i).nondegenerate) = pre.filter fun i => (E i).nondegenerate := by
    intro hd
    rw [List.filter_append, List.filter_cons_of_neg (by simp [hd])]
    simp
  have nondeg : (E i).nondegenerate = true → ((pre ++ [i]).filter fun i => (E i).nondegenerate) = (pre.filter fun i => (E i).nondegenerate) ++ [i] := by
    intro hd
    rw [List.filter_append, List.filter_cons_of_pos (by simp [hd])]
    simp
  by_cases hd : (E i).nondegenerate = true
  · have hne1 : E i ≠ .empty := fun he => by rw [he] at hd; simp [ConvexSet.nondegenerate] at hd
    have hne2 : ∀ p, E i ≠ .point p := fun p he => by rw [he] at hd; simp [ConvexSet.nondegenerate] at hd
    have hstep : diskStep s (X i) (E i) = (match s.maybeSegment with
      | .yes => .ok (.inl { required := s.required ++ [X i], maybeEmpty := false, maybePoint := .no, maybeSegment := .val (E i) })
      | .val other =>
        if eqNeg other (E i) then .ok (.inr (E i))
        else .ok (.inl { required := s.required ++ [X i], maybeEmpty := false, maybePoint := .no, maybeSegment := .no })
      | .no => .ok (.inl { required := s.required ++ [X i], maybeEmpty := false, maybePoint := .no, maybeSegment := .no })) := by
      cases hE : E i <;> first
        | exact absurd hE hne1
        | exact absurd hE (hne2 _)
        | (simp only [diskStep]; cases s.maybeSegment <;> rfl)
    have hreq : s.required ++ [X i] = ((pre ++ [i]).filter fun i => (E i).nondegenerate).map X := by rw [nondeg hd, List.map_append, req]; rfl
    have hemp : (false = true) ↔ ∀ j ∈ pre ++ [i], E j = .empty := by
      refine iff_of_false (by simp) fun he => hne1 (he i (by simp))
    have hpt : (∃ j ∈ pre ++ [i], (E j).nondegenerate = true) ∨ ∃ i' ∈ pre ++ [i], ∃ j ∈ pre ++ [i], ∃ p q, E i' = .point p ∧ E j = .point q ∧ p ≠ q := .inl ⟨i, by simp, hd⟩
    rw [hstep]
    cases hs : s.maybeSegment with
    | yes =>
      rw [hs] at seg
      left
      exact ⟨_, rfl, hreq, hemp, hpt, i, by rw [nondeg hd, seg]; rfl, rfl⟩
    | val e =>
      rw [hs] at seg
      obtain ⟨j, hj, rfl⟩ := seg
      by_cases hq : eqNeg (E j) (E i) = true
      · right
        exact ⟨by simp only [if_pos hq], hd, j, hj, hq⟩
      · left
        refine ⟨{ required := s.required ++ [X i], maybeEmpty := false, maybePoint := .no, maybeSegment := .no }, by simp only [if_neg hq], hreq, hemp, hpt, j, i, [], by rw [nondeg hd, hj]; rfl, by simpa using hq⟩
    | no =>
      rw [hs] at seg
      obtain ⟨a, b, rest, h1, h2⟩ := seg
      left
      exact ⟨_, rfl, hreq, hemp, hpt, a, b, rest ++ [i], by rw [nondeg hd, h1]; rfl, h2⟩
  · have hd' : (E i).nondegenerate = false := by simpa using hd
    left
    have hreq : s.required = ((pre ++ [i]).filter fun i => (E i).nondegenerate).map X := by rw [deg hd', req]
    have hseg : match s.maybeSegment with
      | .yes => ((pre ++ [i]).filter fun i => (E i).nondegenerate) = []
      | .val e => ∃ j, ((pre ++ [i]).filter fun i => (E i).nondegenerate) = [j] ∧ e = E j
      | .no => ∃ i' j rest, ((pre ++ [i]).filter fun i => (E i).nondegenerate) = i' :: j :: rest ∧ eqNeg (E i') (E j) = false := by
      rw [deg hd']; exact seg
    cases hE : E i with
    | empty =>
      refine ⟨s, rfl, hreq, ?_, ?_, hseg⟩
      · rw [emp]
        constructor
        · intro h j hj
          rcases List.mem_append.mp hj with hj | hj
          · exact h j hj
          · rw [List.mem_singleton] at hj; rw [hj, hE]
        · exact fun h j hj => h j (List.mem_append_left _ hj)
      · cases hp : s.maybePoint with
        | yes =>
          rw [hp] at pt
          intro j hj
          rcases List.mem_append.mp hj with hj | hj
          · exact pt j hj
          · rw [List.mem_singleton] at hj; rw [hj, hE]
        | val p =>
          rw [hp] at pt
          refine ⟨fun j hj => ?_, pt.2.imp fun j hj => ⟨List.mem_append_left _ hj.1, hj.2⟩⟩
          rcases List.mem_append.mp hj with hj | hj
          · exact pt.1 j hj
          · rw [List.mem_singleton] at hj; rw [hj, hE]; exact .inl rfl
        | no =>
          rw [hp] at pt
          rcases pt with ⟨j, hj, h⟩ | ⟨a, ha, b, hb, h⟩
          · exact .inl ⟨j, List.mem_append_left _ hj, h⟩
          · exact .inr ⟨a, List.mem_append_left _ ha, b, List.mem_append_left _ hb, h⟩
    | point p =>
      have hemp : (false = true) ↔ ∀ j ∈ pre ++ [i], E j = .empty := by
        refine iff_of_false (by simp) fun he => ?_
        have := he i (by simp)
        rw [hE] at this
        cases this
      cases hp : s.maybePoint with
      | yes =>
        rw [hp] at pt
        refine ⟨{ s with maybeEmpty := false, maybePoint := .val p }, by simp only [diskStep, hp], hreq, hemp, ⟨fun j hj => ?_, i, by simp, hE⟩, hseg⟩
        rcases List.mem_append.mp hj with hj | hj
        · exact .inl (pt j hj)
        · rw [List.mem_singleton] at hj; rw [hj, hE]; exact .inr rfl
      | val q =>
        rw [hp] at pt
        obtain ⟨pt1, j, hj, hjq⟩ := pt
        by_cases hqp : q = p
        · subst hqp
          refine ⟨{ s with maybeEmpty := false }, by simp only [diskStep, hp, ne_eq, not_true_eq_false, if_false], hreq, hemp, ?_, hseg⟩
          simp only [hp]
          refine ⟨fun j hj => ?_, i, by simp, hE⟩
          rcases List.mem_append.mp hj with hj | hj
          · exact pt1 j hj
          · rw [List.mem_singleton] at hj; rw [hj, hE]; exact .inr rfl
        · obtain ⟨f1, f2⟩ := hA j hj p q hjq hE hqp (fun k hk => by
            rcases pt1 k hk with h | h <;> rw [h] <;> rfl)
          exact ⟨{ s with maybeEmpty := false, maybePoint := .no }, by simp only [diskStep, hp, ne_eq, hqp, not_false_eq_true, if_true, f1, f2, Bool.or_self, Bool.false_eq_true, if_false],
            hreq, hemp, .inr ⟨j, List.mem_append_left _ hj, i, by simp, q, p, hjq, hE, hqp⟩, hseg⟩
      | no =>
        rw [hp] at pt
        refine ⟨{ s with maybeEmpty := false }, by simp only [diskStep, hp], hreq, hemp, ?_, hseg⟩
        simp only [hp]
        rcases pt with ⟨j, hj, h⟩ | ⟨a, ha, b, hb, h⟩
        · exact .inl ⟨j, List.mem_append_left _ hj, h⟩
        · exact .inr ⟨a, List.mem_append_left _ ha, b, List.mem_append_left _ hb, h⟩
    | geodesic g => rw [hE] at hd'; simp [ConvexSet.nondegenerate] at hd'
    | segment g a b => rw [hE] at hd'; simp [ConvexSet.nondegenerate] at hd'
    | halfSpace g => rw [hE] at hd'; simp [ConvexSet.nondegenerate] at hd'
    | polygon l => rw [hE] at hd'; simp [ConvexSet.nondegenerate] at hd'

omit [IsStrictOrderedRing K] in
theorem diskLoop_inv {A X C : ℕ → Geo K} {E : ℕ → ConvexSet K} (hE : ∀ i, edgeOf (A i) (X i) (C i) = .ok (E i)) : ∀ (post pre : List ℕ) (s : DiskState K), DiskInv X E pre s → NoAssert E (pre ++ post) →
    (∃ s', diskLoop (post.map fun i => (A i, X i, C i)) s = .ok (.inl s') ∧ DiskInv X E (pre ++ post) s') ∨
      ∃ i j rest, diskLoop (post.map fun i => (A i, X i, C i)) s = .ok (.inr (E j)) ∧ ((pre ++ post).filter fun i => (E i).nondegenerate) = i :: j :: rest ∧ eqNeg (E i) (E j) = true := by
  intro post
  induction post with
  | nil => intro pre s h _; left; exact ⟨s, rfl, by simpa using h⟩
  | cons i post ih =>
    intro pre s h hA
    have happ : pre ++ i :: post = pre ++ [i] ++ post := by simp
    rcases diskStep_inv h i (hA pre i post rfl) with ⟨s', h1, h2⟩ | ⟨h1, h2, j, h3, h4⟩
    · have := ih (pre ++ [i]) s' h2 (by rw [← happ]; exact hA)
      simp only [List.map_cons, diskLoop, hE, bind, Except.bind, h1]
      rw [happ]
      exact this
    · right
      refine ⟨j, i, post.filter fun i => (E i).nondegenerate, ?_, ?_, h4⟩
      · simp only [List.map_cons, diskLoop, hE, bind, Except.bind, h1, pure, Except.pure]
      · rw [List.filter_append, h3, List.filter_cons_of_pos (by simp [h2])]
        rfl

theorem range_split {n : ℕ} {pre : List ℕ} {i : ℕ} {post : List ℕ} (h : List.range n = pre ++ i :: post) : i = pre.length ∧ i < n ∧ ∀ k, k ∈ pre ↔ k < i := by
  have hlen := congrArg List.length h
  simp only [List.length_range, List.length_append, List.length_cons] at hlen
  have hget : ∀ k (hk : k < n), (List.range n)[k]? = some k := fun k hk => by simp [hk]
  have hi : i = pre.length := by
    have := hget pre.length (by omega)
    rw [h] at this
    simpa using this
  refine ⟨hi, by omega, fun k => ?_⟩
  constructor
  · intro hk
    obtain ⟨m, hm, rfl⟩ := List.getElem_of_mem hk
    have := hget m (by omega)
    rw [h, List.getElem?_append_left hm, List.getElem?_eq_getElem hm, Option.some.injEq] at this
    omega
  · intro hk
    have hm : k < pre.length := by omega
    have := hget k (by omega)
    rw [h, List.getElem?_append_left hm] at this
    exact List.mem_of_getElem? this

/-- What is known about the sets that are returned: they are described by half spaces and points as economically as possible. -/
def ConvexSet.Reduced : ConvexSet K → Prop
  | .empty => True
  | .point p => InDisk p
  | .geodesic g => g.Valid
  | .segment g s e => g.Valid ∧ Normal g s e ∧ (s ≠ none ∨ e ≠ none)
  | .halfSpace g => g.Valid
  | .polygon l => 2 ≤ l.length ∧ l.Pairwise (fun g h => halfSpaceLt g h = true) ∧ (∃ x : K × K, x.1 * x.1 + x.2 * x.2 < 1 ∧ ∀ g ∈ l, 0 < g.val x) ∧
      ∀ g ∈ l, g.Valid ∧ ∃ x : K × K, InDisk x ∧ g.val x < 0 ∧ ∀ h ∈ l, h ≠ g → 0 ≤ h.val x

namespace DiskEdges

variable {L : List (Geo K)} {E : ℕ → ConvexSet K}

theorem per (h : DiskEdges L E) (i : ℕ) : E (i + L.length) = E i := by
  have h1 := h.eq (i + L.length)
  rw [show i + L.length + (L.length - 1) = i + (L.length - 1) + L.length by omega, show i + L.length + 1 = i + 1 + L.length by omega, seqOf_per, seqOf_per, seqOf_per, h.eq i] at h1
  exact (Except.ok.inj h1).symm

theorem exists_lt (h : DiskEdges L E) (i : ℕ) : ∃ j < L.length, E j = E i ∧ seqOf L j = seqOf L i := by
  have hn := h.cyc.pos
  refine ⟨i % L.length, Nat.mod_lt _ hn, ?_⟩
  have : ∀ k j, E (j + k * L.length) = E j ∧ seqOf L (j + k * L.length) = seqOf L j := by
    intro k
    induction k with
    | zero => intro j; simp
    | succ k ih =>
      intro j
      rw [Nat.succ_mul, ← Nat.add_assoc, h.per, seqOf_per]
      exact ih j
  have h1 := this (i / L.length) (i % L.length)
  rw [Nat.mod_add_div' i L.length] at h1
  exact ⟨h1.1.symm, h1.2.symm⟩

theorem noAssert (h : DiskEdges L E) : NoAssert E (List.range L.length) := by
  intro pre i post hl j hj p q hq hp hqp hdeg
  obtain ⟨-, hi, hpre⟩ := range_split hl
  have hji := (hpre j).1 hj
  constructor
  · by_contra hf
    rw [Bool.not_eq_false, finitePoint, decide_eq_true_iff] at hf
    have h1 := IsEdge.nondegenerate (h.neighbours hq hf).1
    rcases eq_or_lt_of_le (Nat.succ_le_of_lt hji) with h2 | h2
    · rw [show j + 1 = i from h2, hp] at h1
      simp [ConvexSet.nondegenerate] at h1
    · rw [hdeg _ ((hpre (j + 1)).2 h2)] at h1
      cases h1
  · by_contra hf
    rw [Bool.not_eq_false, finitePoint, decide_eq_true_iff] at hf
    have h1 := IsEdge.nondegenerate (h.neighbours hp hf).2
    rw [show i + (L.length - 1) = (i - 1) + L.length by omega, h.per, hdeg _ ((hpre (i - 1)).2 (by omega))] at h1
    cases h1

/-- If there are half planes with the same boundary and an edge, then the loop finds them. -/
theorem found (h : DiskEdges L E) {i j : ℕ} (ho : Opposite (seqOf L i) (seqOf L j)) (hi : (E i).IsEdge (seqOf L i)) :
    ∃ a b rest, ((List.range L.length).filter fun i => (E i).nondegenerate) = a :: b :: rest ∧ eqNeg (E a) (E b) = true := by
  obtain ⟨hj, h1, h2⟩ := h.opposite_edges ho hi
  obtain ⟨-, h3, -⟩ := h.opposite_edges ho.symm hj
  obtain ⟨i', hil, hie, his⟩ := h.exists_lt i
  obtain ⟨j', hjl, hje, hjs⟩ := h.exists_lt j
  have hij : i' ≠ j' := by
    rintro rfl
    rw [← his, ← hjs] at ho
    obtain ⟨s, hs, he⟩ := ho
    have hN := (h.cyc.valid i').proper.norm
    have hb := congrArg Geo.b he
    have hc := congrArg Geo.c he
    simp only [Geo.smul, Geo.neg] at hb hc
    have e1 : (1 + s) * (seqOf L i').b = 0 := by linear_combination hb
    have e2 : (1 + s) * (seqOf L i').c = 0 := by linear_combination hc
    have : (1 + s) ≠ 0 := by positivity
    rw [(mul_eq_zero.mp e1).resolve_left this, (mul_eq_zero.mp e2).resolve_left this] at hN
    simp at hN
  have inj : ∀ {a b : ℕ}, a < L.length → b < L.length → seqOf L a = seqOf L b → a = b := by
    intro a b ha hb hab
    by_contra hne
    have self : ∀ {a b : ℕ}, a < b → b < L.length → seqOf L a = seqOf L b → False := by
      intro a b hab' hb' he
      have hd := h.cyc.dist a b hab' (by omega)
      rw [← he] at hd
      have hN := (h.cyc.valid a).proper.norm
      have := hd (by simp only [Geo.cross]; ring)
      simp only [Geo.ndot] at this
      linarith
    rcases lt_or_gt_of_ne hne with h | h
    · exact self h hb hab
    · exact self h ha hab.symm
  set ll := (List.range L.length).filter fun i => (E i).nondegenerate with hll
  have hmem : ∀ k, k ∈ ll ↔ k < L.length ∧ (E k).nondegenerate = true := fun k => by simp [hll]
  have mi : i' ∈ ll := (hmem i').2 ⟨hil, by rw [hie]; exact IsEdge.nondegenerate hi⟩
  have mj : j' ∈ ll := (hmem j').2 ⟨hjl, by rw [hje]; exact IsEdge.nondegenerate hj⟩
  have only : ∀ k ∈ ll, k = i' ∨ k = j' := by
    intro k hk
    obtain ⟨k1, k2⟩ := (hmem k).1 hk
    rcases h2 k ((h.isEdge_iff k).2 k2) with h4 | h4
    · exact .inl (inj k1 hil (h4.trans his.symm))
    · exact .inr (inj k1 hjl (h4.trans hjs.symm))
  have hnd : ll.Nodup := List.nodup_range.filter _
  clear_value ll
  match ll with
  | [] => cases mi
  | [a] =>
    rw [List.mem_singleton] at mi mj
    exact absurd (mi.trans mj.symm) hij
  | a :: b :: rest =>
    refine ⟨a, b, rest, rfl, ?_⟩
    have hab : a ≠ b := by
      intro he
      rw [he] at hnd
      simp at hnd
    rcases only a (by simp) with rfl | rfl <;> rcases only b (by simp) with rfl | rfl
    · exact absurd rfl hab
    · rw [hie, hje]; exact h1
    · rw [hie, hje]; exact h3
    · exact absurd rfl hab

/-- What `dropUnitDisk` returns. -/
theorem spec (h : DiskEdges L E) (hsort : L.Pairwise fun g h => halfSpaceLt g h = true) : ∃ R, dropUnitDisk L = .ok R ∧ R.Reduced ∧
    ∀ (F : Type) [Field F] [LinearOrder F] [IsStrictOrderedRing F] (f : K →+* F), StrictMono f → ∀ z : F × F, R.Mem f z ↔ InDisk z ∧ InAll f L z := by
  have hn := h.cyc.pos
  have h0 : DiskInv (seqOf L) E [] ⟨[], true, .yes, .yes⟩ := ⟨rfl, by simp, by simp, rfl⟩
  have hall : ∀ k, (∀ i ∈ List.range L.length, (E i).nondegenerate = false) → (E k).nondegenerate = false := by
    intro k hk
    obtain ⟨j, hj, he, -⟩ := h.exists_lt k
    rw [← he]
    exact hk j (List.mem_range.mpr hj)
  have hfinK : ∀ i, ∀ p, E i = .point p → InDisk p := fun i p he => ((h.memK i p).1 (by rw [he]; rfl)).1
  rcases diskLoop_inv (A := fun i => seqOf L (i + (L.length - 1))) (X := seqOf L) (C := fun i => seqOf L (i + 1)) h.eq (List.range L.length) [] _ h0 (by simpa using h.noAssert) with
    ⟨s, hs, inv⟩ | ⟨i, j, rest, hs, hf, hq⟩
  · rw [← triples_eq] at hs
    rw [List.nil_append] at inv
    obtain ⟨req, emp, pt, seg⟩ := inv
    -- no half planes with the same boundary and an edge
    have hopp : ∀ i j, (E i).IsEdge (seqOf L i) → ¬Opposite (seqOf L i) (seqOf L j) := by
      intro i j hi ho
      obtain ⟨a, b, rest, h1, h2⟩ := h.found ho hi
      rw [h1] at seg
      cases hm : s.maybeSegment with
      | yes => rw [hm] at seg; simp at seg
      | val e => rw [hm] at seg; simp at seg
      | no =>
        rw [hm] at seg
        obtain ⟨a', b', rest', h3, h4⟩ := seg
        simp only [List.cons.injEq] at h3
        rw [← h3.1, ← h3.2.1, h2] at h4
        cases h4
    by_cases he : s.maybeEmpty = true
    · refine ⟨.empty, by simp only [dropUnitDisk, hs, bind, Except.bind, he, if_true, pure, Except.pure], trivial, fun F _ _ _ f hf z => ?_⟩
      simp only [ConvexSet.Mem, false_iff]
      rintro ⟨hd, hz⟩
      have hemp := emp.1 he
      obtain ⟨i, hi⟩ := h.mem_edge hf hz hd (fun i hi => by
        have := IsEdge.nondegenerate hi
        rw [hall i (fun k hk => by rw [hemp k hk]; rfl)] at this
        cases this)
      obtain ⟨j, hj, hje, -⟩ := h.exists_lt i
      rw [← hje, hemp j (List.mem_range.mpr hj)] at hi
      exact hi
    · cases hp : s.maybePoint with
      | yes =>
        rw [hp] at pt
        exact absurd (emp.2 pt) he
      | val p =>
        rw [hp] at pt
        obtain ⟨pt1, i, hi, hip⟩ := pt
        refine ⟨.point p, by simp only [dropUnitDisk, hs, bind, Except.bind, he, hp, pure, Except.pure]; rfl, hfinK i p hip, fun F _ _ _ f hf z => ?_⟩
        constructor
        · intro hz
          have := (h.mem i F f hf z).1 (by rw [hip]; exact hz)
          exact ⟨this.1, this.2.2⟩
        · rintro ⟨hd, hz⟩
          obtain ⟨k, hk⟩ := h.mem_edge hf hz hd (fun i hi => by
            have := IsEdge.nondegenerate hi
            rw [hall i (fun k hk => by rcases pt1 k hk with h | h <;> rw [h] <;> rfl)] at this
            cases this)
          obtain ⟨j, hj, hje, -⟩ := h.exists_lt k
          rw [← hje] at hk
          rcases pt1 j (List.mem_range.mpr hj) with h1 | h1
          · rw [h1] at hk; exact absurd hk id
          · rw [h1] at hk; exact hk
      | no =>
        rw [hp] at pt
        -- there is an edge
        have hedge : ∃ i, (E i).IsEdge (seqOf L i) := by
          rcases pt with ⟨i, hi, hd⟩ | ⟨i, hi, j, hj, p, q, hip, hjq, hpq⟩
          · exact ⟨i, (h.isEdge_iff i).2 hd⟩
          · obtain ⟨pd, -, pin⟩ := (h.memK i p).1 (by rw [hip]; rfl)
            obtain ⟨qd, -, qin⟩ := (h.memK j q).1 (by rw [hjq]; rfl)
            refine h.exists_isEdge (f := RingHom.id K) strictMono_ringHom_id (y := ((p.1 + q.1) / 2, (p.2 + q.2) / 2)) (fun g hg => ?_) ?_
            · have h1 := pin g hg
              have h2 := qin g hg
              have : (g.map (RingHom.id K)).val ((p.1 + q.1) / 2, (p.2 + q.2) / 2) = (g.val p + g.val q) / 2 := by rw [map_id_geo]; simp only [Geo.val]; ring
              rw [this]; linarith
            · unfold InDisk at pd qd
              have hd : 0 < (p.1 - q.1) * (p.1 - q.1) + (p.2 - q.2) * (p.2 - q.2) := by
                have : p.1 - q.1 ≠ 0 ∨ p.2 - q.2 ≠ 0 := by
                  by_contra hc
                  push Not at hc
                  exact hpq (Prod.ext (sub_eq_zero.mp hc.1) (sub_eq_zero.mp hc.2))
                rcases this with h | h
                · nlinarith [mul_self_pos.mpr h, mul_self_nonneg (p.2 - q.2)]
                · nlinarith [mul_self_pos.mpr h, mul_self_nonneg (p.1 - q.1)]
              show (p.1 + q.1) / 2 * ((p.1 + q.1) / 2) + (p.2 + q.2) / 2 * ((p.2 + q.2) / 2) < 1
              linarith [show (p.1 + q.1) / 2 * ((p.1 + q.1) / 2) + (p.2 + q.2) / 2 * ((p.2 + q.2) / 2) = ((p.1 * p.1 + p.2 * p.2) + (q.1 * q.1 + q.2 * q.2)) / 2 - ((p.1 - q.1) * (p.1 - q.1) + (p.2 - q.2) * (p.2 - q.2)) / 4 by ring]
        have hreq : ∀ g, g ∈ s.required ↔ ∃ i, seqOf L i = g ∧ (E i).IsEdge (seqOf L i) := by
          intro g
          rw [req, List.mem_map]
          constructor
          · rintro ⟨i, hi, rfl⟩
            exact ⟨i, rfl, (h.isEdge_iff i).2 (by simpa using (List.mem_filter.mp hi).2)⟩
          · rintro ⟨i, rfl, hi⟩
            obtain ⟨j, hj, hje, hjs⟩ := h.exists_lt i
            exact ⟨j, List.mem_filter.mpr ⟨List.mem_range.mpr hj, by rw [hje]; exact IsEdge.nondegenerate hi⟩, hjs⟩
        -- the required half planes describe the intersection
        have hsame : ∀ (F : Type) [Field F] [LinearOrder F] [IsStrictOrderedRing F] (f : K →+* F), StrictMono f → ∀ z : F × F, InDisk z ∧ InAll f s.required z ↔ InDisk z ∧ InAll f L z := by
          intro F _ _ _ f hf z
          refine and_congr_right fun hd => ⟨fun hz => ?_, fun hz g hg => ?_⟩
          · obtain ⟨i, hi⟩ := hedge
            obtain ⟨y, w, -, hy, -, yf, -⟩ := two_points (h.cyc.valid i) hi
            obtain ⟨-, -, yin⟩ := (h.memK i y).1 hy
            have yF : InAll f L (mapPt f y) := fun g hg => by rw [val_mapPt, nonneg_map hf]; exact yin g hg
            have yfF : (mapPt f y).1 * (mapPt f y).1 + (mapPt f y).2 * (mapPt f y).2 < 1 := by
              have := hf yf
              simpa [mapPt] using this
            rcases exists_exit (y := mapPt f y) (x := z) (L.map (Geo.map f)) (by simpa [InAll] using yF) with hx | ⟨t, t0, t1, ht, g, hg, hg0, hgx⟩
            · simpa [InAll] using hx
            · exfalso
              obtain ⟨g, hgL, rfl⟩ := List.mem_map.mp hg
              clear hg
              obtain ⟨k, -, rfl⟩ := exists_seqOf hgL
              have wf := shift_finite yfF hd t0 t1
              generalize shift (mapPt f y) (z.1 - (mapPt f y).1, z.2 - (mapPt f y).2) t = w at *
              have hw : (E k).Mem f w := (h.mem k F f hf w).2 ⟨wf.le, hg0, by simpa [InAll] using ht⟩
              rcases h.kind k with he | ⟨p, he⟩ | he
              · rw [he] at hw; exact hw
              · rw [he] at hw
                have hw : w = mapPt f p := hw
                rw [hw] at wf
                have hpf : f (p.1 * p.1 + p.2 * p.2) < f 1 := by simpa [mapPt] using wf
                have hpf := hf.lt_iff_lt.mp hpf
                exact hopp _ _ (h.neighbours he hpf).2 (h.opposite_of_finite he hpf)
              · have := hz _ ((hreq _).2 ⟨k, rfl, he⟩)
                linarith
          · obtain ⟨i, rfl, -⟩ := (hreq g).1 hg
            exact hz _ (seqOf_mem hn i)
        -- a point of an edge that is on no other boundary
        have hmid : ∀ g ∈ s.required, ∃ m : K × K, m.1 * m.1 + m.2 * m.2 < 1 ∧ g.val m = 0 ∧ ∀ k ∈ s.required, k ≠ g → 0 < k.val m := by
          intro g hg
          obtain ⟨i, rfl, hi⟩ := (hreq g).1 hg
          obtain ⟨y, w, hyw, hy, hw, yf, wf⟩ := two_points (h.cyc.valid i) hi
          obtain ⟨yd, y0, yin⟩ := (h.memK i y).1 hy
          obtain ⟨wd, w0, win⟩ := (h.memK i w).1 hw
          have hv : ∀ k : Geo K, k.val ((y.1 + w.1) / 2, (y.2 + w.2) / 2) = (k.val y + k.val w) / 2 := fun k => by simp only [Geo.val]; ring
          refine ⟨((y.1 + w.1) / 2, (y.2 + w.2) / 2), ?_, by rw [hv, y0, w0]; simp, fun k hk hki => ?_⟩
          · show (y.1 + w.1) / 2 * ((y.1 + w.1) / 2) + (y.2 + w.2) / 2 * ((y.2 + w.2) / 2) < 1
            nlinarith [mul_self_nonneg (y.1 - w.1), mul_self_nonneg (y.2 - w.2)]
          · obtain ⟨j, rfl, hj⟩ := (hreq k).1 hk
            rw [hv]
            have h1 := yin _ (seqOf_mem hn j)
            have h2 := win _ (seqOf_mem hn j)
            by_contra hc
            rw [not_lt] at hc
            have y1 : (seqOf L j).val y = 0 := by linarith
            have w1 : (seqOf L j).val w = 0 := by linarith
            by_cases h3 : (seqOf L i).cross (seqOf L j) = 0
            · exact hopp i j hi (opposite_of_point (h.cyc.valid i) h3 (h.distinct_of_ne hki h3) y0 y1)
            · exact hyw (inter_eq h3 y0 y1 w0 w1)
        have hneed : ∀ g ∈ s.required, g.Valid ∧ ∃ x : K × K, InDisk x ∧ g.val x < 0 ∧ ∀ k ∈ s.required, k ≠ g → 0 ≤ k.val x := by
          intro g hg
          obtain ⟨i, hi, -⟩ := (hreq g).1 hg
          have vg : g.Valid := hi ▸ h.cyc.valid i
          obtain ⟨m, mf, m0, mk⟩ := hmid g hg
          obtain ⟨ε, ε0, -, h1⟩ := small_finite mf (-g.b, -g.c)
          obtain ⟨ε', ε0', h2⟩ := exists_small (p := m) (d := (-g.b, -g.c)) (l := s.required.filter (fun k => k ≠ g)) (by
            intro k hk
            rw [List.mem_filter] at hk
            exact .inl (mk k hk.1 (by simpa using hk.2)))
          have hmin : 0 < min ε ε' := lt_min ε0 ε0'
          refine ⟨vg, shift m (-g.b, -g.c) (min ε ε'), (h1 _ hmin.le (min_le_left _ _)).le, ?_, fun k hk hkg => h2 _ hmin.le (min_le_right _ _) k (List.mem_filter.mpr ⟨hk, by simpa using hkg⟩)⟩
          have hN := vg.proper.norm
          rw [val_shift, m0]
          nlinarith
        have hint : ∃ x : K × K, x.1 * x.1 + x.2 * x.2 < 1 ∧ ∀ g ∈ s.required, 0 < g.val x := by
          obtain ⟨i, hi⟩ := hedge
          have hg : seqOf L i ∈ s.required := (hreq _).2 ⟨i, rfl, hi⟩
          obtain ⟨m, mf, m0, mk⟩ := hmid _ hg
          have vg := h.cyc.valid i
          generalize seqOf L i = g at *
          obtain ⟨ε, ε0, -, h1⟩ := small_finite mf (g.b, g.c)
          obtain ⟨ε', ε0', h2⟩ := exists_small (p := m) (d := (g.b, g.c)) (l := s.required.filter (fun k => k ≠ g)) (by
            intro k hk
            rw [List.mem_filter] at hk
            exact .inl (mk k hk.1 (by simpa using hk.2)))
          have hmin : 0 < min ε ε' := lt_min ε0 ε0'
          have hN := vg.proper.norm
          refine ⟨shift m (g.b, g.c) (min ε ε' / 2), h1 _ (by linarith) (by linarith [min_le_left ε ε']), fun k hk => ?_⟩
          by_cases hkg : k = g
          · rw [hkg, val_shift, m0]
            have : 0 < min ε ε' / 2 := by linarith
            have := mul_pos this hN
            show 0 < 0 + min ε ε' / 2 * (g.b * g.b + g.c * g.c)
            linarith
          · have a1 := h2 _ hmin.le (min_le_right _ _) k (List.mem_filter.mpr ⟨hk, by simpa using hkg⟩)
            have a2 := mk k hk hkg
            rw [val_shift] at a1 ⊢
            linarith
        have hval : dropUnitDisk L = (match s.required with
            | [] => .error .notImplemented
            | [g] => .ok (.halfSpace g)
            | l => .ok (.polygon l)) := by
          simp only [dropUnitDisk, hs, bind, Except.bind, he, hp, pure, Except.pure]
          rfl
        rw [hval]
        have hrs : s.required.Pairwise fun g h => halfSpaceLt g h = true := by
          refine hsort.sublist ?_
          have : (List.range L.length).map (seqOf L) = L := by
            apply List.ext_getElem
            · simp
            · intro i h1 h2
              rw [List.getElem_map, List.getElem_range, seqOf_lt h2]
          rw [req]
          conv_rhs => rw [← this]
          exact List.filter_sublist.map _
        match hr : s.required with
        | [] =>
          obtain ⟨i, hi⟩ := hedge
          have := (hreq _).2 ⟨i, rfl, hi⟩
          rw [hr] at this
          cases this
        | [g] =>
          rw [hr] at hsame hneed
          refine ⟨_, rfl, (hneed g (by simp)).1, fun F _ _ _ f hf z => ?_⟩
          rw [← hsame F f hf z]
          simp [ConvexSet.Mem, InAll]
        | g :: g' :: l =>
          rw [hr] at hsame hneed hint hrs
          exact ⟨_, rfl, ⟨by simp, hrs, hint, hneed⟩, fun F _ _ _ f hf z => by rw [← hsame F f hf z]; rfl⟩
  · rw [← triples_eq] at hs
    rw [List.nil_append] at hf
    have hmem : ∀ k ∈ (List.range L.length).filter fun i => (E i).nondegenerate, (E k).IsEdge (seqOf L k) := fun k hk => (h.isEdge_iff k).2 (by simpa using (List.mem_filter.mp hk).2)
    rw [hf] at hmem
    have hi := hmem i (by simp)
    have hj := hmem j (by simp)
    have ho : Opposite (seqOf L i) (seqOf L j) := by
      obtain ⟨s, e, hN, hR⟩ := hi
      obtain ⟨s', e', hN', hR'⟩ := hj
      rw [hR, hR'] at hq
      rw [← eq_neg_iff (h.cyc.valid i) (h.cyc.valid j)]
      have n1 : ∀ p q, s = some p → e = some q → p ≠ q := fun p q h1 h2 h3 => absurd (congrArg (seqOf L i).pos h3) (hN.order p h1 q h2).ne
      have n2 : ∀ p q, s' = some p → e' = some q → p ≠ q := fun p q h1 h2 h3 => absurd (congrArg (seqOf L j).pos h3) (hN'.order p h1 q h2).ne
      rcases s with _ | p <;> rcases e with _ | q <;> rcases s' with _ | p' <;> rcases e' with _ | q' <;>
        simp_all [segmentFinal, eqNeg]
    refine ⟨E j, by simp only [dropUnitDisk, hs, bind, Except.bind, pure, Except.pure], ?_, fun F _ _ _ f hf z => ?_⟩
    · obtain ⟨s, e, hN, hR⟩ := hj
      rw [hR]
      have vj := h.cyc.valid j
      rcases s with _ | p <;> rcases e with _ | q
      · exact vj
      · exact ⟨vj, hN, by simp⟩
      · exact ⟨vj, hN, by simp⟩
      · simp only [segmentFinal]
        rw [if_neg (fun he => absurd (congrArg (seqOf L j).pos he) (hN.order p rfl q rfl).ne)]
        exact ⟨vj, hN, by simp⟩
    · rw [h.mem j F f hf z]
      refine and_congr_right fun hd => ⟨fun hz => hz.2, fun hz => ⟨?_, hz⟩⟩
      obtain ⟨t, ht, hv⟩ := ho
      have h1 := hz _ (seqOf_mem hn i)
      have h2 := hz _ (seqOf_mem hn j)
      have h3 : ((seqOf L j).map f).val z = -(f t * ((seqOf L i).map f).val z) := by
        rw [hv]; simp only [Geo.map, Geo.val, Geo.smul, Geo.neg, map_mul, map_neg]; ring
      have := (pos_map hf).2 ht
      rw [h3] at h2 ⊢
      have h4 : ((seqOf L i).map f).val z = 0 := by nlinarith
      rw [h4]; ring

end DiskEdges

end Hyp
end Flat
