import Verif.Props.Polygon

/-!
# C15: translations, half-translations and isometries between polygons
-/

namespace Flat
namespace Poly
variable {K : Type} [Field K] [LinearOrder K] [IsStrictOrderedRing K]

theorem vertex_ext {p q : Poly K} (hl : p.length = q.length) (h : ∀ i, p.vertex i = q.vertex i) : p = q := by
  apply List.ext_getElem hl
  intro i h1 h2
  have := h i
  rwa [vertex_of_lt p h1, vertex_of_lt q h2] at this

theorem edges_getElem (p : Poly K) (i : ℕ) (h : i < p.edges.length) : p.edges[i] = p.edge i := by
  simp [edges]

theorem edges_length (p : Poly K) : p.edges.length = p.length := by simp [edges]

/-- Comparing edges after applying a map and a shift. -/
theorem edges_rotate_iff (p q : Poly K) (hp : p ≠ []) (hl : p.length = q.length) (f g : Vec K → Vec K)
    (i : ℕ) : p.edges.map f = (q.edges.map g).rotate i ↔ ∀ k, f (p.edge k) = g (q.edge (k + i)) := by
  have hpos : 0 < p.length := List.length_pos_iff.2 hp
  constructor
  · intro h k
    have hk := Nat.mod_lt k hpos
    have h1 : (p.edges.map f)[k % p.length]? = some (f (p.edge k)) := by
      rw [List.getElem?_map, List.getElem?_eq_getElem (by rw [edges_length]; exact hk), edges_getElem, edge_mod]
      rfl
    rw [h, List.getElem?_rotate (by rw [List.length_map, edges_length, ← hl]; exact hk), List.getElem?_map,
      List.length_map, edges_length, List.getElem?_eq_getElem (by rw [edges_length]; exact Nat.mod_lt _ (hl ▸ hpos)),
      edges_getElem, edge_mod] at h1
    simp only [Option.map_some, Option.some.injEq] at h1
    rw [← h1]
    congr 1
    exact edge_congr q (by rw [hl]; simp)
  · intro h
    apply List.ext_getElem
    · simp [edges, hl]
    · intro k h1 h2
      simp only [List.getElem_map, List.getElem_rotate, edges_getElem, List.length_map, edges_length, edge_mod]
      exact h k

/-- `q` is the image of `p` under the linear map `A` followed by a translation, up to the numbering of
the vertices. -/
def MovedBy (A : Mat2 K) (p q : Poly K) : Prop := ∃ u k, q = (translate (p.map A.mulVec) u).rotate k

theorem vertices_of_edges (A : Mat2 K) (p q : Poly K) (i : ℕ)
    (h : ∀ k, A.mulVec (p.edge k) = q.edge (k + i)) (k : ℕ) :
    q.vertex (k + i) = (q.vertex i - A.mulVec (p.vertex 0)) + A.mulVec (p.vertex k) := by
  induction k with
  | zero => simp
  | succ k ih =>
    have h1 : q.vertex (k + 1 + i) = q.vertex (k + i) + q.edge (k + i) := by
      unfold edge
      rw [show k + 1 + i = k + i + 1 by ring]
      abel
    rw [h1, ih, ← h k, edge, ← mulVec_sub]
    abel

theorem movedBy_iff (A : Mat2 K) (p q : Poly K) (hp : p ≠ []) :
    MovedBy A p q ↔ p.length = q.length ∧ ∃ i < p.length, ∀ k, A.mulVec (p.edge k) = q.edge (k + i) := by
  have hpos : 0 < p.length := List.length_pos_iff.2 hp
  have hv : ∀ u j, vertex (translate (p.map A.mulVec) u) j = u + A.mulVec (p.vertex j) := by
    intro u j
    have := vertex_map (fun v => u + v) (p.map A.mulVec) (by simpa using hp) j
    rw [vertex_map _ p hp] at this
    exact this
  constructor
  · rintro ⟨u, j, rfl⟩
    refine ⟨by simp [translate], (p.length * (j + 1) - j) % p.length, Nat.mod_lt _ hpos, fun k => ?_⟩
    unfold edge
    rw [vertex_rotate, vertex_rotate, hv, hv, add_sub_add_left_eq_sub, mulVec_sub]
    have hjl : j ≤ p.length * (j + 1) := by nlinarith
    congr 2
    · refine vertex_congr p ?_
      rw [show k + (p.length * (j + 1) - j) % p.length + 1 + j = (k + 1 + j) + (p.length * (j + 1) - j) % p.length by
        ring, Nat.add_mod_mod, show k + 1 + j + (p.length * (j + 1) - j) = k + 1 + p.length * (j + 1) by omega]
      simp
    · refine vertex_congr p ?_
      rw [show k + (p.length * (j + 1) - j) % p.length + j = (k + j) + (p.length * (j + 1) - j) % p.length by
        ring, Nat.add_mod_mod, show k + j + (p.length * (j + 1) - j) = k + p.length * (j + 1) by omega]
      simp
  · rintro ⟨hl, i, hi, h⟩
    refine ⟨q.vertex i - A.mulVec (p.vertex 0), p.length - i, ?_⟩
    refine vertex_ext (by simp [translate, hl]) fun k => ?_
    rw [vertex_rotate, hv, ← vertices_of_edges A p q i h]
    refine (vertex_congr q ?_).symm
    rw [show k + (p.length - i) + i = k + p.length by omega, hl]
    simp

omit [LinearOrder K] [IsStrictOrderedRing K] in
theorem mulVec_one (v : Vec K) : Mat2.one.mulVec v = v := by simp [Mat2.mulVec, Mat2.one]

/-- Rotation by the angle pi. -/
def negOne : Mat2 K := ⟨-1, 0, 0, -1⟩

omit [LinearOrder K] [IsStrictOrderedRing K] in
theorem mulVec_negOne (v : Vec K) : negOne.mulVec v = -v := by
  apply Prod.ext <;> simp [Mat2.mulVec, negOne]

theorem translate_edges_iff (p q : Poly K) (hp : p ≠ []) (hl : p.length = q.length) (i : ℕ) :
    p.edges = q.edges.rotate i ↔ ∀ k, Mat2.one.mulVec (p.edge k) = q.edge (k + i) := by
  have := edges_rotate_iff p q hp hl id id i
  simp only [List.map_id, id] at this
  simp only [mulVec_one]
  exact this

theorem half_edges_iff (p q : Poly K) (hp : p ≠ []) (hl : p.length = q.length) (i : ℕ) :
    p.edges = (q.edges.map (fun e => -e)).rotate i ↔ ∀ k, negOne.mulVec (p.edge k) = q.edge (k + i) := by
  have := edges_rotate_iff p q hp hl id (fun e => -e) i
  simp only [List.map_id, id] at this
  simp only [mulVec_negOne]
  rw [this]
  refine forall_congr' fun k => ?_
  constructor
  · intro h; rw [h, neg_neg]
  · intro h; rw [← h, neg_neg]

/-- **C15.** `is_translate` is true iff the other polygon is a translate, up to the numbering of the
vertices. -/
theorem C15_is_translate_iff (p q : Poly K) (hp : p ≠ []) :
    (isTranslate p q).isSome ↔ MovedBy Mat2.one p q := by
  rw [movedBy_iff _ _ _ hp]
  unfold isTranslate
  by_cases hl : q.length = p.length
  · rw [if_neg (not_not.2 hl), List.find?_isSome]
    simp only [List.mem_range, decide_eq_true_eq, translate_edges_iff p q hp hl.symm]
    exact ⟨fun h => ⟨hl.symm, h⟩, fun h => h.2⟩
  · rw [if_pos hl]
    simp only [Option.isSome_none, Bool.false_eq_true, false_iff]
    rintro ⟨h, _⟩
    exact hl h.symm

/-- **C15**, the certificate of `is_translate`: edge 0 is moved to the edge with the returned index. -/
theorem C15_is_translate_certificate (p q : Poly K) (hp : p ≠ []) (i : ℕ) (h : isTranslate p q = some i) :
    ∃ u, ∀ k, q.vertex (k + i) = u + p.vertex k := by
  unfold isTranslate at h
  split_ifs at h with hl
  rw [not_not] at hl
  have := List.find?_some h
  rw [decide_eq_true_eq, translate_edges_iff p q hp hl.symm] at this
  exact ⟨_, fun k => by have h1 := vertices_of_edges _ p q i this k; rwa [mulVec_one (p.vertex k)] at h1⟩

/-- **C15.** `is_half_translate` is true iff the other polygon is a translate, possibly after rotation by
the angle pi. -/
theorem C15_is_half_translate_iff (p q : Poly K) (hp : p ≠ []) :
    (isHalfTranslate p q).isSome ↔ MovedBy Mat2.one p q ∨ MovedBy negOne p q := by
  rw [movedBy_iff _ _ _ hp, movedBy_iff _ _ _ hp]
  unfold isHalfTranslate
  by_cases hl : q.length = p.length
  · rw [if_neg (not_not.2 hl)]
    simp only [← translate_edges_iff p q hp hl.symm, ← half_edges_iff p q hp hl.symm]
    cases h1 : (List.range p.length).find? (fun i => p.edges = q.edges.rotate i) with
    | some i =>
      simp only [Option.isSome_some, true_iff]
      refine Or.inl ⟨hl.symm, i, List.mem_range.1 (List.mem_of_find?_eq_some h1), ?_⟩
      simpa using List.find?_some h1
    | none =>
      have hn := List.find?_eq_none.1 h1
      simp only [List.mem_range, decide_eq_true_eq] at hn
      have : ¬ (p.length = q.length ∧ ∃ i < p.length, p.edges = q.edges.rotate i) := by
        rintro ⟨_, i, hi, hh⟩; exact hn i hi hh
      simp only [this, false_or]
      cases h2 : (List.range p.length).find? (fun i => p.edges = (q.edges.map (fun e => -e)).rotate i) with
      | some i =>
        simp only [Option.isSome_some, true_iff]
        refine ⟨hl.symm, i, List.mem_range.1 (List.mem_of_find?_eq_some h2), ?_⟩
        simpa using List.find?_some h2
      | none =>
        have hn := List.find?_eq_none.1 h2
        simp only [List.mem_range, decide_eq_true_eq] at hn
        simp only [Option.isSome_none, Bool.false_eq_true, false_iff]
        rintro ⟨_, i, hi, hh⟩; exact hn i hi hh
  · rw [if_pos hl]
    simp only [Option.isSome_none, Bool.false_eq_true, false_iff]
    rintro (⟨h, _⟩ | ⟨h, _⟩) <;> exact hl h.symm

/-- **C15**, the certificate of `is_half_translate`, with the convention of its documentation
(`rot * S.edge(k + shift)` is `T.edge(k)`).  Partial: this holds for the rotation by the angle pi; for
translations the other convention is used, see `C15_half_translate_certificate_violation`. -/
theorem C15_half_translate_certificate_partial (p q : Poly K) (hp : p ≠ []) (m : ℕ) (r : Int)
    (h : isHalfTranslate p q = some (m, r)) :
    (r = 1 ∨ r = -1) ∧ (r = -1 → ∀ k, q.edge k = -p.edge (k + m)) ∧
    (r = 1 → ∀ k, q.edge (k + m) = p.edge k) := by
  unfold isHalfTranslate at h
  split_ifs at h with hl
  rw [not_not] at hl
  cases h1 : (List.range p.length).find? (fun i => p.edges = q.edges.rotate i) with
  | some i =>
    rw [h1] at h
    simp only [Option.some.injEq, Prod.mk.injEq] at h
    obtain ⟨rfl, rfl⟩ := h
    refine ⟨Or.inl rfl, by simp, fun _ k => ?_⟩
    have := List.find?_some h1
    rw [decide_eq_true_eq, translate_edges_iff p q hp hl.symm] at this
    rw [← this, mulVec_one]
  | none =>
    rw [h1] at h
    dsimp only at h
    cases h2 : (List.range p.length).find? (fun i => p.edges = (q.edges.map (fun e => -e)).rotate i) with
    | some i =>
      rw [h2] at h
      simp only [Option.some.injEq, Prod.mk.injEq] at h
      obtain ⟨rfl, rfl⟩ := h
      refine ⟨Or.inr rfl, fun _ k => ?_, by simp⟩
      have := List.find?_some h2
      rw [decide_eq_true_eq, half_edges_iff p q hp hl.symm] at this
      have hi := List.mem_range.1 (List.mem_of_find?_eq_some h2)
      have h3 := this (k + if i = 0 then 0 else p.length - i)
      rw [mulVec_negOne] at h3
      rw [h3]
      refine edge_congr q ?_
      split_ifs with h0
      · subst h0; rfl
      · rw [show k + (p.length - i) + i = k + q.length by omega]; simp
    | none => rw [h2] at h; cases h

/-- A triangle, and the same triangle with other numbering. -/
def exTri1 : Poly ℚ := [(0, 0), (3, 0), (1, 1)]
def exTri2 : Poly ℚ := [(3, 0), (1, 1), (0, 0)]

example : MovedBy Mat2.one exTri1 exTri2 := by
  refine (C15_is_translate_iff exTri1 exTri2 (by decide)).1 (by decide +kernel)

example : isTranslate exTri1 exTri2 = some 2 := by decide +kernel

example : isHalfTranslate exTri1 [(0, 0), (-1, -1), (-3, 0)] = none := by decide +kernel
example : isHalfTranslate exTri1 [(4, 4), (1, 4), (3, 3)] = some (0, -1) := by decide +kernel
example : isHalfTranslate exTri1 [(1, 4), (3, 3), (4, 4)] = some (1, -1) := by decide +kernel

/-- The documented convention of the certificate of `is_half_translate` fails for translations. -/
theorem C15_half_translate_certificate_violation :
    ∃ m, isHalfTranslate exTri1 exTri2 = some (m, 1) ∧ exTri2.edge 0 ≠ exTri1.edge (0 + m) :=
  ⟨2, by decide +kernel, by decide +kernel⟩

/-- The matrix of a rotation. -/
def IsRotation (A : Mat2 K) : Prop := A.d = A.a ∧ A.b = -A.c ∧ A.a * A.a + A.c * A.c = 1

/-- The assertions of `is_isometric` in lines 2454-2455 never fail. -/
theorem C15_isometric_asserts (s o : Vec K) (hs : s ≠ 0) (h : normSq s = normSq o) :
    let rot : Mat2 K := ⟨(o.1 * s.1 + o.2 * s.2) / normSq s, -((o.2 * s.1 - o.1 * s.2) / normSq s),
      (o.2 * s.1 - o.1 * s.2) / normSq s, (o.1 * s.1 + o.2 * s.2) / normSq s⟩
    IsRotation rot ∧ rot.mulVec s = o := by
  have hn : normSq s ≠ 0 := by
    intro h0
    apply hs
    unfold normSq at h0
    have h1 := mul_self_nonneg s.1
    have h2 := mul_self_nonneg s.2
    exact Prod.ext (mul_self_eq_zero.1 (by linarith)) (mul_self_eq_zero.1 (by linarith))
  refine ⟨⟨rfl, rfl, ?_⟩, ?_⟩
  · have : (o.1 * s.1 + o.2 * s.2) * (o.1 * s.1 + o.2 * s.2) + (o.2 * s.1 - o.1 * s.2) * (o.2 * s.1 - o.1 * s.2)
        = normSq s * normSq s := by
      conv_rhs => rw [h]
      rw [← h]
      conv_rhs => arg 1; rw [h]
      unfold normSq; ring
    field_simp
    linear_combination this
  · apply Prod.ext
    · simp only [Mat2.mulVec]
      field_simp
      unfold normSq; ring
    · simp only [Mat2.mulVec]
      field_simp
      unfold normSq; ring

theorem normSq_rotation {A : Mat2 K} (hA : IsRotation A) (v : Vec K) : normSq (A.mulVec v) = normSq v := by
  obtain ⟨h1, h2, h3⟩ := hA
  unfold normSq Mat2.mulVec
  rw [h1, h2]
  linear_combination (v.1 * v.1 + v.2 * v.2) * h3

/-- A rotation is determined by the image of one vector. -/
theorem rotation_unique {A B : Mat2 K} (hA : IsRotation A) (hB : IsRotation B) (v : Vec K) (hv : v ≠ 0)
    (h : A.mulVec v = B.mulVec v) : A = B := by
  obtain ⟨a1, a2, _⟩ := hA
  obtain ⟨b1, b2, _⟩ := hB
  have hn : v.1 * v.1 + v.2 * v.2 ≠ 0 := by
    intro h0
    apply hv
    have h1 := mul_self_nonneg v.1
    have h2 := mul_self_nonneg v.2
    exact Prod.ext (mul_self_eq_zero.1 (by linarith)) (mul_self_eq_zero.1 (by linarith))
  have e1 := congrArg Prod.fst h
  have e2 := congrArg Prod.snd h
  simp only [Mat2.mulVec, a1, a2, b1, b2] at e1 e2
  have ha : A.a = B.a := by
    apply mul_left_cancel₀ hn
    linear_combination v.1 * e1 + v.2 * e2
  have hc : A.c = B.c := by
    apply mul_left_cancel₀ hn
    linear_combination v.1 * e2 - v.2 * e1
  apply Mat2.ext
  · exact ha
  · rw [a2, b2, hc]
  · exact hc
  · rw [a1, b1, ha]

theorem isometricShift_spec (p q : Poly K) (hp : p ≠ []) (hl : p.length = q.length) (h0 : p.edge 0 ≠ 0) (i : ℕ)
    (A : Mat2 K) : isometricShift p.edges (q.edges.rotate i) = some A ↔
      IsRotation A ∧ ∀ k, A.mulVec (p.edge k) = q.edge (k + i) := by
  have hpos : 0 < p.length := List.length_pos_iff.2 hp
  have hs0 : (p.edges[0]?).getD 0 = p.edge 0 := by
    rw [List.getElem?_eq_getElem (by rw [edges_length]; exact hpos), edges_getElem]; rfl
  have ho0 : ((q.edges.rotate i)[0]?).getD 0 = q.edge i := by
    rw [List.getElem?_eq_getElem (by rw [List.length_rotate, edges_length, ← hl]; exact hpos), List.getElem_rotate,
      edges_getElem, Option.getD_some, edges_length, Nat.zero_add, edge_mod]
  have hlen : p.edges.map normSq = (q.edges.rotate i).map normSq ↔
      ∀ k, normSq (p.edge k) = normSq (q.edge (k + i)) := by
    constructor
    · intro h k
      have hk := Nat.mod_lt k hpos
      have h1 := congrArg (fun l => l[k % p.length]?) h
      simp only [List.getElem?_map] at h1
      rw [List.getElem?_eq_getElem (by rw [edges_length]; exact hk),
        List.getElem?_eq_getElem (by rw [List.length_rotate, edges_length, ← hl]; exact hk), List.getElem_rotate,
        edges_getElem, edges_getElem, edge_mod, edges_length, edge_mod] at h1
      simp only [Option.map_some, Option.some.injEq] at h1
      rw [h1]
      congr 1
      exact edge_congr q (by rw [hl]; simp)
    · intro h
      apply List.ext_getElem
      · simp [edges, hl]
      · intro k h1 h2
        simp only [List.getElem_map, List.getElem_rotate, edges_getElem, edges_length, edge_mod]
        exact h k
  have hrot : ∀ B : Mat2 K, p.edges.map B.mulVec = q.edges.rotate i ↔ ∀ k, B.mulVec (p.edge k) = q.edge (k + i) := by
    intro B
    have := edges_rotate_iff p q hp hl B.mulVec id i
    simpa using this
  unfold isometricShift
  rw [hs0, ho0]
  dsimp only
  constructor
  · intro h
    split_ifs at h with h1 h2
    injection h with h
    rw [hlen] at h1
    have hn := h1 0
    rw [Nat.zero_add] at hn
    have := (C15_isometric_asserts (p.edge 0) (q.edge i) h0 hn).1
    rw [h] at this h2
    exact ⟨this, (hrot A).1 h2⟩
  · rintro ⟨hA, hk⟩
    have h1 : ∀ k, normSq (p.edge k) = normSq (q.edge (k + i)) := fun k => by rw [← hk, normSq_rotation hA]
    rw [if_pos (hlen.2 h1)]
    have hn := h1 0
    rw [Nat.zero_add] at hn
    obtain ⟨g1, g2⟩ := C15_isometric_asserts (p.edge 0) (q.edge i) h0 hn
    have hk0 := hk 0
    rw [Nat.zero_add] at hk0
    have := rotation_unique g1 hA (p.edge 0) h0 (g2.trans hk0.symm)
    rw [this, if_pos ((hrot A).2 hk)]

/-- **C15.** `is_isometric` is true iff the other polygon is the image under a rotation followed by a
translation, up to the numbering of the vertices. -/
theorem C15_is_isometric_iff (p q : Poly K) (hp : p ≠ []) (h0 : p.edge 0 ≠ 0) :
    (isIsometric p q).isSome ↔ ∃ A, IsRotation A ∧ MovedBy A p q := by
  simp only [movedBy_iff _ _ _ hp]
  unfold isIsometric
  by_cases hl : q.length = p.length
  · rw [if_neg (not_not.2 hl), List.findSome?_isSome_iff]
    simp only [List.mem_range, Option.isSome_map]
    constructor
    · rintro ⟨i, hi, h⟩
      obtain ⟨A, hA⟩ := Option.isSome_iff_exists.1 h
      rw [isometricShift_spec p q hp hl.symm h0] at hA
      exact ⟨A, hA.1, hl.symm, i, hi, hA.2⟩
    · rintro ⟨A, hA, _, i, hi, hk⟩
      refine ⟨i, hi, ?_⟩
      rw [(isometricShift_spec p q hp hl.symm h0 i A).2 ⟨hA, hk⟩]
      rfl
  · rw [if_pos hl]
    simp only [Option.isSome_none, Bool.false_eq_true, false_iff]
    rintro ⟨A, _, h, _⟩
    exact hl h.symm

/-- **C15**, the certificate of `is_isometric`: the matrix is a rotation that maps edge `k + shift` of the
first polygon to edge `k` of the second one (the convention used in the examples of its documentation). -/
theorem C15_is_isometric_certificate (p q : Poly K) (hp : p ≠ []) (h0 : p.edge 0 ≠ 0) (m : ℕ) (A : Mat2 K)
    (h : isIsometric p q = some (m, A)) :
    IsRotation A ∧ MovedBy A p q ∧ ∀ k, A.mulVec (p.edge (k + m)) = q.edge k := by
  have hm := movedBy_iff A p q hp
  unfold isIsometric at h
  split_ifs at h with hl
  rw [not_not] at hl
  obtain ⟨i, hi, h1⟩ := List.exists_of_findSome?_eq_some h
  rw [List.mem_range] at hi
  rw [Option.map_eq_some_iff] at h1
  obtain ⟨B, hB, h2⟩ := h1
  simp only [Prod.mk.injEq] at h2
  obtain ⟨rfl, rfl⟩ := h2
  rw [isometricShift_spec p q hp hl.symm h0] at hB
  refine ⟨hB.1, hm.2 ⟨hl.symm, i, hi, hB.2⟩, fun k => ?_⟩
  rw [hB.2]
  refine edge_congr q ?_
  split_ifs with h3
  · subst h3; rfl
  · rw [show k + (p.length - i) + i = k + q.length by omega]; simp

/-- Rotation by a quarter turn, starting from another vertex. -/
example : isIsometric exTri1 [(0, 3), (-1, 1), (0, 0)] = some (1, ⟨0, -1, 1, 0⟩) ∧ exTri1.edge 0 ≠ 0 := by
  decide +kernel

/-- The documented meaning of the index (edge 0 of the first polygon is mapped to the edge with this index
of the second one) does not hold. -/
theorem C15_isometric_index_violation :
    ∃ m A, isIsometric exTri1 exTri2 = some (m, A) ∧ A.mulVec (exTri1.edge 0) ≠ exTri2.edge m :=
  ⟨1, ⟨1, 0, 0, 1⟩, by decide +kernel, by decide +kernel⟩

end Poly
end Flat
