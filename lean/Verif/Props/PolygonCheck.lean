import Verif.Props.Euclidean
import Verif.Props.PolygonIso
import Mathlib.Data.Nat.ModEq

/-!
# C58: which lists of vertices are accepted as polygons
-/

namespace Flat
namespace Poly
variable {K : Type} [Field K] [LinearOrder K] [IsStrictOrderedRing K]

/-- The sides `i` and `j` of an `n`-gon are different and have no common vertex. -/
def Apart (n i j : ℕ) : Prop := i % n ≠ j % n ∧ (i + 1) % n ≠ j % n ∧ i % n ≠ (j + 1) % n

theorem Apart.symm {n i j : ℕ} (h : Apart n i j) : Apart n j i := ⟨h.1.symm, h.2.2.symm, h.2.1.symm⟩

/-- The points of side `i`. -/
def side (p : Poly K) (i : ℕ) : Set (Vec K) := segPts (p.vertex i, p.vertex (i + 1))

theorem vertex_mod_succ (p : Poly K) (i : ℕ) : p.vertex (i % p.length + 1) = p.vertex (i + 1) := by
  simp [vertex]

theorem side_mod (p : Poly K) (i : ℕ) : p.side (i % p.length) = p.side i := by
  unfold side
  rw [vertex_mod, vertex_mod_succ]

theorem isSimple_iff (p : Poly K) (h : ∀ i, p.edge i ≠ 0) :
    p.isSimple = true ↔ ∀ i j, Apart p.length i j → p.side i ∩ p.side j = ∅ := by
  have hne : ∀ i, p.vertex i ≠ p.vertex (i + 1) := fun i hi => h i (by unfold edge; rw [hi, sub_self])
  have hz : ∀ i j, isSegmentIntersecting (p.vertex i, p.vertex (i + 1)) (p.vertex j, p.vertex (j + 1)) = .zero ↔
      p.side i ∩ p.side j = ∅ := fun i j => C07_zero_iff _ _ (hne i) (hne j)
  unfold isSimple
  simp only [List.all_eq_true, List.mem_range, List.mem_filter, decide_eq_true_eq, Bool.or_eq_true, hz]
  constructor
  · intro H
    -- for indices in order
    have key : ∀ i j, i < j → j < p.length → Apart p.length i j → p.side i ∩ p.side j = ∅ := by
      intro i j hij hj ⟨h1, h2, h3⟩
      rw [Nat.mod_eq_of_lt hj, Nat.mod_eq_of_lt (by omega)] at h2
      rcases H i (by omega) j ⟨by omega, by omega⟩ with h4 | h4
      · exfalso
        have e1 : ((i : Int) - j) % p.length = i - j + p.length := by
          rw [← Int.add_emod_right]
          exact Int.emod_eq_of_lt (by omega) (by omega)
        rw [e1] at h4
        have : i = 0 ∧ j = p.length - 1 := by omega
        obtain ⟨rfl, rfl⟩ := this
        apply h3
        rw [Nat.sub_add_cancel (by omega)]
        simp
      · exact h4
    intro i j hij
    have hn : 0 < p.length := by
      by_contra hn
      have : p.length = 0 := by omega
      apply h 0
      rw [List.length_eq_zero_iff] at this
      rw [this]
      simp [edge, vertex]
    rw [← side_mod p i, ← side_mod p j]
    have hij' : Apart p.length (i % p.length) (j % p.length) := by
      unfold Apart at hij ⊢
      simpa using hij
    have hi := Nat.mod_lt i hn
    have hj := Nat.mod_lt j hn
    rcases lt_trichotomy (i % p.length) (j % p.length) with hlt | heq | hgt
    · exact key _ _ hlt hj hij'
    · exact absurd heq hij.1
    · rw [Set.inter_comm]; exact key _ _ hgt hi hij'.symm
  · intro H i hi j ⟨hj1, hj2⟩
    by_cases hA : Apart p.length i j
    · exact Or.inr (H i j hA)
    · left
      unfold Apart at hA
      by_cases hjn : j = p.length
      · subst hjn
        simp only [Nat.mod_self, Nat.mod_eq_of_lt hi, Nat.add_mod_left] at hA
        rcases Nat.lt_or_ge (i + 1) p.length with h1 | h1
        · rw [Nat.mod_eq_of_lt h1, Nat.mod_eq_of_lt (by omega)] at hA
          have : i = 0 ∨ i = 1 := by omega
          rcases this with rfl | rfl
          · right; left; simp
          · right; right
            rw [Int.sub_emod_right]
            exact Int.emod_eq_of_lt (by norm_num) (by exact_mod_cast hi)
        · omega
      · have hjn : j < p.length := by omega
        rw [Nat.mod_eq_of_lt hi, Nat.mod_eq_of_lt hjn, Nat.mod_eq_of_lt (show i + 1 < p.length by omega)] at hA
        have : i = (j + 1) % p.length := by
          by_contra hh
          exact hA ⟨by omega, by omega, hh⟩
        rcases Nat.lt_or_ge (j + 1) p.length with h1 | h1
        · rw [Nat.mod_eq_of_lt h1] at this; omega
        · have hj' : j + 1 = p.length := by omega
          rw [hj', Nat.mod_self] at this
          subst this
          right; right
          rw [← Int.add_emod_right]
          have : ((0 : ℕ) : Int) - j + p.length = 1 := by omega
          rw [this]
          exact Int.emod_eq_of_lt (by norm_num) (by omega)

/-- A list of vertices that `_Polygon_check` accepts. -/
structure Valid (p : Poly K) : Prop where
  len3 : 3 ≤ p.length
  area_pos : 0 < p.area
  edge_ne : ∀ i, p.edge i ≠ 0
  turn : ∀ i, isAntiParallel (p.edge i) (p.edge (i + 1)) = false
  simple : ∀ i j, Apart p.length i j → p.side i ∩ p.side j = ∅

theorem check_iff (p : Poly K) (h3 : 3 ≤ p.length) : check p = .ok () ↔ Valid p := by
  have hall : ∀ Q : Vec K → Vec K → Prop, (∀ i < p.length, Q (p.vertex i) (p.vertex (i + 1))) ↔
      ∀ i, Q (p.vertex i) (p.vertex (i + 1)) := by
    intro Q
    refine ⟨fun H i => ?_, fun H i _ => H i⟩
    have := H (i % p.length) (Nat.mod_lt _ (by omega))
    rwa [vertex_mod, vertex_mod_succ] at this
  have h1 : p.edges.any (fun e => decide (e = 0)) = false ↔ ∀ i, p.edge i ≠ 0 := by
    rw [List.any_eq_false]
    simp only [edges, List.mem_map, List.mem_range, forall_exists_index, and_imp, forall_apply_eq_imp_iff₂,
      decide_eq_true_eq]
    exact hall (fun a b => b - a ≠ 0)
  have h2 : (List.range p.length).any (fun i => isAntiParallel (p.edge i) (p.edge (i + 1))) = false ↔
      ∀ i, isAntiParallel (p.edge i) (p.edge (i + 1)) = false := by
    rw [List.any_eq_false]
    simp only [List.mem_range, Bool.not_eq_true]
    refine ⟨fun H i => ?_, fun H i _ => H i⟩
    have := H (i % p.length) (Nat.mod_lt _ (by omega))
    have e1 : p.edge (i % p.length) = p.edge i := by unfold edge; rw [vertex_mod, vertex_mod_succ]
    have e2 : p.edge (i % p.length + 1) = p.edge (i + 1) := by
      unfold edge; rw [vertex_mod_succ]
      simp [vertex, Nat.add_assoc]
    rwa [e1, e2] at this
  unfold check
  constructor
  · intro H
    split_ifs at H with c1 c2 c3 c4 c5
    have hE := h1.1 (by simpa only [Bool.not_eq_true] using c3)
    exact ⟨h3, lt_of_le_of_ne (not_lt.1 c1) (Ne.symm c2), hE, h2.1 (by simpa using c4),
      (isSimple_iff p hE).1 (by simpa using c5)⟩
  · intro H
    rw [if_neg (not_lt.2 H.area_pos.le), if_neg H.area_pos.ne', if_neg (by rw [h1.2 H.edge_ne]; simp),
      if_neg (by rw [h2.2 H.turn]; simp), if_neg (by rw [(isSimple_iff p H.edge_ne).2 H.simple]; simp)]

/-- **C58.** `Polygon(vertices=...)` accepts exactly the lists of at least three vertices that go around a
positive area, without edges of length zero and without turning back, such that sides without a common vertex
do not meet. The polygon has the given vertices. -/
theorem C58_accepted_iff (vs : List (Vec K)) (p : Poly K) :
    ofVertices vs = .ok p ↔ p = vs ∧ 3 ≤ vs.length ∧ 0 < area vs ∧ (∀ i, vertex vs i ≠ vertex vs (i + 1)) ∧
      (∀ i, ¬ ∃ c < (0 : K), edge vs (i + 1) = c • edge vs i) ∧
      ∀ i j, i < vs.length → j < vs.length → i ≠ j → (i + 1) % vs.length ≠ j → (j + 1) % vs.length ≠ i →
        segPts (vertex vs i, vertex vs (i + 1)) ∩ segPts (vertex vs j, vertex vs (j + 1)) = ∅ := by
  have hs : ofVertices vs = .ok p ↔ p = vs ∧ 3 ≤ vs.length ∧ check vs = .ok () := by
    unfold ofVertices
    split_ifs with h
    · constructor
      · intro h'; cases h'
      · rintro ⟨_, h', _⟩; omega
    · cases hc : check vs with
      | error e => simp [bind, Except.bind]
      | ok u =>
        simp only [bind, Except.bind, pure, Except.pure, Except.ok.injEq]
        constructor
        · rintro rfl; exact ⟨rfl, by omega, trivial⟩
        · rintro ⟨h, _, _⟩; exact h.symm
  rw [hs]
  constructor
  · rintro ⟨rfl, h3, hc⟩
    have H := (check_iff p h3).1 hc
    refine ⟨rfl, h3, H.area_pos, fun i hi => H.edge_ne i (by unfold edge; rw [hi, sub_self]), fun i hi => ?_, ?_⟩
    · have := (C05_isAntiParallel_iff (p.edge i) (p.edge (i + 1)) (H.edge_ne i)).2 hi
      rw [H.turn i] at this
      cases this
    · intro i j hi hj h1 h2 h4
      refine H.simple i j ⟨?_, ?_, ?_⟩
      · rwa [Nat.mod_eq_of_lt hi, Nat.mod_eq_of_lt hj]
      · rwa [Nat.mod_eq_of_lt hj]
      · rw [Nat.mod_eq_of_lt hi]; exact Ne.symm h4
  · rintro ⟨rfl, h3, h4, h5, h6, h7⟩
    refine ⟨rfl, h3, (check_iff p h3).2 ?_⟩
    have hE : ∀ i, p.edge i ≠ 0 := fun i hi => h5 i (sub_eq_zero.1 hi).symm
    refine ⟨h3, h4, hE, fun i => ?_, fun i j hij => ?_⟩
    · by_contra hh
      rw [Bool.not_eq_false, C05_isAntiParallel_iff _ _ (hE i)] at hh
      exact h6 i hh
    · rw [← side_mod p i, ← side_mod p j]
      obtain ⟨h8, h9, h10⟩ := hij
      exact h7 _ _ (Nat.mod_lt _ (by omega)) (Nat.mod_lt _ (by omega)) h8 (by simpa using h9)
        (by simpa using h10.symm)

example : ofVertices [((0 : ℚ), (0 : ℚ)), (1, 0), (1, 1), (0, 1)] = .ok [(0, 0), (1, 0), (1, 1), (0, 1)] ∧
    ofVertices [((0 : ℚ), (0 : ℚ)), (1, 0), (0, 1), (1, 1)] ≠ .ok [(0, 0), (1, 0), (0, 1), (1, 1)] := by
  decide +kernel

/-- Acceptance does not depend on the vertex at which the list starts, nor on the position in the plane. -/
theorem Valid.rotate {p : Poly K} (h : Valid p) (k : ℕ) : Valid (List.rotate p k : Poly K) := by
  have hv : ∀ i, vertex (List.rotate p k) i = p.vertex (i + k) := vertex_rotate p k
  have he : ∀ i, edge (List.rotate p k) i = p.edge (i + k) := by
    intro i
    unfold edge
    rw [hv, hv, Nat.add_right_comm]
  have hl : List.length (List.rotate p k) = p.length := List.length_rotate ..
  refine ⟨by rw [hl]; exact h.len3, by rw [C09_area_rotate]; exact h.area_pos, fun i => by rw [he]; exact h.edge_ne _,
    fun i => ?_, fun i j hij => ?_⟩
  · rw [he, he, Nat.add_right_comm]; exact h.turn _
  · have hs : ∀ i, side (List.rotate p k) i = p.side (i + k) := by
      intro i
      unfold side
      rw [hv, hv, Nat.add_right_comm]
    rw [hs, hs]
    apply h.simple
    rw [hl] at hij
    obtain ⟨h1, h2, h3⟩ := hij
    have key : ∀ a b, a % p.length ≠ b % p.length → (a + k) % p.length ≠ (b + k) % p.length :=
      fun a b hab hc => hab (Nat.ModEq.add_right_cancel (Nat.ModEq.refl k) hc)
    refine ⟨key _ _ h1, ?_, ?_⟩
    · rw [Nat.add_right_comm]; exact key _ _ h2
    · rw [Nat.add_right_comm]; exact key _ _ h3

theorem vertex_translate (p : Poly K) (hp : p ≠ []) (u : Vec K) (i : ℕ) :
    (p.translate u).vertex i = u + p.vertex i := vertex_map (fun v => u + v) p hp i

theorem segPts_translate (u a b x : Vec K) : x ∈ segPts (u + a, u + b) ↔ x - u ∈ segPts (a, b) := by
  constructor
  · rintro ⟨t, h0, h1, rfl⟩
    refine ⟨t, h0, h1, ?_⟩
    simp only [Prod.ext_iff, Prod.fst_add, Prod.snd_add, Prod.fst_sub, Prod.snd_sub, Prod.smul_fst, Prod.smul_snd, smul_eq_mul]
    constructor <;> ring
  · rintro ⟨t, h0, h1, h⟩
    refine ⟨t, h0, h1, ?_⟩
    rw [sub_eq_iff_eq_add] at h
    rw [h]
    simp only [Prod.ext_iff, Prod.fst_add, Prod.snd_add, Prod.fst_sub, Prod.snd_sub, Prod.smul_fst, Prod.smul_snd, smul_eq_mul]
    constructor <;> ring

theorem Valid.translate {p : Poly K} (h : Valid p) (u : Vec K) : Valid (p.translate u) := by
  have hp : p ≠ [] := by
    rintro rfl
    have := h.len3
    simp at this
  have hv := vertex_translate p hp u
  have he : ∀ i, edge (p.translate u) i = p.edge i := by
    intro i
    unfold edge
    rw [hv, hv, add_sub_add_left_eq_sub]
  have hl : (p.translate u).length = p.length := List.length_map ..
  refine ⟨by rw [hl]; exact h.len3, by rw [C09_area_translate]; exact h.area_pos, fun i => by rw [he]; exact h.edge_ne _,
    fun i => by rw [he, he]; exact h.turn _, fun i j hij => ?_⟩
  rw [hl] at hij
  have := h.simple i j hij
  rw [Set.eq_empty_iff_forall_notMem] at this ⊢
  rintro x ⟨hx1, hx2⟩
  unfold side at hx1 hx2
  rw [hv, hv, segPts_translate] at hx1 hx2
  exact this (x - u) ⟨hx1, hx2⟩

/-- A polygon can be made from its edges. -/
theorem ofEdges_of_valid {p : Poly K} (h : Valid p) : ofEdges p.edges = .ok (p.translate (-p.vertex 0)) := by
  have hp : p ≠ [] := by
    rintro rfl
    have := h.len3
    simp at this
  have hl : p.edges.length = p.length := by simp [edges]
  unfold ofEdges
  rw [if_neg (by rw [hl]; have := h.len3; omega)]
  dsimp only
  rw [if_neg (by rw [partialSums_getLast, edges_closed]; simp), ofEdges_edges p hp,
    (check_iff _ (h.translate _).len3).2 (h.translate _)]
  rfl

end Poly
end Flat
