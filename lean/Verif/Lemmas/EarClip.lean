import Mathlib.Tactic.Abel
import Verif.Model.Triangulate
import Verif.Lemmas.Dict
import Mathlib.Data.List.Rotate
import Mathlib.Tactic.IntervalCases

/-!
# The combinatorics of ear clipping
-/

namespace Flat
namespace Poly

/-- The directed edges of a closed walk. -/
def cyc {α : Type} (u : List α) : List (α × α) := u.zip (u.rotate 1)

/-- The directed edges of a triangle. -/
def tEdges (t : Triple) : List (ℕ × ℕ) := [(t.1, t.2.1), (t.2.1, t.2.2), (t.2.2, t.1)]

theorem cyc_rotate {α : Type} (u : List α) (k : ℕ) : cyc (u.rotate k) = (cyc u).rotate k := by
  unfold cyc
  rw [List.zip, List.zipWith_rotate_distrib _ _ _ _ (by simp), List.rotate_rotate, List.rotate_rotate, Nat.add_comm]

theorem cyc_perm {α : Type} {u v : List α} (h : u ~r v) : List.Perm (cyc u) (cyc v) := by
  obtain ⟨k, rfl⟩ := h
  rw [cyc_rotate]
  exact (List.rotate_perm _ _).symm

theorem cyc_cons {α : Type} (a b : α) (r : List α) : cyc (a :: b :: r) = (a, b) :: (b :: r).zip (r ++ [a]) := by
  simp [cyc]

theorem mem_cyc {α : Type} {u : List α} {x : α × α} (h : x ∈ cyc u) : x.1 ∈ u ∧ x.2 ∈ u := by
  have := List.of_mem_zip h
  exact ⟨this.1, List.mem_rotate.1 this.2⟩

theorem cyc_nodup {α : Type} {u : List α} (h : u.Nodup) : (cyc u).Nodup := by
  refine List.Nodup.of_map Prod.fst ?_
  unfold cyc
  rw [List.map_fst_zip (by simp)]
  exact h

theorem mem_cyc_range {n : ℕ} {x : ℕ × ℕ} : x ∈ cyc (List.range n) ↔ x.1 < n ∧ x.2 = (x.1 + 1) % n := by
  unfold cyc
  rw [List.mem_iff_getElem?]
  constructor
  · rintro ⟨i, hi⟩
    rw [List.getElem?_zip_eq_some] at hi
    obtain ⟨h1, h2⟩ := hi
    have hin : i < n := by
      by_contra hh
      rw [List.getElem?_eq_none (by simp; omega)] at h1
      cases h1
    rw [List.getElem?_range hin] at h1
    rw [List.getElem?_rotate (by simpa using hin), List.length_range, List.getElem?_range (Nat.mod_lt _ (by omega))] at h2
    injection h1 with h1
    injection h2 with h2
    rw [← h1, ← h2]
    exact ⟨hin, rfl⟩
  · rintro ⟨h1, h2⟩
    refine ⟨x.1, ?_⟩
    rw [List.getElem?_zip_eq_some, List.getElem?_range h1, List.getElem?_rotate (by simpa using h1), List.length_range,
      List.getElem?_range (Nat.mod_lt _ (by omega)), h2]
    exact ⟨rfl, rfl⟩

/-- What is true while ears are clipped: `u` are the remaining corners, `T` the triangles. -/
structure EarInv (n : ℕ) (u : List ℕ) (T : List Triple) : Prop where
  nd : u.Nodup
  three : 3 ≤ u.length
  len : T.length + u.length = n
  perm : ∃ D : List (ℕ × ℕ), List.Perm (T.flatMap tEdges ++ cyc u) (cyc (List.range n) ++ D ++ D.map Prod.swap)
  nodup : (T.flatMap tEdges ++ cyc u).Nodup
  closed : ∀ x y, (x, y) ∈ T.flatMap tEdges → x ∈ u → y ∈ u → (y, x) ∈ cyc u
  lt : ∀ x ∈ T.flatMap tEdges ++ cyc u, x.1 < n ∧ x.2 < n

theorem EarInv.start {n : ℕ} (hn : 3 ≤ n) : EarInv n (List.range n) [] where
  nd := List.nodup_range
  three := by simpa using hn
  len := by simp
  perm := ⟨[], by simp⟩
  nodup := by simpa using cyc_nodup List.nodup_range
  closed := by simp
  lt x hx := by
    rw [List.flatMap_nil, List.nil_append] at hx
    have := mem_cyc hx
    exact ⟨List.mem_range.1 this.1, List.mem_range.1 this.2⟩

/-- Up to a rotation, clipping removes the second of four corners. -/
theorem erase_rotated {u : List ℕ} (h : 3 < u.length) {i : ℕ} (hi : i < u.length) :
    ∃ a b c d r, u.rotate i = a :: b :: c :: d :: r ∧ corners u i = (a, b, c) ∧
      u.eraseIdx ((i + 1) % u.length) ~r (a :: c :: d :: r) := by
  have hlen : (u.rotate i).length = u.length := List.length_rotate ..
  obtain ⟨a, b, c, d, r, hr⟩ : ∃ a b c d r, u.rotate i = a :: b :: c :: d :: r := by
    match hu : u.rotate i with
    | [] | [_] | [_, _] | [_, _, _] => rw [hu] at hlen; simp at hlen; omega
    | a :: b :: c :: d :: r => exact ⟨a, b, c, d, r, rfl⟩
  have get : ∀ k, k < u.length → (u.rotate i)[k]? = some (u.getD ((k + i) % u.length) 0) := by
    intro k hk
    rw [List.getElem?_rotate hk, List.getD_eq_getElem?_getD]
    have : (k + i) % u.length < u.length := Nat.mod_lt _ (by omega)
    rw [List.getElem?_eq_getElem this]
    rfl
  refine ⟨a, b, c, d, r, hr, ?_, ?_⟩
  · have g0 := get 0 (by omega)
    have g1 := get 1 (by omega)
    have g2 := get 2 (by omega)
    rw [hr] at g0 g1 g2
    simp only [List.getElem?_cons_zero, List.getElem?_cons_succ, Option.some.injEq, Nat.zero_add] at g0 g1 g2
    unfold corners
    rw [g0, g1, g2, Nat.mod_eq_of_lt hi, Nat.add_comm 1 i, Nat.mod_add_mod, Nat.add_comm 2 i]
  · have hrot : u.rotate i = u.drop i ++ u.take i := List.rotate_eq_drop_append_take hi.le
    rcases Nat.lt_or_ge (i + 1) u.length with h1 | h1
    · rw [Nat.mod_eq_of_lt h1, List.eraseIdx_eq_take_drop_succ]
      have hd : u.drop i = u[i] :: u[i + 1] :: u.drop (i + 2) := by
        rw [List.drop_eq_getElem_cons hi, List.drop_eq_getElem_cons h1]
      rw [hrot, hd] at hr
      simp only [List.cons_append, List.cons.injEq] at hr
      obtain ⟨ha, -, hr⟩ := hr
      rw [← ha, ← hr, List.take_succ_eq_append_getElem hi, List.append_assoc]
      exact List.isRotated_append
    · have h2 : i + 1 = u.length := by omega
      rw [h2, Nat.mod_self]
      cases u with
      | nil => simp at h
      | cons x u =>
        simp only [List.length_cons, Nat.add_right_cancel_iff] at h2
        subst h2
        simp only [List.eraseIdx_cons_zero]
        have hne : u ≠ [] := by rintro rfl; simp at h
        obtain ⟨w, z, rfl⟩ : ∃ w z, u = w ++ [z] := ⟨_, _, (List.dropLast_append_getLast hne).symm⟩
        rw [hrot] at hr
        have hd : (x :: (w ++ [z])).drop (w ++ [z]).length = [z] := by
          simp
        have ht : (x :: (w ++ [z])).take (w ++ [z]).length = x :: w := by
          simp
        rw [hd, ht] at hr
        simp only [List.cons_append, List.nil_append, List.cons.injEq] at hr
        obtain ⟨rfl, rfl, rfl⟩ := hr
        exact List.isRotated_append

/-- Clipping an ear. -/
theorem EarInv.clip {n : ℕ} {u : List ℕ} {T : List Triple} (h : EarInv n u T) (hu : 3 < u.length) {i : ℕ} (hi : i < u.length) :
    EarInv n (u.eraseIdx ((i + 1) % u.length)) (T ++ [corners u i]) := by
  obtain ⟨a, b, c, d, r, h1, h2, h3⟩ := erase_rotated hu hi
  generalize hu' : u.eraseIdx ((i + 1) % u.length) = u' at *
  have hp : List.Perm (cyc u) ((a, b) :: (b, c) :: (c :: d :: r).zip (d :: r ++ [a])) := by
    have : u ~r a :: b :: c :: d :: r := ⟨i, h1⟩
    refine (cyc_perm this).trans ?_
    rw [cyc_cons]
    simp
  have hp' : List.Perm (cyc u') ((a, c) :: (c :: d :: r).zip (d :: r ++ [a])) := by
    refine (cyc_perm h3).trans ?_
    rw [cyc_cons]
  set X := (c :: d :: r).zip (d :: r ++ [a]) with hX
  have nd4 : (a :: b :: c :: d :: r).Nodup := by rw [← h1]; exact List.nodup_rotate.2 h.nd
  have hmem : ∀ x, x ∈ u ↔ x ∈ a :: b :: c :: d :: r := fun x => by rw [← h1, List.mem_rotate]
  have hmem' : ∀ x, x ∈ u' ↔ x ∈ a :: c :: d :: r := fun x => h3.perm.mem_iff
  have nd4' := nd4
  simp only [List.nodup_cons, List.mem_cons, not_or] at nd4'
  obtain ⟨⟨hab, hac, had, har⟩, ⟨hbc, hbd, hbr⟩, ⟨hcd, hcr⟩, ⟨hdr, hrr⟩⟩ := nd4'
  have hE : ∀ x, x ∈ (T ++ [corners u i]).flatMap tEdges ↔ x ∈ T.flatMap tEdges ∨ x = (a, b) ∨ x = (b, c) ∨ x = (c, a) := by
    intro x
    rw [List.flatMap_append, List.mem_append, h2]
    simp [tEdges]
  have XfstC : ∀ y, (c, y) ∈ X → y = d := by
    intro y hy
    rw [hX, List.cons_append, List.zip_cons_cons, List.mem_cons] at hy
    rcases hy with hy | hy
    · exact (Prod.mk.inj hy).2
    · have := (List.of_mem_zip hy).1
      simp only [List.mem_cons] at this
      rcases this with h | h
      · exact absurd h hcd
      · exact absurd h hcr
  have ncaX : (c, a) ∉ X := fun hh => had (XfstC a hh)
  have nacX : (a, c) ∉ X := fun hh => by
    have := (List.of_mem_zip hh).1
    simp only [List.mem_cons] at this
    rcases this with h | h | h
    · exact hac h
    · exact had h
    · exact har h
  have au : a ∈ u := (hmem a).2 (by simp)
  have bu : b ∈ u := (hmem b).2 (by simp)
  have cu : c ∈ u := (hmem c).2 (by simp)
  have cyc_iff : ∀ x, x ∈ cyc u ↔ x = (a, b) ∨ x = (b, c) ∨ x ∈ X := fun x => by rw [hp.mem_iff]; simp
  have nacT : (a, c) ∉ T.flatMap tEdges := fun hh => by
    have := (cyc_iff _).1 (h.closed a c hh au cu)
    simp only [Prod.mk.injEq] at this
    rcases this with ⟨h, -⟩ | ⟨h, -⟩ | h
    · exact hac h.symm
    · exact hbc h.symm
    · exact ncaX h
  have ncaT : (c, a) ∉ T.flatMap tEdges := fun hh => by
    have := (cyc_iff _).1 (h.closed c a hh cu au)
    simp only [Prod.mk.injEq] at this
    rcases this with ⟨-, h⟩ | ⟨h, -⟩ | h
    · exact hbc h.symm
    · exact hab h
    · exact nacX h
  have nodup0 : (T.flatMap tEdges ++ (a, b) :: (b, c) :: X).Nodup := (List.Perm.append_left _ hp).nodup_iff.1 h.nodup
  have big : List.Perm ((T ++ [corners u i]).flatMap tEdges ++ cyc u')
      ((a, c) :: (c, a) :: (T.flatMap tEdges ++ (a, b) :: (b, c) :: X)) := by
    refine (List.Perm.append_left _ hp').trans ?_
    rw [List.flatMap_append, h2, List.perm_iff_count]
    intro x
    simp only [List.flatMap_cons, List.flatMap_nil, tEdges, List.append_nil, List.count_append, List.count_cons, List.count_nil]
    omega
  refine ⟨?_, ?_, ?_, ?_, ?_, ?_, ?_⟩
  · rw [← hu']
    exact h.nd.eraseIdx _
  · rw [h3.perm.length_eq]
    simp
  · have := h.len
    have h5 : u.length = (a :: b :: c :: d :: r).length := by rw [← h1, List.length_rotate]
    rw [h3.perm.length_eq, List.length_append]
    simp only [List.length_cons, List.length_nil] at h5 ⊢
    omega
  · obtain ⟨D, hD⟩ := h.perm
    refine ⟨(a, c) :: D, big.trans ?_⟩
    have hD' := ((List.Perm.append_left _ hp).symm.trans hD)
    rw [List.perm_iff_count] at hD' ⊢
    intro x
    have := hD' x
    simp only [List.count_append, List.count_cons, List.map_cons, Prod.swap_prod_mk] at this ⊢
    omega
  · rw [big.nodup_iff, List.nodup_cons, List.nodup_cons]
    refine ⟨?_, ?_, nodup0⟩
    · simp only [List.mem_cons, List.mem_append, Prod.mk.injEq, not_or]
      refine ⟨fun hh => hac hh.1, nacT, fun hh => hbc hh.2.symm, fun hh => hab hh.1, nacX⟩
    · simp only [List.mem_cons, List.mem_append, Prod.mk.injEq, not_or]
      refine ⟨ncaT, fun hh => hac hh.1.symm, fun hh => hbc hh.1.symm, ncaX⟩
  · intro x y hxy hx hy
    rw [hp'.mem_iff]
    have hb' : b ∉ u' := by
      rw [hmem']
      simp only [List.mem_cons, not_or]
      exact ⟨fun hh => hab hh.symm, hbc, hbd, hbr⟩
    have usub : ∀ z, z ∈ u' → z ∈ u := fun z hz => by
      rw [hmem'] at hz
      rw [hmem]
      simp only [List.mem_cons] at hz ⊢
      tauto
    rcases (hE _).1 hxy with hT | hT | hT | hT
    · have := (cyc_iff _).1 (h.closed x y hT (usub _ hx) (usub _ hy))
      rcases this with hh | hh | hh
      · rw [(Prod.mk.inj hh).2] at hx
        exact absurd hx hb'
      · rw [(Prod.mk.inj hh).1] at hy
        exact absurd hy hb'
      · exact List.mem_cons_of_mem _ hh
    · rw [(Prod.mk.inj hT).2] at hy
      exact absurd hy hb'
    · rw [(Prod.mk.inj hT).1] at hx
      exact absurd hx hb'
    · obtain ⟨rfl, rfl⟩ := Prod.mk.inj hT
      exact List.mem_cons_self
  · intro x hx
    have hlt : ∀ z ∈ u, z < n := fun z hz => by
      obtain ⟨w, hw⟩ : ∃ w, w ∈ cyc u ∧ w.1 = z := by
        have : z ∈ (cyc u).map Prod.fst := by
          unfold cyc
          rw [List.map_fst_zip (by simp)]
          exact hz
        obtain ⟨w, h1, h2⟩ := List.mem_map.1 this
        exact ⟨w, h1, h2⟩
      rw [← hw.2]
      exact (h.lt w (List.mem_append_right _ hw.1)).1
    rw [big.mem_iff] at hx
    simp only [List.mem_cons] at hx
    rcases hx with rfl | rfl | hx
    · exact ⟨hlt a au, hlt c cu⟩
    · exact ⟨hlt c cu, hlt a au⟩
    · exact h.lt x ((List.Perm.append_left _ hp).mem_iff.2 hx)

/-- What is true of the triangles in the end. -/
structure Triangulated (n : ℕ) (T : List Triple) : Prop where
  len : T.length + 2 = n
  perm : ∃ D : List (ℕ × ℕ), List.Perm (T.flatMap tEdges) (cyc (List.range n) ++ D ++ D.map Prod.swap)
  nodup : (T.flatMap tEdges).Nodup
  lt : ∀ x ∈ T.flatMap tEdges, x.1 < n ∧ x.2 < n

theorem set_fresh {α β : Type} [DecidableEq α] (d : Dict α β) (k : α) (v : β) (h : k ∉ d.keys) : d.set k v = d ++ [(k, v)] := by
  induction d with
  | nil => rfl
  | cons x d ih =>
    simp only [Dict.keys, List.map_cons, List.mem_cons, not_or] at h
    simp only [Dict.set]
    rw [if_neg (fun hh => h.1 hh.symm), ih h.2]
    rfl

theorem EarInv.fresh {n : ℕ} {u : List ℕ} {T : List Triple} (h : EarInv n u T) {t : Triple} (ht : (t.1, t.2.1) ∈ cyc u) : t ∉ T := by
  intro hT
  have : (t.1, t.2.1) ∈ T.flatMap tEdges := List.mem_flatMap.2 ⟨t, hT, by simp [tEdges]⟩
  exact (List.disjoint_of_nodup_append h.nodup) this ht

theorem zipIdx_keys (T : List Triple) : Dict.keys (T.zipIdx : Dict Triple ℕ) = T := by
  unfold Dict.keys
  simp

theorem zipIdx_snoc (T : List Triple) (t : Triple) : (T ++ [t]).zipIdx = T.zipIdx ++ [(t, T.length)] := by
  rw [List.zipIdx_append]
  simp

variable {K : Type} [Field K] [LinearOrder K]

/-- The loop that clips ears, as far as combinatorics is concerned. -/
theorem earLoop_spec (p : Poly K) {n : ℕ} (u : List ℕ) (T : List Triple) (h : EarInv n u T) (t : Dict Triple ℕ)
    (ht : earLoop p u T.zipIdx = .ok t) : ∃ T' : List Triple, t = T'.zipIdx ∧ Triangulated n T' := by
  generalize hm : u.length = m
  induction m using Nat.strong_induction_on generalizing u T with
  | _ m ih =>
    unfold earLoop at ht
    split_ifs at ht with hu
    · cases hf : findEar p u with
      | none => rw [hf] at ht; cases ht
      | some i =>
        rw [hf] at ht
        dsimp only at ht
        have hi : i < u.length := List.mem_range.1 (List.mem_of_find?_eq_some hf)
        have hfr : corners u i ∉ T := by
          refine h.fresh ?_
          obtain ⟨a, b, c, d, r, h1, h2, -⟩ := erase_rotated hu hi
          rw [h2]
          have : List.Perm (cyc u) (cyc (a :: b :: c :: d :: r)) := cyc_perm ⟨i, h1⟩
          rw [this.mem_iff, cyc_cons]
          exact List.mem_cons_self
        have hset : Dict.set (T.zipIdx : Dict Triple ℕ) (corners u i) T.zipIdx.length = (T ++ [corners u i]).zipIdx := by
          rw [set_fresh _ _ _ (by rw [zipIdx_keys]; exact hfr), zipIdx_snoc, List.length_zipIdx]
        rw [hset] at ht
        exact ih _ (by rw [← hm, List.length_eraseIdx_of_lt (Nat.mod_lt _ (by omega))]; omega) _ _ (h.clip hu hi) ht rfl
    · injection ht with ht
      have h3 : u.length = 3 := by have := h.three; omega
      obtain ⟨a, b, c, rfl⟩ := List.length_eq_three.1 h3
      have hc : cyc [a, b, c] = tEdges (a, b, c) := rfl
      have hfr : (a, b, c) ∉ T := h.fresh (by rw [hc]; simp [tEdges])
      have hE : (T ++ [(a, b, c)]).flatMap tEdges = T.flatMap tEdges ++ cyc [a, b, c] := by
        rw [List.flatMap_append, hc]
        simp
      refine ⟨T ++ [(a, b, c)], ?_, ?_, ?_, ?_, ?_⟩
      · rw [← ht, zipIdx_snoc, ← List.length_zipIdx (l := T) (i := 0)]
        exact set_fresh _ _ _ (by rw [zipIdx_keys]; exact hfr)
      · have := h.len
        simp at this ⊢
        omega
      · rw [hE]; exact h.perm
      · rw [hE]; exact h.nodup
      · rw [hE]; exact h.lt

/-! ### The dictionary of edges -/

/-- The edge `k` of a triangle. -/
def tEdge (t : Triple) (k : ℕ) : ℕ × ℕ := (tEdges t).getD k (0, 0)

/-- The list from which the dictionary is made. -/
def tEdgeList (T : List Triple) : Dict (ℕ × ℕ) (ℕ × Int) :=
  (T.zipIdx.map (fun x => ((x.1.1, x.1.2.1), ((x.2, 0) : ℕ × Int))) ++ T.zipIdx.map (fun x => ((x.1.2.1, x.1.2.2), ((x.2, 1) : ℕ × Int))) ++
    T.zipIdx.map (fun x => ((x.1.2.2, x.1.1), ((x.2, 2) : ℕ × Int))))

theorem tEdgeList_keys (T : List Triple) : List.Perm (Dict.keys (tEdgeList T)) (T.flatMap tEdges) := by
  have hk : Dict.keys (tEdgeList T) = T.map (fun t => (t.1, t.2.1)) ++ T.map (fun t => (t.2.1, t.2.2)) ++ T.map (fun t => (t.2.2, t.1)) := by
    have : ∀ (f : Triple → ℕ × ℕ), T.zipIdx.map (fun x => f x.1) = T.map f := fun f => by
      rw [show (fun x : Triple × ℕ => f x.1) = f ∘ Prod.fst from rfl, ← List.map_map]
      simp
    simp only [tEdgeList, Dict.keys, List.map_append, List.map_map, Function.comp_def]
    rw [this (fun t => (t.1, t.2.1)), this (fun t => (t.2.1, t.2.2)), this (fun t => (t.2.2, t.1))]
  rw [hk]
  clear hk
  induction T with
  | nil => rfl
  | cons t T ih =>
    rw [List.perm_iff_count] at ih ⊢
    intro x
    have := ih x
    simp only [List.flatMap_cons, tEdges, List.map_cons, List.count_append, List.count_cons, List.count_nil] at this ⊢
    omega

theorem foldl_set_nodup {α β : Type} [DecidableEq α] (l d : Dict α β) (h : (Dict.keys (d ++ l)).Nodup) :
    l.foldl (fun d x => d.set x.1 x.2) d = d ++ l := by
  induction l generalizing d with
  | nil => simp
  | cons x l ih =>
    have hx : x.1 ∉ Dict.keys d := by
      intro hx
      rw [Dict.keys, List.map_append, List.map_cons] at h
      exact List.disjoint_of_nodup_append h hx (by simp)
    rw [List.foldl_cons, set_fresh _ _ _ hx, ih]
    · simp
    · simpa using h

theorem triangleEdges_eq {T : List Triple} (h : (T.flatMap tEdges).Nodup) : triangleEdges T.zipIdx = tEdgeList T := by
  unfold triangleEdges
  rw [foldl_set_nodup]
  · rfl
  · exact (tEdgeList_keys T).nodup_iff.2 h

theorem mem_tEdgeList {T : List Triple} {x : ℕ × ℕ} {l : ℕ} {e : Int} :
    (x, (l, e)) ∈ tEdgeList T ↔ ∃ t, T[l]? = some t ∧ ∃ k : ℕ, k < 3 ∧ e = k ∧ tEdge t k = x := by
  have aux : ∀ (f : Triple → ℕ × ℕ) (c : Int), (x, (l, e)) ∈ T.zipIdx.map (fun y => (f y.1, ((y.2, c) : ℕ × Int))) ↔
      ∃ t, T[l]? = some t ∧ e = c ∧ f t = x := by
    intro f c
    rw [List.mem_map]
    constructor
    · rintro ⟨⟨t, i⟩, hy, hx⟩
      simp only [Prod.mk.injEq] at hx
      obtain ⟨h1, rfl, rfl⟩ := hx
      exact ⟨t, List.mem_zipIdx_iff_getElem?.1 hy, rfl, h1⟩
    · rintro ⟨t, h1, rfl, rfl⟩
      exact ⟨(t, l), List.mem_zipIdx_iff_getElem?.2 h1, rfl⟩
  unfold tEdgeList
  rw [List.mem_append, List.mem_append, aux (fun t => (t.1, t.2.1)) 0, aux (fun t => (t.2.1, t.2.2)) 1, aux (fun t => (t.2.2, t.1)) 2]
  constructor
  · rintro ((⟨t, h1, h2, h3⟩ | ⟨t, h1, h2, h3⟩) | ⟨t, h1, h2, h3⟩)
    · exact ⟨t, h1, 0, by norm_num, h2, h3⟩
    · exact ⟨t, h1, 1, by norm_num, h2, h3⟩
    · exact ⟨t, h1, 2, by norm_num, h2, h3⟩
  · rintro ⟨t, h1, k, hk, h2, h3⟩
    interval_cases k
    · exact Or.inl (Or.inl ⟨t, h1, h2, h3⟩)
    · exact Or.inl (Or.inr ⟨t, h1, h2, h3⟩)
    · exact Or.inr ⟨t, h1, h2, h3⟩

theorem tEdgeList_get {T : List Triple} (h : (T.flatMap tEdges).Nodup) {x : ℕ × ℕ} {l : ℕ} {e : Int} :
    Dict.get (tEdgeList T) x = some (l, e) ↔ ∃ t, T[l]? = some t ∧ ∃ k : ℕ, k < 3 ∧ e = k ∧ tEdge t k = x := by
  rw [← mem_tEdgeList]
  exact ⟨fun hh => Dict.mem_of_get _ _ _ hh, fun hh => Dict.get_of_mem _ ((tEdgeList_keys T).nodup_iff.2 h) _ _ hh⟩

theorem tEdge_mem {t : Triple} {k : ℕ} (hk : k < 3) : tEdge t k ∈ tEdges t := by
  interval_cases k <;> simp [tEdge, tEdges]

theorem edge_mem {T : List Triple} {t : Triple} {l k : ℕ} (h : T[l]? = some t) (hk : k < 3) : tEdge t k ∈ T.flatMap tEdges :=
  List.mem_flatMap.2 ⟨t, List.mem_of_getElem? h, tEdge_mem hk⟩

/-- The edges of the polygon and the diagonals. -/
theorem Triangulated.edge_cases {n : ℕ} (hn : 3 ≤ n) {T : List Triple} (h : Triangulated n T) {x : ℕ × ℕ} (hx : x ∈ T.flatMap tEdges) :
    (x.2 = (x.1 + 1) % n ∧ x.swap ∉ T.flatMap tEdges) ∨
    (¬ (x.2 = (x.1 + 1) % n ∨ x.1 = (x.2 + 1) % n) ∧ x.swap ∈ T.flatMap tEdges) := by
  obtain ⟨D, hD⟩ := h.perm
  have hnd := hD.nodup_iff.1 h.nodup
  have hlt := h.lt x hx
  have nd1 := List.disjoint_of_nodup_append hnd
  have nd2 := List.disjoint_of_nodup_append (List.Nodup.of_append_left hnd)
  have sw : x.swap ∈ D.map Prod.swap ↔ x ∈ D := by
    rw [List.mem_map]
    constructor
    · rintro ⟨y, hy, hxy⟩
      rwa [← Prod.swap_injective hxy]
    · exact fun h => ⟨x, h, rfl⟩
  have sw' : x ∈ D.map Prod.swap ↔ x.swap ∈ D := by
    rw [List.mem_map]
    constructor
    · rintro ⟨y, hy, rfl⟩
      simpa using hy
    · exact fun h => ⟨x.swap, h, by simp⟩
  have nd1' : ∀ {y}, y ∈ cyc (List.range n) ∨ y ∈ D → y ∉ D.map Prod.swap := fun hy => nd1 (List.mem_append.2 hy)
  by_cases hadj : x.2 = (x.1 + 1) % n
  · left
    refine ⟨hadj, fun hs => ?_⟩
    have hxc : x ∈ cyc (List.range n) := mem_cyc_range.2 ⟨hlt.1, hadj⟩
    rw [hD.mem_iff, List.mem_append, List.mem_append] at hs
    rcases hs with (hs | hs) | hs
    · have h1 := (mem_cyc_range.1 hs).2
      simp only [Prod.fst_swap, Prod.snd_swap] at h1
      rw [hadj] at h1
      rcases Nat.lt_or_ge (x.1 + 1) n with h2 | h2
      · rw [Nat.mod_eq_of_lt h2] at h1
        rcases Nat.lt_or_ge (x.1 + 1 + 1) n with h3 | h3
        · rw [Nat.mod_eq_of_lt h3] at h1
          omega
        · have : x.1 + 1 + 1 = n := by omega
          rw [this, Nat.mod_self] at h1
          omega
      · have : x.1 + 1 = n := by omega
        rw [this, Nat.mod_self, Nat.mod_eq_of_lt (by omega)] at h1
        omega
    · exact nd1' (Or.inl hxc) (sw'.2 hs)
    · exact nd2 hxc (sw.1 hs)
  · right
    have hxD : x ∈ D ∨ x ∈ D.map Prod.swap := by
      rw [hD.mem_iff, List.mem_append, List.mem_append] at hx
      rcases hx with (hx | hx) | hx
      · exact absurd (mem_cyc_range.1 hx).2 hadj
      · exact Or.inl hx
      · exact Or.inr hx
    have hs : x.swap ∈ D ∨ x.swap ∈ D.map Prod.swap := by
      rcases hxD with hx | hx
      · exact Or.inr (sw.2 hx)
      · exact Or.inl (sw'.1 hx)
    refine ⟨fun hh => ?_, ?_⟩
    · rcases hh with hh | hh
      · exact hadj hh
      · have hc : x.swap ∈ cyc (List.range n) := mem_cyc_range.2 ⟨hlt.2, hh⟩
        rcases hs with hs | hs
        · exact nd2 hc hs
        · exact nd1' (Or.inl hc) hs
    · rw [hD.mem_iff, List.mem_append, List.mem_append]
      rcases hs with hs | hs
      · exact Or.inl (Or.inr hs)
      · exact Or.inr hs

/-- Every edge of the polygon is an edge of a triangle. -/
theorem Triangulated.outer_mem {n : ℕ} {T : List Triple} (h : Triangulated n T) {i : ℕ} (hi : i < n) :
    (i, (i + 1) % n) ∈ T.flatMap tEdges := by
  obtain ⟨D, hD⟩ := h.perm
  rw [hD.mem_iff, List.mem_append, List.mem_append]
  exact Or.inl (Or.inl (mem_cyc_range.2 ⟨hi, rfl⟩))

/-- A sum over the edges of the triangles of something antisymmetric. -/
theorem perm_sum {M : Type} [AddCommGroup M] {n : ℕ} {T : List Triple}
    (h : ∃ D : List (ℕ × ℕ), List.Perm (T.flatMap tEdges) (cyc (List.range n) ++ D ++ D.map Prod.swap))
    (F : ℕ → ℕ → M) (hF : ∀ a b, F a b = -F b a) :
    ((T.flatMap tEdges).map (fun x => F x.1 x.2)).sum = ((List.range n).map (fun i => F i ((i + 1) % n))).sum := by
  obtain ⟨D, hD⟩ := h
  rw [(hD.map _).sum_eq, List.map_append, List.map_append, List.sum_append, List.sum_append, List.map_map]
  have h1 : (D.map ((fun x => F x.1 x.2) ∘ Prod.swap)).sum = -(D.map (fun x => F x.1 x.2)).sum := by
    clear hD
    induction D with
    | nil => simp
    | cons x D ih =>
      simp only [List.map_cons, List.sum_cons, Function.comp_apply, Prod.fst_swap, Prod.snd_swap] at ih ⊢
      rw [ih, hF x.2 x.1]
      abel
  rw [h1, add_neg_cancel_right]
  congr 1
  refine List.ext_getElem (by simp [cyc]) fun i h1 h2 => ?_
  simp [cyc, List.getElem_rotate]

theorem Triangulated.sum {n : ℕ} {T : List Triple} (h : Triangulated n T) (F : ℕ → ℕ → K) (hF : ∀ a b, F a b = -F b a) :
    ((T.flatMap tEdges).map (fun x => F x.1 x.2)).sum = ((List.range n).map (fun i => F i ((i + 1) % n))).sum :=
  perm_sum h.perm F hF

end Poly
end Flat
