import Verif.Lemmas.EdgeMap
import Verif.Props.JoinPolygons

/-!
# C27: `subdivide_polygon`
-/

namespace Flat

namespace Poly
variable {K : Type} [Field K] [LinearOrder K] [IsStrictOrderedRing K]

/-- The part of a polygon between vertices `w` and `w + k`, with the other vertex `v` in front. -/
def part (p : Poly K) (v w k : ℕ) : Poly K := p.vertex v :: (List.range k).map (fun i => p.vertex (w + i))

theorem part_length (p : Poly K) (v w k : ℕ) : (p.part v w k).length = k + 1 := by simp [part]

theorem part_vertex_zero (p : Poly K) (v w k : ℕ) : (p.part v w k).vertex 0 = p.vertex v := by
  rw [vertex_of_lt _ (by simp [part])]
  rfl

theorem part_vertex (p : Poly K) (v w k : ℕ) (h : p.vertex (w + k) = p.vertex v) (i : ℕ) (hi : i ≤ k) :
    (p.part v w k).vertex (i + 1) = p.vertex (w + i) := by
  rcases Nat.lt_or_eq_of_le hi with hi | rfl
  · rw [vertex_of_lt _ (by simp [part]; omega)]
    simp [part]
  · have h1 := vertex_add_length (p.part v w i) 0
    rw [part_length, zero_add] at h1
    rw [h1, part_vertex_zero, h]

theorem part_edge_zero (p : Poly K) (v w k : ℕ) (h : p.vertex (w + k) = p.vertex v) :
    (p.part v w k).edge 0 = p.vertex w - p.vertex v := by
  unfold edge
  rw [part_vertex p v w k h 0 (by omega), part_vertex_zero]
  rfl

theorem part_edge (p : Poly K) (v w k : ℕ) (h : p.vertex (w + k) = p.vertex v) (i : ℕ) (hi : i < k) :
    (p.part v w k).edge (i + 1) = p.edge (w + i) := by
  unfold edge
  rw [part_vertex p v w k h i hi.le, part_vertex p v w k h (i + 1) hi]
  rfl

theorem part_edges (p : Poly K) (v w k : ℕ) (h : p.vertex (w + k) = p.vertex v) :
    (p.part v w k).edges = (p.vertex w - p.vertex v) :: (List.range k).map (fun i => p.edge (w + i)) := by
  apply List.ext_getElem
  · simp [edges, part]
  · intro i h1 h2
    cases i with
    | zero => simp [edges, part_edge_zero p v w k h]
    | succ i =>
      have hi : i < k := by simpa [edges, part_length] using h1
      simp [edges, part_edge p v w k h i hi]

/-- Cutting along a diagonal, the areas add up. -/
theorem part_area (p : Poly K) (v k : ℕ) (hk : 1 ≤ k) (hk' : k < p.length) :
    (p.part v (v + k) (p.length - k)).area + (p.part (v + k) v k).area = p.area := by
  have h1 : List.rotate p v = (List.range p.length).map (fun i => p.vertex (v + i)) := by
    apply List.ext_getElem
    · simp
    · intro i h1 h2
      have h3 := vertex_rotate p v i
      rw [vertex_of_lt _ h1] at h3
      rw [h3, Nat.add_comm]
      simp
  have h2 : (List.range p.length).map (fun i => p.vertex (v + i)) =
      (p.vertex v :: (List.range (k - 1)).map (fun i => p.vertex (v + 1 + i))) ++
        p.vertex (v + k) :: (List.range (p.length - k - 1)).map (fun i => p.vertex (v + k + 1 + i)) := by
    apply List.ext_getElem
    · simp; omega
    · intro i h3 h4
      have hi : i < p.length := by simpa using h3
      simp only [List.getElem_map, List.getElem_range]
      rcases Nat.lt_or_ge i k with h | h
      · rw [List.getElem_append_left (by simp; omega)]
        cases i with
        | zero => rfl
        | succ i => simp; congr 1; omega
      · rw [List.getElem_append_right (by simp; omega)]
        obtain ⟨j, rfl⟩ : ∃ j, i = k + j := ⟨i - k, by omega⟩
        have hl : (p.vertex v :: (List.range (k - 1)).map (fun i => p.vertex (v + 1 + i))).length = k := by
          simp; omega
        simp only [hl, Nat.add_sub_cancel_left]
        cases j with
        | zero => rfl
        | succ j => simp; congr 1; omega
  have h3 : p.part (v + k) v k = p.vertex (v + k) :: p.vertex v :: (List.range (k - 1)).map (fun i => p.vertex (v + 1 + i)) := by
    unfold part
    obtain ⟨j, rfl⟩ : ∃ j, k = j + 1 := ⟨k - 1, by omega⟩
    rw [List.range_succ_eq_map, List.map_cons, List.map_map, Nat.add_sub_cancel]
    congr 2
    apply List.map_congr_left
    intro i _
    simp only [Function.comp]
    congr 1
    omega
  have h4 : p.part v (v + k) (p.length - k) =
      p.vertex v :: p.vertex (v + k) :: (List.range (p.length - k - 1)).map (fun i => p.vertex (v + k + 1 + i)) := by
    unfold part
    obtain ⟨j, hj⟩ : ∃ j, p.length - k = j + 1 := ⟨p.length - k - 1, by omega⟩
    rw [hj, List.range_succ_eq_map, List.map_cons, List.map_map, Nat.add_sub_cancel]
    congr 2
    apply List.map_congr_left
    intro i _
    simp only [Function.comp]
    congr 1
    omega
  rw [← C09_area_rotate p v, area_eq, area_eq, area_eq, h1, h2, h3, h4,
    cycSum_cut ccw (p.vertex v) (p.vertex (v + k)) _ _ (by unfold ccw; ring)]
  ring

end Poly

namespace MSurf
variable {L K : Type} [LinearOrder L] [LabelNum L] [Field K] [LinearOrder K] [IsStrictOrderedRing K]

/-- The old name of an edge after a polygon was cut. -/
def cutOld (p N : L) (n v1 v2 : ℕ) (x : L × ℕ) : L × ℕ :=
  if x.1 = p then (p, (v2 + (x.2 - 1)) % n)
  else if x.1 = N then (p, (v1 + (x.2 - 1)) % n)
  else x

/-- The edges other than the diagonal. -/
def CutEdge (p N : L) (n v1 v2 : ℕ) (x : L × ℕ) : Prop :=
  (x.1 = p → 1 ≤ x.2 ∧ x.2 < 1 + (v1 + n - v2)) ∧ (x.1 = N → 1 ≤ x.2 ∧ x.2 < 1 + (v2 - v1))

theorem mod_shift_inj {n v i j : ℕ} (hi : i < n) (hj : j < n) (h : (v + i) % n = (v + j) % n) : i = j := by
  have h1 : i ≡ j [MOD n] := Nat.ModEq.add_left_cancel (Nat.ModEq.refl v) h
  unfold Nat.ModEq at h1
  rwa [Nat.mod_eq_of_lt hi, Nat.mod_eq_of_lt hj] at h1

theorem cutOld_inj {p N : L} (hne : N ≠ p) {n v1 v2 : ℕ} (h12 : v1 < v2) (h21 : v2 < v1 + n) {x y : L × ℕ}
    (hx : CutEdge p N n v1 v2 x) (hy : CutEdge p N n v1 v2 y)
    (h : cutOld p N n v1 v2 x = cutOld p N n v1 v2 y) : x = y := by
  obtain ⟨a, i⟩ := x
  obtain ⟨b, j⟩ := y
  obtain ⟨hx1, hx2⟩ := hx
  obtain ⟨hy1, hy2⟩ := hy
  dsimp only at hx1 hx2 hy1 hy2
  unfold cutOld at h
  dsimp only at h
  -- position on the circle
  have pos : ∀ i j : ℕ, i < v1 + n - v2 → j < v2 - v1 → (v2 + i) % n ≠ (v1 + j) % n := by
    intro i j hi hj he
    have h3 := mod_shift_inj (n := n) (v := v1) (i := v2 - v1 + i) (j := j) (by omega) (by omega)
      (by rw [show v1 + (v2 - v1 + i) = v2 + i by omega]; exact he)
    omega
  by_cases ha : a = p
  · by_cases hb : b = p
    · rw [if_pos ha, if_pos hb] at h
      injection h with _ h
      obtain ⟨h3, h4⟩ := hx1 ha
      obtain ⟨h5, h6⟩ := hy1 hb
      have := mod_shift_inj (by omega) (by omega) h
      exact Prod.ext (ha.trans hb.symm) (by dsimp only; omega)
    · rw [if_pos ha, if_neg hb] at h
      obtain ⟨h3, h4⟩ := hx1 ha
      by_cases hb' : b = N
      · rw [if_pos hb'] at h
        obtain ⟨h5, h6⟩ := hy2 hb'
        injection h with _ h
        exact absurd h (pos _ _ (by omega) (by omega))
      · rw [if_neg hb'] at h
        injection h with h _
        exact absurd h.symm hb
  · rw [if_neg ha] at h
    by_cases ha' : a = N
    · rw [if_pos ha'] at h
      obtain ⟨h3, h4⟩ := hx2 ha'
      by_cases hb : b = p
      · rw [if_pos hb] at h
        obtain ⟨h5, h6⟩ := hy1 hb
        injection h with _ h
        exact absurd h.symm (pos _ _ (by omega) (by omega))
      · rw [if_neg hb] at h
        by_cases hb' : b = N
        · rw [if_pos hb'] at h
          obtain ⟨h5, h6⟩ := hy2 hb'
          injection h with _ h
          have := mod_shift_inj (by omega) (by omega) h
          exact Prod.ext (ha'.trans hb'.symm) (by dsimp only; omega)
        · rw [if_neg hb'] at h
          injection h with h _
          exact absurd h.symm hb
    · rw [if_neg ha'] at h
      by_cases hb : b = p
      · rw [if_pos hb] at h
        injection h with h _
        exact absurd h ha
      · rw [if_neg hb] at h
        by_cases hb' : b = N
        · rw [if_pos hb'] at h
          injection h with h _
          exact absurd h ha
        · rw [if_neg hb'] at h
          exact h

theorem mod_between {n v c : ℕ} (hv : v < n) (hc : c < n) : ∃ i < n, (v + i) % n = c :=
  ⟨(c + n - v) % n, Nat.mod_lt _ (by omega), rot_forth hv hc⟩

omit [LabelNum L] in
/-- `subdivideOldToNew` gives the new name of an old edge. -/
theorem subdivideOldToNew_spec {p N : L} (hne : N ≠ p) {n v1 v2 : ℕ} (hv1 : v1 < n) (h12 : v1 < v2) (h21 : v2 < v1 + n)
    (c : L × ℕ) (hN : c.1 ≠ N) (hc : c.1 = p → c.2 < n) :
    ∃ y : L × ℕ, CutEdge p N n v1 v2 y ∧ cutOld p N n v1 v2 y = c ∧
      subdivideOldToNew p N n v1 v2 (c.1, (c.2 : Int)) = (y.1, (y.2 : Int)) := by
  obtain ⟨a, k⟩ := c
  dsimp only at hN hc ⊢
  by_cases ha : a = p
  · subst ha
    unfold subdivideOldToNew
    rw [if_pos rfl]
    dsimp only
    obtain ⟨i, hi, hk⟩ := mod_between hv1 (hc rfl)
    rcases Nat.lt_or_ge i (v2 - v1) with h | h
    · have hf : (List.range (v2 - v1)).find? (fun i => (((v1 + i) % n : ℕ) : Int) = k) = some i := by
        rw [List.find?_range_eq_some]
        refine ⟨by simp [hk], List.mem_range.2 h, fun j hj => ?_⟩
        simp only [Bool.not_eq_true', decide_eq_false_iff_not, Int.natCast_inj]
        intro h3
        have := mod_shift_inj (by omega) hi (h3.trans hk.symm)
        omega
      rw [hf]
      refine ⟨(N, i + 1), ⟨fun h => absurd h hne, fun _ => ⟨by dsimp only; omega, by dsimp only; omega⟩⟩, ?_, by simp⟩
      unfold cutOld
      rw [if_neg hne, if_pos rfl]
      simp [hk]
    · have hf : (List.range (v2 - v1)).find? (fun i => (((v1 + i) % n : ℕ) : Int) = k) = none := by
        rw [List.find?_eq_none]
        intro j hj
        simp only [decide_eq_true_eq, Int.natCast_inj]
        intro h3
        have := mod_shift_inj (by have := List.mem_range.1 hj; omega) hi (h3.trans hk.symm)
        have := List.mem_range.1 hj
        omega
      rw [hf]
      dsimp only
      have hf2 : (List.range (n + v1 - v2)).find? (fun i => (((v2 + i) % n : ℕ) : Int) = k) = some (i - (v2 - v1)) := by
        rw [List.find?_range_eq_some]
        refine ⟨?_, List.mem_range.2 (by omega), fun j hj => ?_⟩
        · rw [show v2 + (i - (v2 - v1)) = v1 + i by omega]; simp [hk]
        · simp only [Bool.not_eq_true', decide_eq_false_iff_not, Int.natCast_inj]
          intro h3
          have := mod_shift_inj (n := n) (v := v1) (i := v2 - v1 + j) (j := i) (by omega) hi
            (by rw [show v1 + (v2 - v1 + j) = v2 + j by omega]; exact h3.trans hk.symm)
          omega
      rw [hf2]
      refine ⟨(a, i - (v2 - v1) + 1), ⟨fun _ => ⟨by dsimp only; omega, by dsimp only; omega⟩, fun h => absurd h.symm hne⟩, ?_, by simp⟩
      unfold cutOld
      rw [if_pos rfl]
      dsimp only
      rw [show v2 + (i - (v2 - v1) + 1 - 1) = v1 + i by omega, hk]
  · refine ⟨(a, k), ⟨fun h => absurd h ha, fun h => absurd h hN⟩, ?_, ?_⟩
    · unfold cutOld
      rw [if_neg ha, if_neg hN]
    · unfold subdivideOldToNew
      rw [if_neg ha]

theorem subdividePolygon_spec {s : MSurf L (Poly K)} (hs : Good s) (p : L) (v1 v2 : ℕ) (newLabel : Option L)
    (poly : Poly K) (hp : s.polygons.get p = some poly) (hv1 : v1 < poly.length) (hv2 : v2 < poly.length)
    (w : ℕ) (hw : w = if v2 < v1 then v2 + poly.length else v2) (h1w : v1 + 2 ≤ w) (hw1 : w + 2 ≤ v1 + poly.length) :
    wp (subdividePolygon p v1 v2 newLabel) (fun _ t => Good t ∧ ∃ N, N ∉ s.polygons.keys ∧ N ≠ p ∧
        (∀ l, newLabel = some l → N = l) ∧
        (∀ x, t.polygons.get x = if x = p then
            some (Poly.translate (poly.part v1 w (v1 + poly.length - w)) (-poly.vertex v1))
          else if x = N then some (Poly.translate (poly.part w v1 (w - v1)) (-poly.vertex w))
          else s.polygons.get x) ∧
        (∀ e < poly.length, s.opp p e ≠ none) ∧
        ∀ x e c, t.opp x e = some c ↔ ∃ k : ℕ, c.2 = k ∧
          (((x, e) = (p, 0) ∧ (c.1, k) = (N, 0)) ∨ ((x, e) = (N, 0) ∧ (c.1, k) = (p, 0)) ∨
            (CutEdge p N poly.length v1 w (x, e) ∧ CutEdge p N poly.length v1 w (c.1, k) ∧
              s.opp (cutOld p N poly.length v1 w (x, e)).1 (cutOld p N poly.length v1 w (x, e)).2 =
                some ((cutOld p N poly.length v1 w (c.1, k)).1, ((cutOld p N poly.length v1 w (c.1, k)).2 : Int)))))
      (fun _ _ => ¬ (poly.part v1 w (v1 + poly.length - w)).Valid ∨ ¬ (poly.part w v1 (w - v1)).Valid ∨
        (∃ e < poly.length, s.opp p e = none) ∨ (∃ l, newLabel = some l ∧ l ∈ s.polygons.keys) ∨
        ∃ r ∈ s.roots, r ≠ p) s := by
  have hnv : nv poly = poly.length := rfl
  have hpm : p ∈ s.polygons.keys := by rw [Dict.mem_keys_iff, hp]; rfl
  set n := poly.length with hn
  have hc1 : poly.vertex (w + (v1 + n - w)) = poly.vertex v1 := by
    rw [show w + (v1 + n - w) = v1 + n by omega, hn, Poly.vertex_add_length]
  have hc2 : poly.vertex (v1 + (w - v1)) = poly.vertex w := by rw [show v1 + (w - v1) = w by omega]
  unfold subdividePolygon
  rw [wp_bind, wp_get, wp_bind, wp_liftE, polygon_ok.2 hp]
  refine ⟨fun a ha => ?_, fun _ h' => by cases h'⟩
  injection ha with ha
  subst ha
  dsimp only
  rw [hnv, wp_ite]
  refine ⟨fun h => absurd h (by omega), fun _ => ?_⟩
  rw [wp_ite]
  refine ⟨fun h => absurd h (by split_ifs at hw <;> omega), fun _ => ?_⟩
  rw [← hw]
  rw [wp_bind, wp_liftE, ← Poly.part_edges poly v1 w (v1 + n - w) hc1]
  constructor
  swap
  · intro x hx
    left
    intro hval
    rw [Poly.ofEdges_of_valid hval] at hx
    cases hx
  intro q1 hq1
  have hq1' := Poly.ofEdges_eq (by simp [Poly.part]) hq1
  rw [Poly.part_vertex_zero] at hq1'
  rw [wp_bind, wp_liftE, ← Poly.part_edges poly w v1 (w - v1) hc2]
  constructor
  swap
  · intro x hx
    right; left
    intro hval
    rw [Poly.ofEdges_of_valid hval] at hx
    cases hx
  intro q2 hq2
  have hq2' := Poly.ofEdges_eq (by simp [Poly.part]) hq2
  rw [Poly.part_vertex_zero] at hq2'
  have hE : ∀ i, s.IsEdge p (i % n) := fun i => ⟨poly, hp, Nat.mod_lt _ (by omega)⟩
  have hopp : ∀ i, s.oppositeEdge p ((i % n : ℕ) : Int) = .ok (s.opp p (i % n)) :=
    fun i => oppositeEdge_eq_opp hs.1.toShape (hE i)
  have hmap : ∀ v k, (List.range k).mapM (fun i => s.oppositeEdge p (((v + i) % n : ℕ) : Int)) =
      .ok ((List.range k).map (fun i => s.opp p ((v + i) % n))) := by
    intro v k
    rw [mapM_ok_iff, List.forall₂_map_right_iff]
    exact List.forall₂_same.2 fun i _ => hopp _
  rw [wp_bind, wp_liftE, hmap]
  refine ⟨fun old1 hold1 => ?_, fun _ h' => by cases h'⟩
  injection hold1 with hold1
  subst hold1
  rw [wp_bind, wp_liftE, hmap]
  refine ⟨fun old2 hold2 => ?_, fun _ h' => by cases h'⟩
  injection hold2 with hold2
  subst hold2
  rw [wp_bind]
  refine wp_mono (removePolygon_left hs p hpm) ?_ (fun _ _ hh => hh.elim)
  rintro _ t1 ⟨hg1, hp1, ho1, hr1, -⟩
  rw [wp_bind]
  refine wp_mono (addPolygon_more hg1 q1 (some p) (fun l' hl' => ?_)) ?_ (fun _ _ hh => hh.elim)
  · injection hl' with hl'
    subst hl'
    rw [Dict.mem_keys_iff, hp1]
    simp
  rintro p' t2 ⟨hg2, hp', -, hp2, ho2, hr2⟩
  have hpp := hp' p rfl
  subst hpp
  have hkeys2 : ∀ x, x ∈ t2.polygons.keys ↔ x ∈ s.polygons.keys := by
    intro x
    rw [Dict.mem_keys_iff, Dict.mem_keys_iff, hp2, hp1]
    by_cases hx : x = p'
    · subst hx; simp [hp]
    · simp [hx]
  by_cases hfree : ∃ l, newLabel = some l ∧ l ∈ s.polygons.keys
  · -- the label is taken
    obtain ⟨l, rfl, hl⟩ := hfree
    rw [wp_bind]
    refine wp_mono (wp_and (addPolygon_spec hg2.1.toShape q2 (some l)) (keeps_addPolygon hg2 q2 (some l))) ?_ ?_
    · rintro N t3 ⟨⟨_, h1, ha⟩, hg⟩
      exfalso
      have := ha.fresh
      rw [h1 l rfl, hkeys2] at this
      exact this hl
    · intro _ _ _
      exact Or.inr (Or.inr (Or.inr (Or.inl ⟨l, rfl, hl⟩)))
  push Not at hfree
  rw [wp_bind]
  refine wp_mono (addPolygon_more hg2 q2 newLabel (fun l' hl' h => hfree l' hl' ((hkeys2 l').1 h))) ?_ (fun _ _ hh => hh.elim)
  rintro N t3 ⟨hg3, hN, hNfresh, hp3, ho3, hr3⟩
  rw [hkeys2] at hNfresh
  have hNp : N ≠ p' := fun h => hNfresh (by rw [h]; exact hpm)
  have hP : ∀ x, t3.polygons.get x = if x = p' then some q1 else if x = N then some q2 else s.polygons.get x := by
    intro x
    rw [hp3, hp2, hp1]
    by_cases h1 : x = p'
    · subst h1
      rw [if_neg hNp.symm, if_pos rfl, if_pos rfl]
    · rw [if_neg h1, if_neg h1, if_neg h1]
  have hO : ∀ x e c, t3.opp x e = some c ↔ s.opp x e = some c ∧ x ≠ p' ∧ c.1 ≠ p' := by
    intro x e c
    rw [ho3, ho2, ho1]
  have hq1l : q1.length = 1 + (v1 + n - w) := by rw [hq1']; simp [Poly.translate, Poly.part_length]; omega
  have hq2l : q2.length = 1 + (w - v1) := by rw [hq2']; simp [Poly.translate, Poly.part_length]; omega
  -- labels of old edges are not N
  have hsN : ∀ l e c, s.opp l e = some c → l ≠ N ∧ c.1 ≠ N := by
    rintro l e ⟨c1, c2⟩ hc
    obtain ⟨k, rfl, hk⟩ := hs.1.inv _ _ _ _ hc
    refine ⟨?_, ?_⟩
    · rintro rfl; exact hNfresh (isEdge_mem (opp_isEdge hs.1.toShape hc))
    · rintro rfl; exact hNfresh (isEdge_mem (opp_isEdge hs.1.toShape hk))
  have hslt : ∀ e c, s.opp p' e = some c → e < n := by
    intro e c hc
    obtain ⟨p'', h1, h2⟩ := opp_isEdge hs.1.toShape hc
    rw [hp] at h1
    injection h1 with h1
    subst h1
    exact h2
  let ok : L × ℕ → Prop := CutEdge p' N n v1 w
  let old : L × ℕ → L × ℕ := cutOld p' N n v1 w
  let R0 : L × ℕ → L × ℕ → Prop := fun x y => ok x ∧ ok y ∧ s.opp (old x).1 (old x).2 = some ((old y).1, ((old y).2 : Int))
  let R : L × ℕ → L × ℕ → Prop := fun x y => (x = (p', 0) ∧ y = (N, 0)) ∨ (x = (N, 0) ∧ y = (p', 0)) ∨ R0 x y
  have h12 : v1 < w := by omega
  have h21 : w < v1 + n := by omega
  have okp : ¬ ok (p', 0) := fun h => by have := (h.1 rfl).1; simp at this
  have okN : ¬ ok (N, 0) := fun h => by have := (h.2 rfl).1; simp at this
  have hR0symm : ∀ x y, R0 x y → R0 y x := by
    rintro x y ⟨h1, h2, h4⟩
    obtain ⟨k, h5, h6⟩ := hs.1.inv _ _ _ _ h4
    rw [Int.natCast_inj] at h5
    subst h5
    exact ⟨h2, h1, h6⟩
  have hRsymm : ∀ x y, R x y → R y x := by
    rintro x y (⟨h1, h2⟩ | ⟨h1, h2⟩ | h)
    · exact Or.inr (Or.inl ⟨h2, h1⟩)
    · exact Or.inl ⟨h2, h1⟩
    · exact Or.inr (Or.inr (hR0symm _ _ h))
  have hRfun : ∀ x y z, R x y → R x z → y = z := by
    rintro x y z (⟨h1, h2⟩ | ⟨h1, h2⟩ | ⟨h1, h2, h4⟩) (⟨k1, k2⟩ | ⟨k1, k2⟩ | ⟨k1, k2, k4⟩)
    · rw [h2, k2]
    · rw [h1] at k1; injection k1 with k1; exact absurd k1.symm hNp
    · rw [h1] at k1; exact absurd k1 okp
    · rw [h1] at k1; injection k1 with k1; exact absurd k1 hNp
    · rw [h2, k2]
    · rw [h1] at k1; exact absurd k1 okN
    · rw [k1] at h1; exact absurd h1 okp
    · rw [k1] at h1; exact absurd h1 okN
    · rw [h4] at k4
      simp only [Option.some.injEq, Prod.mk.injEq, Int.natCast_inj] at k4
      exact cutOld_inj hNp h12 h21 h2 k2 (Prod.ext k4.1 k4.2)
  have oldp : ∀ i, old (p', i) = (p', (w + (i - 1)) % n) := fun i => by simp [old, cutOld]
  have oldN : ∀ i, old (N, i) = (p', (v1 + (i - 1)) % n) := fun i => by simp [old, cutOld, hNp]
  have oldo : ∀ x, x.1 ≠ p' → x.1 ≠ N → old x = x := fun x h1 h2 => by simp [old, cutOld, h1, h2]
  obtain ⟨G, hT, hG⟩ := target_of_rel (t := t3) R hRsymm hRfun (by
    rintro ⟨a, i⟩ y (⟨h1, -⟩ | ⟨h1, -⟩ | ⟨h1, -, h4⟩)
    · injection h1 with ha hi
      subst ha; subst hi
      exact ⟨q1, by rw [hP, if_pos rfl], by show 0 < q1.length; omega⟩
    · injection h1 with ha hi
      subst ha; subst hi
      exact ⟨q2, by rw [hP, if_neg hNp, if_pos rfl], by show 0 < q2.length; omega⟩
    · by_cases ha : a = p'
      · exact ⟨q1, by rw [hP, if_pos ha], by show i < q1.length; rw [hq1l]; exact (h1.1 ha).2⟩
      · by_cases ha' : a = N
        · exact ⟨q2, by rw [hP, if_neg ha, if_pos ha'], by show i < q2.length; rw [hq2l]; exact (h1.2 ha').2⟩
        · rw [oldo (a, i) ha ha'] at h4
          obtain ⟨p'', h5, h6⟩ := opp_isEdge hs.1.toShape h4
          exact ⟨p'', by rw [hP, if_neg ha, if_neg ha']; exact h5, h6⟩)
  have hSub : Sub t3 G := by
    intro x e c hc
    obtain ⟨h1, h2, h4⟩ := (hO x e c).1 hc
    obtain ⟨n1, n2⟩ := hsN _ _ _ h1
    obtain ⟨c1, c2⟩ := c
    obtain ⟨k, rfl, hk⟩ := hs.1.inv _ _ _ _ h1
    rw [hG]
    refine ⟨k, rfl, Or.inr (Or.inr ⟨⟨fun h => absurd h h2, fun h => absurd h n1⟩,
      ⟨fun h => absurd h h4, fun h => absurd h n2⟩, ?_⟩)⟩
    rw [oldo (x, e) h2 n1, oldo (c1, k) h4 n2]
    exact h1
  -- the partner of an old edge
  have step : ∀ x : L × ℕ, ok x → ∀ c, (s.opp (old x).1 (old x).2).map (subdivideOldToNew p' N n v1 w) = some c →
      G x.1 x.2 = some c := by
    intro x hx c hc
    rw [Option.map_eq_some_iff] at hc
    obtain ⟨⟨c1, c2⟩, hc, rfl⟩ := hc
    obtain ⟨k, rfl, hk⟩ := hs.1.inv _ _ _ _ hc
    obtain ⟨y, hy1, hy2, hy3⟩ := subdivideOldToNew_spec hNp hv1 h12 h21 (c1, k) (hsN _ _ _ hc).2
      (fun h => by dsimp only at h; rw [h] at hk; exact hslt _ _ hk)
    dsimp only at hy3
    rw [hy3, hG]
    refine ⟨y.2, rfl, Or.inr (Or.inr ⟨hx, hy1, ?_⟩)⟩
    rw [show old (y.1, y.2) = (c1, k) from hy2]
    exact hc
  -- roots
  have hfull : ¬ FullRoots t3 → ∃ r ∈ s.roots, r ≠ p' := by
    intro hf
    by_contra hno
    push Not at hno
    apply hf
    left
    have e1 : t1.roots = [] := by
      rw [hr1, List.filter_eq_nil_iff]
      intro r hr
      simp [hno r hr]
    rw [hr3, if_pos]
    rw [hr2, if_pos e1]
  rw [wp_bind]
  refine wp_mono (glue_sub hg3.1 hg3.2.1 hg3.2.2 hT hSub p' 0 (N, 0)
    ((hG _ _ _).2 ⟨0, rfl, Or.inl ⟨rfl, rfl⟩⟩)) ?_ (fun _ _ h => Or.inr (Or.inr (Or.inr (Or.inr (hfull h.2)))))
  rintro _ t4 ⟨g4, o4⟩
  have hm4 : t4.mutable = true := by rw [g4.mutable]; exact hg3.2.1
  rw [wp_bind]
  refine wp_mono (glueOptions_sub g4.ginv hm4 g4.rootsOK (hT.congr g4.toSameTables) g4.sub p' 1 _ ?_) ?_ ?_
  · intro i hi hne
    simp only [List.length_map, List.length_range] at hi
    simp only [List.getElem_map, List.getElem_range] at hne ⊢
    obtain ⟨c, hc⟩ := Option.ne_none_iff_exists'.1 hne
    rw [hc]
    refine step (p', 1 + i) ⟨fun _ => ⟨by dsimp only; omega, by dsimp only; omega⟩, fun h => absurd h hNp.symm⟩ c ?_
    rw [oldp]
    simpa using hc
  swap
  · rintro x t' (⟨-, hnone⟩ | ⟨-, hf⟩)
    · rw [List.mem_map] at hnone
      obtain ⟨c, hc, hc'⟩ := hnone
      rw [List.mem_map] at hc
      obtain ⟨i, -, rfl⟩ := hc
      rw [Option.map_eq_none_iff] at hc'
      exact Or.inr (Or.inr (Or.inl ⟨_, Nat.mod_lt _ (by omega), hc'⟩))
    · exact Or.inr (Or.inr (Or.inr (Or.inr (hfull fun h => hf (g4.full h)))))
  rintro _ t5 ⟨g5, o5⟩
  have hm5 : t5.mutable = true := by rw [g5.mutable]; exact hm4
  have g35 := g4.trans g5
  refine wp_mono (glueOptions_sub g5.ginv hm5 g5.rootsOK (hT.congr g35.toSameTables) g5.sub N 1 _ ?_) ?_ ?_
  · intro i hi hne
    simp only [List.length_map, List.length_range] at hi
    simp only [List.getElem_map, List.getElem_range] at hne ⊢
    obtain ⟨c, hc⟩ := Option.ne_none_iff_exists'.1 hne
    rw [hc]
    refine step (N, 1 + i) ⟨fun h => absurd h hNp, fun _ => ⟨by dsimp only; omega, by dsimp only; omega⟩⟩ c ?_
    rw [oldN]
    simpa using hc
  swap
  · rintro x t' (⟨-, hnone⟩ | ⟨-, hf⟩)
    · rw [List.mem_map] at hnone
      obtain ⟨c, hc, hc'⟩ := hnone
      rw [List.mem_map] at hc
      obtain ⟨i, -, rfl⟩ := hc
      rw [Option.map_eq_none_iff] at hc'
      exact Or.inr (Or.inr (Or.inl ⟨_, Nat.mod_lt _ (by omega), hc'⟩))
    · exact Or.inr (Or.inr (Or.inr (Or.inr (hfull fun h => hf (g35.full h)))))
  rintro _ t6 ⟨g6, o6⟩
  have g36 := g35.trans g6
  refine ⟨⟨g6.ginv, by rw [g6.mutable]; exact hm5, g6.rootsOK⟩, N, hNfresh, hNp, fun l hl => hN l hl, ?_, ?_, ?_⟩
  · intro x
    rw [g36.polygons, hP, hq1', hq2']
  · intro e he
    obtain ⟨i, hi, hi'⟩ := mod_between hv1 he
    rcases Nat.lt_or_ge i (w - v1) with h | h
    · have := (o6 i (by simpa using h)).1
      simp only [List.getElem_map, List.getElem_range] at this
      rw [hi'] at this
      intro hcon
      rw [hcon] at this
      exact this rfl
    · have := (o5 (i - (w - v1)) (by simp; omega)).1
      simp only [List.getElem_map, List.getElem_range] at this
      rw [show w + (i - (w - v1)) = v1 + i by omega, hi'] at this
      intro hcon
      rw [hcon] at this
      exact this rfl
  · have hfin : ∀ x e, t6.opp x e = G x e := by
      refine g36.finish hT (fun x => x = p' ∨ x = N) ?_ ?_
      · rintro x e c (rfl | rfl) hc
        · obtain ⟨k, hk, h | h | h⟩ := (hG _ _ _).1 hc
          · have he : e = 0 := by injection h.1
            have hcc : c = (N, 0) := by
              obtain ⟨c1, c2⟩ := c
              dsimp only at hk h
              rw [hk]
              have h' := h.2
              injection h' with h1 h2
              rw [h1, h2]; rfl
            rw [he, hcc]
            exact g6.keep _ _ _ (g5.keep _ _ _ o4)
          · have := h.1; injection this with h1 _; exact absurd h1.symm hNp
          · obtain ⟨h1, h2⟩ := h.1.1 rfl
            dsimp only at h1 h2
            have h3 := o5 (e - 1) (by simp; omega)
            obtain ⟨c', hc'⟩ := Option.ne_none_iff_exists'.1 h3.1
            have h4 := h3.2
            rw [hc', show 1 + (e - 1) = e by omega] at h4
            have h5 := g5.sub _ _ _ h4
            rw [hc] at h5
            rw [h5]
            exact g6.keep _ _ _ h4
        · obtain ⟨k, hk, h | h | h⟩ := (hG _ _ _).1 hc
          · have := h.1; injection this with h1 _; exact absurd h1 hNp
          · have he : e = 0 := by injection h.1
            have hcc : c = (p', 0) := by
              obtain ⟨c1, c2⟩ := c
              dsimp only at hk h
              rw [hk]
              have h' := h.2
              injection h' with h1 h2
              rw [h1, h2]; rfl
            rw [he, hcc]
            have h5 := g6.keep _ _ _ (g5.keep _ _ _ o4)
            obtain ⟨k', h6, h7⟩ := g6.ginv.inv _ _ _ _ h5
            have : k' = 0 := by omega
            subst this
            exact h7
          · obtain ⟨h1, h2⟩ := h.1.2 rfl
            dsimp only at h1 h2
            have h3 := o6 (e - 1) (by simp; omega)
            obtain ⟨c', hc'⟩ := Option.ne_none_iff_exists'.1 h3.1
            have h4 := h3.2
            rw [hc', show 1 + (e - 1) = e by omega] at h4
            have h5 := g6.sub _ _ _ h4
            rw [hc] at h5
            rw [h5]
            exact h4
      · rintro x e ⟨c1, c2⟩ hx hcx hc
        push Not at hx hcx
        obtain ⟨k, hk, h | h | ⟨_, _, h⟩⟩ := (hG _ _ _).1 hc
        · have := h.1; injection this with h1 _; exact absurd h1 hx.1
        · have := h.1; injection this with h1 _; exact absurd h1 hx.2
        · dsimp only at hk hcx h
          subst hk
          rw [oldo (x, e) hx.1 hx.2, oldo (c1, k) hcx.1 hcx.2] at h
          exact (hO _ _ _).2 ⟨h, hx.1, hcx.1⟩
    intro x e c
    rw [hfin, hG]

/-- **C27**. After a successful `subdivide_polygon(p, v1, v2)` the polygon is replaced by the two parts cut off by the
diagonal between the two vertices: they have the right number of edges, the first edge of both is the diagonal, the
others are the edges of the polygon in order, and their areas add up to the area of the polygon. The diagonals are glued
to each other, every other edge keeps its partner, all other polygons are unchanged, and the second part has an unused
label, the requested one if there was a request. -/
theorem C27_subdivide_polygon {s t : MSurf L (Poly K)} (h : Reachable s) (hm : s.mutable = true) (p : L) (v1 v2 : ℕ)
    (newLabel : Option L) (ht : subdividePolygon p v1 v2 newLabel s = .ok () t) :
    ∃ (N : L) (poly q1 q2 : Poly K),
      s.polygon p = .ok poly ∧ s.polygon N = .error .keyError ∧ (∀ l, newLabel = some l → N = l) ∧
      t.polygon p = .ok q1 ∧ t.polygon N = .ok q2 ∧ (∀ l, l ≠ p → l ≠ N → t.polygon l = s.polygon l) ∧
      v1 < poly.length ∧ v2 < poly.length ∧
      q1.length = 1 + (v1 + poly.length - v2) % poly.length ∧ q2.length = 1 + (v2 + poly.length - v1) % poly.length ∧
      3 ≤ q1.length ∧ 3 ≤ q2.length ∧
      q1.area + q2.area = poly.area ∧
      q1.edge 0 = poly.vertex v2 - poly.vertex v1 ∧ q2.edge 0 = poly.vertex v1 - poly.vertex v2 ∧
      (∀ i, i + 1 < q1.length → q1.edge (i + 1) = poly.edge (v2 + i)) ∧
      (∀ i, i + 1 < q2.length → q2.edge (i + 1) = poly.edge (v1 + i)) ∧
      t.oppositeEdge p 0 = .ok (some (N, 0)) ∧ t.oppositeEdge N 0 = .ok (some (p, 0)) ∧
      ∀ old : L × ℕ → L × ℕ,
        (∀ x, old x = if x.1 = p then (p, (v2 + (x.2 - 1)) % poly.length)
          else if x.1 = N then (p, (v1 + (x.2 - 1)) % poly.length) else x) →
        ∀ l q' (e : ℕ), t.polygon l = .ok q' → e < q'.length → (l, e) ≠ (p, 0) → (l, e) ≠ (N, 0) →
          ∃ (c : Option (L × ℕ)), t.oppositeEdge l (e : Int) = .ok (c.map (fun c => (c.1, (c.2 : Int)))) ∧
            s.oppositeEdge (old (l, e)).1 ((old (l, e)).2 : Int) = .ok ((c.map old).map (fun c => (c.1, (c.2 : Int)))) := by
  have hgood : Good s := ⟨h.ginv, hm, h.rootsOK⟩
  obtain ⟨poly, hp, hv1, hv2, hlo, hhi⟩ : ∃ poly, s.polygons.get p = some poly ∧ v1 < poly.length ∧ v2 < poly.length ∧
      1 < ((v1 : Int) - v2).natAbs ∧ ((v1 : Int) - v2).natAbs < poly.length - 1 := by
    have key : wp (subdividePolygon p v1 v2 newLabel) (fun _ _ => ∃ poly, s.polygons.get p = some poly ∧
      v1 < poly.length ∧ v2 < poly.length ∧
      1 < ((v1 : Int) - v2).natAbs ∧ ((v1 : Int) - v2).natAbs < poly.length - 1) (fun _ _ => True) s := by
      unfold subdividePolygon
      rw [wp_bind, wp_get, wp_bind, wp_liftE]
      refine ⟨fun poly hpoly => ?_, fun _ _ => trivial⟩
      have hnv : nv poly = poly.length := rfl
      dsimp only
      rw [hnv, wp_ite]
      refine ⟨fun _ => trivial, fun hr1 => ?_⟩
      rw [wp_ite]
      refine ⟨fun _ => trivial, fun hr2 => ?_⟩
      have : ∃ poly, s.polygons.get p = some poly ∧
        v1 < poly.length ∧ v2 < poly.length ∧
        1 < ((v1 : Int) - v2).natAbs ∧ ((v1 : Int) - v2).natAbs < poly.length - 1 :=
        ⟨poly, polygon_ok.1 hpoly, by omega, by omega, by omega, by omega⟩
      generalize hX : (_ : Act L (Poly K) Unit) = X
      unfold wp
      split <;> first | exact this | trivial
    unfold wp at key
    rw [ht] at key
    exact key
  obtain ⟨w, hw⟩ : ∃ w, w = if v2 < v1 then v2 + poly.length else v2 := ⟨_, rfl⟩
  have hwn : w = v2 ∨ w = v2 + poly.length := by split_ifs at hw <;> tauto
  have h1w : v1 + 2 ≤ w := by split_ifs at hw <;> omega
  have hw1 : w + 2 ≤ v1 + poly.length := by split_ifs at hw <;> omega
  have spec := subdividePolygon_spec hgood p v1 v2 newLabel poly hp hv1 hv2 w hw h1w hw1
  unfold wp at spec
  rw [ht] at spec
  obtain ⟨hg, N, hN, hNp, hNl, hpol, hall, hopp⟩ := spec
  set n := poly.length with hn
  have hwm : ∀ i, (w + i) % n = (v2 + i) % n := by
    intro i
    rcases hwn with rfl | rfl
    · rfl
    · rw [show v2 + n + i = v2 + i + n by omega, Nat.add_mod_right]
  have hvw : ∀ i, poly.vertex (w + i) = poly.vertex (v2 + i) := fun i => Poly.vertex_congr _ (hwm i)
  have hc1 : poly.vertex (w + (v1 + n - w)) = poly.vertex v1 := by
    rw [show w + (v1 + n - w) = v1 + n by omega, hn, Poly.vertex_add_length]
  have hc2 : poly.vertex (v1 + (w - v1)) = poly.vertex w := by rw [show v1 + (w - v1) = w by omega]
  have m1 : (v1 + n - v2) % n = v1 + n - w := by
    rcases hwn with h0 | h0
    · rw [h0, Nat.mod_eq_of_lt (by omega)]
    · rw [show v1 + n - v2 = (v1 - v2) + n by omega, Nat.add_mod_right, Nat.mod_eq_of_lt (by omega)]; omega
  have m2 : (v2 + n - v1) % n = w - v1 := by
    rcases hwn with h0 | h0
    · rw [show v2 + n - v1 = (v2 - v1) + n by omega, Nat.add_mod_right, Nat.mod_eq_of_lt (by omega)]; omega
    · rw [h0, Nat.mod_eq_of_lt (by omega)]
  have hne1 : poly.part v1 w (v1 + n - w) ≠ [] := by simp [Poly.part]
  have hne2 : poly.part w v1 (w - v1) ≠ [] := by simp [Poly.part]
  have hedge : ∀ (J : Poly K) (hJ : J ≠ []) (c : Vec K) i, Poly.edge (J.translate c) i = J.edge i := by
    intro J hJ c i
    unfold Poly.edge
    rw [Poly.vertex_translate _ hJ, Poly.vertex_translate _ hJ, add_sub_add_left_eq_sub]
  have hE1 : t.IsEdge p 0 := ⟨_, by rw [hpol, if_pos rfl], by simp [nv, Poly.translate, Poly.part]⟩
  have hE2 : t.IsEdge N 0 := ⟨_, by rw [hpol, if_neg hNp, if_pos rfl], by simp [nv, Poly.translate, Poly.part]⟩
  refine ⟨N, poly, _, _, polygon_ok.2 hp, ?_, hNl, polygon_ok.2 (by rw [hpol, if_pos rfl]),
    polygon_ok.2 (by rw [hpol, if_neg hNp, if_pos rfl]), ?_, hv1, hv2, ?_, ?_, ?_, ?_, ?_, ?_, ?_, ?_, ?_, ?_, ?_, ?_⟩
  · unfold polygon
    rw [Dict.mem_keys_iff] at hN
    cases hget : s.polygons.get N with
    | none => rfl
    | some q => rw [hget] at hN; exact absurd rfl hN
  · intro l hl1 hl2
    exact polygon_of_get (by rw [hpol, if_neg hl1, if_neg hl2])
  · rw [m1]; simp [Poly.translate, Poly.part_length]; omega
  · rw [m2]; simp [Poly.translate, Poly.part_length]; omega
  · simp [Poly.translate, Poly.part_length]; omega
  · simp [Poly.translate, Poly.part_length]; omega
  · rw [Poly.C09_area_translate, Poly.C09_area_translate]
    have := Poly.part_area poly v1 (w - v1) (by omega) (by omega)
    rw [show v1 + (w - v1) = w by omega, show poly.length - (w - v1) = v1 + n - w by omega] at this
    exact this
  · rw [hedge _ hne1, Poly.part_edge_zero _ _ _ _ hc1]
    rw [show poly.vertex w = poly.vertex v2 from by simpa using hvw 0]
  · rw [hedge _ hne2, Poly.part_edge_zero _ _ _ _ hc2]
    rw [show poly.vertex w = poly.vertex v2 from by simpa using hvw 0]
  · intro i hi
    rw [hedge _ hne1, Poly.part_edge _ _ _ _ hc1 i (by simpa [Poly.translate, Poly.part_length] using hi)]
    unfold Poly.edge
    rw [hvw, show w + i + 1 = w + (i + 1) from rfl, hvw]
    rfl
  · intro i hi
    rw [hedge _ hne2, Poly.part_edge _ _ _ _ hc2 i (by simpa [Poly.translate, Poly.part_length] using hi)]
  · have := oppositeEdge_eq_opp hg.1.toShape hE1
    rw [(hopp p 0 (N, 0)).2 ⟨0, rfl, Or.inl ⟨rfl, rfl⟩⟩] at this
    exact this
  · have := oppositeEdge_eq_opp hg.1.toShape hE2
    rw [(hopp N 0 (p, 0)).2 ⟨0, rfl, Or.inr (Or.inl ⟨rfl, rfl⟩)⟩] at this
    exact this
  · intro old hold l q' e hq' he hne0 hneN
    have hq'' := polygon_ok.1 hq'
    have holdEq : ∀ x, old x = cutOld p N n v1 w x := by
      intro x
      rw [hold]
      unfold cutOld
      rw [hwm]
    have hcut : CutEdge p N n v1 w (l, e) := by
      refine ⟨fun hl => ?_, fun hl => ?_⟩
      · dsimp only at hl ⊢
        subst hl
        rw [hpol, if_pos rfl] at hq''
        injection hq'' with hq''
        rw [← hq''] at he
        have h0 : e ≠ 0 := fun h => hne0 (by rw [h])
        simp [Poly.translate, Poly.part_length] at he
        omega
      · dsimp only at hl ⊢
        subst hl
        rw [hpol, if_neg hNp, if_pos rfl] at hq''
        injection hq'' with hq''
        rw [← hq''] at he
        have h0 : e ≠ 0 := fun h => hneN (by rw [h])
        simp [Poly.translate, Poly.part_length] at he
        omega
    have htE : t.IsEdge l e := ⟨q', hq'', he⟩
    have hsE : s.IsEdge (old (l, e)).1 (old (l, e)).2 := by
      rw [holdEq]
      unfold cutOld
      dsimp only
      split_ifs with h1 h2
      · exact ⟨poly, hp, Nat.mod_lt _ (by omega)⟩
      · exact ⟨poly, hp, Nat.mod_lt _ (by omega)⟩
      · rw [hpol, if_neg h1, if_neg h2] at hq''
        exact ⟨q', hq'', he⟩
    have hsN : ∀ l e c, s.opp l e = some c → c.1 ≠ N := by
      rintro l e ⟨c1, c2⟩ hc
      obtain ⟨k, rfl, hk⟩ := h.ginv.inv _ _ _ _ hc
      rintro rfl
      exact hN (isEdge_mem (opp_isEdge h.ginv.toShape hk))
    cases hc : t.opp l e with
    | some c =>
      obtain ⟨c1, c2⟩ := c
      obtain ⟨k, hk, h4 | h4 | ⟨-, -, h4⟩⟩ := (hopp l e _).1 hc
      · exact absurd h4.1 hne0
      · exact absurd h4.1 hneN
      dsimp only at hk h4
      subst hk
      refine ⟨some (c1, k), by rw [oppositeEdge_eq_opp hg.1.toShape htE, hc]; rfl, ?_⟩
      rw [oppositeEdge_eq_opp h.ginv.toShape hsE, holdEq, h4]
      simp only [Option.map_some, holdEq]
    | none =>
      refine ⟨none, by rw [oppositeEdge_eq_opp hg.1.toShape htE, hc]; rfl, ?_⟩
      rw [oppositeEdge_eq_opp h.ginv.toShape hsE]
      cases hco : s.opp (old (l, e)).1 (old (l, e)).2 with
      | none => rfl
      | some c =>
        exfalso
        obtain ⟨c1, c2⟩ := c
        obtain ⟨k, rfl, hk⟩ := h.ginv.inv _ _ _ _ hco
        obtain ⟨y, hy1, hy2, -⟩ := subdivideOldToNew_spec hNp hv1 (by omega : v1 < w) (by omega : w < v1 + n) (c1, k)
          (hsN _ _ _ hco) (fun hcp => by
            dsimp only at hcp ⊢
            subst hcp
            obtain ⟨p'', k1, k2⟩ := opp_isEdge h.ginv.toShape hk
            rw [hp] at k1
            injection k1 with k1
            subst k1
            exact k2)
        rw [holdEq] at hco
        have := (hopp l e (y.1, (y.2 : Int))).2 ⟨y.2, rfl, Or.inr (Or.inr ⟨hcut, hy1, by rw [hco, hy2]⟩)⟩
        rw [hc] at this
        cases this

/-- **C27**, when it succeeds: the diagonal cuts the polygon into two valid polygons, all its edges are glued, the
requested label is unused, and no other polygon is an explicit root. -/
theorem C27_subdivide_polygon_succeeds {s : MSurf L (Poly K)} (h : Reachable s) (hm : s.mutable = true) (p : L)
    (v1 v2 : ℕ) (newLabel : Option L) (poly : Poly K) (hp : s.polygon p = .ok poly)
    (hv1 : v1 < poly.length) (hv2 : v2 < poly.length)
    (q1 q2 : Poly K)
    (hq1 : Poly.ofVertices (poly.vertex v1 :: (List.range ((v1 + poly.length - v2) % poly.length)).map (fun i => poly.vertex (v2 + i))) = .ok q1)
    (hq2 : Poly.ofVertices (poly.vertex v2 :: (List.range ((v2 + poly.length - v1) % poly.length)).map (fun i => poly.vertex (v1 + i))) = .ok q2)
    (hglued : ∀ e : ℕ, e < poly.length → s.oppositeEdge p (e : Int) ≠ .ok none)
    (hnew : ∀ l, newLabel = some l → s.polygon l = .error .keyError)
    (hroots : ∀ r ∈ s.roots, r = p) :
    ∃ t, subdividePolygon p v1 v2 newLabel s = .ok () t := by
  have hgood : Good s := ⟨h.ginv, hm, h.rootsOK⟩
  have hp' := polygon_ok.1 hp
  obtain ⟨w, hw⟩ : ∃ w, w = if v2 < v1 then v2 + poly.length else v2 := ⟨_, rfl⟩
  have hwn : w = v2 ∨ w = v2 + poly.length := by split_ifs at hw <;> tauto
  have l1 := ((Poly.C58_accepted_iff _ _).1 hq1).2.1
  have l2 := ((Poly.C58_accepted_iff _ _).1 hq2).2.1
  have valid : ∀ (vs q : Poly K), Poly.ofVertices vs = .ok q → Poly.Valid vs := by
    intro vs q hq
    unfold Poly.ofVertices at hq
    split_ifs at hq with h3
    refine (Poly.check_iff _ (by omega)).1 ?_
    cases hc : Poly.check vs with
    | ok u => rfl
    | error e => rw [hc] at hq; cases hq
  have val1 := valid _ _ hq1
  have val2 := valid _ _ hq2
  set n := poly.length with hn
  simp only [List.length_cons, List.length_map, List.length_range] at l1 l2
  have hwm : ∀ i, (w + i) % n = (v2 + i) % n := by
    intro i
    rcases hwn with rfl | rfl
    · rfl
    · rw [show v2 + n + i = v2 + i + n by omega, Nat.add_mod_right]
  have hvw : ∀ i, poly.vertex (w + i) = poly.vertex (v2 + i) := fun i => Poly.vertex_congr _ (hwm i)
  have hvw0 : poly.vertex w = poly.vertex v2 := by simpa using hvw 0
  have m1 : (v1 + n - v2) % n = v1 + n - w := by
    rcases hwn with h0 | h0
    · rcases Nat.eq_or_lt_of_le (show v1 ≤ v2 by split_ifs at hw <;> omega) with h1 | h1
      · rw [h1] at l1
        rw [show v2 + n - v2 = n by omega, Nat.mod_self] at l1
        omega
      · rw [h0, Nat.mod_eq_of_lt (by omega)]
    · rw [show v1 + n - v2 = (v1 - v2) + n by split_ifs at hw <;> omega, Nat.add_mod_right, Nat.mod_eq_of_lt (by omega)]; omega
  have m2 : (v2 + n - v1) % n = w - v1 := by
    rcases hwn with h0 | h0
    · rw [show v2 + n - v1 = (v2 - v1) + n by split_ifs at hw <;> omega, Nat.add_mod_right, Nat.mod_eq_of_lt (by omega)]; omega
    · rw [h0, Nat.mod_eq_of_lt (by split_ifs at hw <;> omega)]
  rw [m1] at l1 val1
  rw [m2] at l2 val2
  have spec := subdividePolygon_spec hgood p v1 v2 newLabel poly hp' hv1 hv2 w hw (by omega) (by omega)
  unfold wp at spec
  cases hr : subdividePolygon p v1 v2 newLabel s with
  | ok a t => exact ⟨t, rfl⟩
  | error e t =>
    rw [hr] at spec
    exfalso
    rcases spec with h1 | h1 | ⟨e', h1, h2⟩ | ⟨l, h1, h2⟩ | ⟨r, h1, h2⟩
    · apply h1
      unfold Poly.part
      simp only [hvw]
      exact val1
    · apply h1
      unfold Poly.part
      rw [hvw0]
      exact val2
    · refine hglued e' h1 ?_
      rw [oppositeEdge_eq_opp h.ginv.toShape ⟨poly, hp', h1⟩, h2]
    · have h3 := hnew l h1
      rw [Dict.mem_keys_iff] at h2
      unfold polygon at h3
      cases hget : s.polygons.get l with
      | none => rw [hget] at h2; cases h2
      | some q => rw [hget] at h3; cases h3
    · exact h2 (hroots r h1)

/-- A square torus. -/
def exSquareOps : List (Op ℕ ℚ) :=
  [.addPolygon [(0, 0), (1, 0), (1, 1), (0, 1)] none, .glue (0, 0) (0, 2), .glue (0, 1) (0, 3)]

theorem exSquare_reachable : Reachable (runOps exSquareOps empty) := by
  refine reachable_runOps _ _ .empty (by decide +kernel) ?_ ?_
  · intro op hop
    simp only [exSquareOps, List.mem_cons, List.not_mem_nil, or_false] at hop
    rcases hop with rfl | rfl | rfl <;> simp [Op.NonNeg]
  · intro op hop
    simp only [exSquareOps, List.mem_cons, List.not_mem_nil, or_false] at hop
    rcases hop with rfl | rfl | rfl <;> simp

/-- The hypotheses are satisfiable: cutting the square of a torus from vertex 3 to vertex 1. -/
example : ∃ t, subdividePolygon 0 3 1 (some 7) (runOps exSquareOps empty) = .ok () t :=
  C27_subdivide_polygon_succeeds exSquare_reachable (by decide +kernel) 0 3 1 (some 7) [(0, 0), (1, 0), (1, 1), (0, 1)]
    (by decide +kernel) (by decide) (by decide) [(0, 1), (1, 0), (1, 1)] [(1, 0), (0, 1), (0, 0)] (by decide +kernel)
    (by decide +kernel) (by decide +kernel) (fun l hl => by injection hl with hl; subst hl; decide +kernel)
    (by decide +kernel)

/-- Whether a call ended with a `ValueError` or a `TypeError` and left polygon 0 a triangle with no gluings. -/
def failedHalfway (r : EStateM.Result Err (MSurf ℕ (Poly ℚ)) Unit) : Bool :=
  match r with
  | .error e s => (e == .valueError || e == .typeError) && (match s.polygon 0 with | .ok q => q.length == 3 | .error _ => false)
  | _ => false

theorem failedHalfway_iff (r : EStateM.Result Err (MSurf ℕ (Poly ℚ)) Unit) (h : failedHalfway r = true) :
    ∃ e s q, r = .error e s ∧ (e = .valueError ∨ e = .typeError) ∧ s.polygon 0 = .ok q ∧ q.length = 3 := by
  unfold failedHalfway at h
  split at h
  · rename_i e s
    rw [Bool.and_eq_true] at h
    obtain ⟨h1, h2⟩ := h
    split at h2
    · rename_i q hq
      exact ⟨e, s, q, rfl, by simpa using h1, hq, by simpa using h2⟩
    · cases h2
  · cases h

/-- **C27** is not atomic: with a label that is in use `subdivide_polygon` raises, but only after the square has been
replaced by a triangle, so that the other half of the surface is lost. The same happens when an edge is unglued. -/
theorem C27_half_done_violation :
    (∃ s : MSurf ℕ (Poly ℚ), Reachable s ∧ s.polygon 0 = .ok [(0, 0), (1, 0), (1, 1), (0, 1)] ∧
      ∃ e t q, subdividePolygon 0 0 2 (some 0) s = .error e t ∧ t.polygon 0 = .ok q ∧ q.length = 3) ∧
    ∃ s : MSurf ℕ (Poly ℚ), Reachable s ∧ s.polygon 0 = .ok [(0, 0), (1, 0), (1, 1), (0, 1)] ∧
      ∃ e t q, subdividePolygon 0 0 2 none s = .error e t ∧ t.polygon 0 = .ok q ∧ q.length = 3 := by
  refine ⟨⟨_, exSquare_reachable, by decide +kernel, ?_⟩,
    ⟨_, .step _ (.unglue 0 1) exSquare_reachable (by decide +kernel) (by simp [Op.NonNeg]) (fun l t gl he => by cases he),
      by decide +kernel, ?_⟩⟩
  · obtain ⟨e, t, q, h1, _, h2, h3⟩ := failedHalfway_iff (subdividePolygon 0 0 2 (some 0) (runOps exSquareOps empty))
      (by decide +kernel)
    exact ⟨e, t, q, h1, h2, h3⟩
  · obtain ⟨e, t, q, h1, _, h2, h3⟩ := failedHalfway_iff
      (subdividePolygon 0 0 2 none (stateOf (Op.run (.unglue 0 1) (runOps exSquareOps empty)))) (by decide +kernel)
    exact ⟨e, t, q, h1, h2, h3⟩

end MSurf
end Flat
