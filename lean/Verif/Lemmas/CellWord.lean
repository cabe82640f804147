import Verif.Lemmas.CellGeom
import Verif.Lemmas.CellComp

/-!
# The boundary of a Delaunay cell of a translation surface

The edges that the walk has found and those on its stack always form a closed polygon that is inscribed in a circle.
-/

namespace Flat
variable {L K : Type} [DecidableEq L] [Field K] [LinearOrder K] [IsStrictOrderedRing K]

namespace RSurf
variable {S : RSurf L K} {valid : L → Prop}

/-- The vector of an edge. -/
def vecOf (S : RSurf L K) (h : L × ℕ) : Vec K := (S.triAt h.1).edge h.2

/-- The third vertex of a triangle seen from the start of an edge. -/
def apexOf (S : RSurf L K) (h : L × ℕ) : Vec K := (S.triAt h.1).vertex (h.2 + 2) - (S.triAt h.1).vertex h.2

/-- The points at which the edges of a word start. -/
def dev (S : RSurf L K) : Vec K → List (L × ℕ) → List (Vec K)
  | _, [] => []
  | v, h :: w => v :: dev S (v + S.vecOf h) w

/-- The third vertices of the triangles at the edges of a word. -/
def apexes (S : RSurf L K) : Vec K → List (L × ℕ) → List (Vec K)
  | _, [] => []
  | v, h :: w => (v + S.apexOf h) :: apexes S (v + S.vecOf h) w

omit [DecidableEq L] [IsStrictOrderedRing K] [LinearOrder K] in
theorem dev_append (S : RSurf L K) (v : Vec K) (a b : List (L × ℕ)) : S.dev v (a ++ b) = S.dev v a ++ S.dev (v + (a.map S.vecOf).sum) b := by
  induction a generalizing v with
  | nil => simp [dev]
  | cons h a ih => simp only [List.cons_append, dev, ih, List.map_cons, List.sum_cons, add_assoc]

omit [DecidableEq L] [IsStrictOrderedRing K] [LinearOrder K] in
theorem apexes_append (S : RSurf L K) (v : Vec K) (a b : List (L × ℕ)) :
    S.apexes v (a ++ b) = S.apexes v a ++ S.apexes (v + (a.map S.vecOf).sum) b := by
  induction a generalizing v with
  | nil => simp [apexes]
  | cons h a ih => simp only [List.cons_append, apexes, ih, List.map_cons, List.sum_cons, add_assoc]

omit [DecidableEq L] [IsStrictOrderedRing K] [LinearOrder K] in
theorem dev_eq (S : RSurf L K) (v : Vec K) (w : List (L × ℕ)) : S.dev v w = (Poly.partialSums v (w.map S.vecOf)).dropLast := by
  induction w generalizing v with
  | nil => rfl
  | cons h w ih =>
    rw [dev, ih, List.map_cons, Poly.partialSums]
    have hne : Poly.partialSums (v + S.vecOf h) (List.map S.vecOf w) ≠ [] := by
      cases w <;> simp [Poly.partialSums]
    rw [List.dropLast_cons_of_ne_nil hne]

/-- A closed polygon inscribed in a circle that also contains the triangles at the edges. -/
structure Inscribed (S : RSurf L K) (w : List (L × ℕ)) : Prop where
  len : 3 ≤ w.length
  closed : (w.map S.vecOf).sum = 0
  convex : (S.dev 0 w).Triplewise (fun a b c => 0 < tri a b c)
  circle : ∃ m k, (∀ x ∈ S.dev 0 w, OnCircle m k x) ∧ ∀ x ∈ S.apexes 0 w, OnCircle m k x

omit [DecidableEq L] in
theorem inscribed_start {l : L} (h3 : (S.triAt l).length = 3) (ha : 0 < (S.triAt l).area) : S.Inscribed [(l, 0), (l, 1), (l, 2)] := by
  have e3 : (S.triAt l).vertex 3 = (S.triAt l).vertex 0 := Poly.vertex_three h3 rfl
  have e4 : (S.triAt l).vertex 4 = (S.triAt l).vertex 1 := Poly.vertex_three h3 rfl
  have hc := MSurf.ccw_vertices_three h3 ha 0
  set a := (S.triAt l).vertex 0 with hA
  set b := (S.triAt l).vertex 1 with hB
  set c := (S.triAt l).vertex 2 with hC
  have v0 : S.vecOf (l, 0) = b - a := rfl
  have v1 : S.vecOf (l, 1) = c - b := rfl
  have v2 : S.vecOf (l, 2) = a - c := by
    unfold vecOf Poly.edge
    dsimp only
    rw [show 2 + 1 = 3 from rfl, e3]
  have a0 : S.apexOf (l, 0) = c - a := rfl
  have a1 : S.apexOf (l, 1) = a - b := by
    unfold apexOf
    dsimp only
    rw [show 1 + 2 = 3 from rfl, e3]
  have a2 : S.apexOf (l, 2) = b - c := by
    unfold apexOf
    dsimp only
    rw [show 2 + 2 = 4 from rfl, e4]
  have hd : S.dev 0 [(l, 0), (l, 1), (l, 2)] = [0, b - a, c - a] := by
    simp only [dev, v0, v1]
    rw [zero_add, show b - a + (c - b) = c - a by abel]
  have hap : S.apexes 0 [(l, 0), (l, 1), (l, 2)] = [c - a, 0, b - a] := by
    simp only [apexes, v0, v1, a0, a1, a2]
    rw [zero_add, zero_add, show b - a + (a - b) = 0 by abel, show b - a + (c - b) + (b - c) = b - a by abel]
  have hpos : 0 < tri 0 (b - a) (c - a) := by
    unfold tri
    rw [sub_zero, sub_zero]
    simp only [ccw, Prod.fst_sub, Prod.snd_sub] at hc ⊢
    linarith
  refine ⟨by simp, ?_, ?_, ?_⟩
  · simp only [List.map_cons, List.map_nil, List.sum_cons, List.sum_nil, v0, v1, v2]
    abel
  · rw [hd, List.triplewise_triple]
    exact hpos
  · obtain ⟨m, k, h1, h2, h4⟩ := exists_circle hpos
    refine ⟨m, k, ?_, ?_⟩
    · rw [hd]
      intro x hx
      simp only [List.mem_cons, List.not_mem_nil, or_false] at hx
      rcases hx with rfl | rfl | rfl <;> assumption
    · rw [hap]
      intro x hx
      simp only [List.mem_cons, List.not_mem_nil, or_false] at hx
      rcases hx with rfl | rfl | rfl <;> assumption

/-- Crossing an edge inserts a point into the polygon. -/
theorem inscribed_step (hS : S.Closed valid) (h3 : ∀ l p, valid l → S.polygon l = .ok p → p.length = 3) (hT : S.GluedBy valid (fun u v => u = -v))
    {pre post : List (L × ℕ)} {h : L × ℕ} (hh : IsEdge3 valid h) (hj : S.Join h) (hw : S.Inscribed (pre ++ h :: post)) :
    S.Inscribed (pre ++ ((S.oppAt h).1, ((S.oppAt h).2 + 1) % 3) :: ((S.oppAt h).1, ((S.oppAt h).2 + 2) % 3) :: post) := by
  obtain ⟨ho, ho2, -⟩ := oppAt_spec hS h3 hh
  obtain ⟨hp1, hv1⟩ := triAt_spec hS hh.1
  obtain ⟨hp2, hv2⟩ := triAt_spec hS ho2.1
  have l1 := h3 _ _ hh.1 hp1
  have l2 := h3 _ _ ho2.1 hp2
  have hglue : S.vecOf h = -S.vecOf (S.oppAt h) := hT h.1 h.2 _ _ _ _ hh.1 hp1 (by rw [l1]; exact hh.2) ho hp2
  set c := S.oppAt h with hc
  set p := S.triAt h.1 with hp
  set q := S.triAt c.1 with hq
  unfold Join at hj
  rw [← hc, ← hp, ← hq] at hj
  have A1 := Poly.apex_ccw l1 hv1.area_pos h.2
  have A2 := Poly.apex_ccw l2 hv2.area_pos c.2
  unfold Poly.cotan at hj
  rw [div_add_div _ _ (ne_of_gt A1) (ne_of_gt A2), div_eq_zero_iff, or_iff_left (ne_of_gt (mul_pos A1 A2))] at hj
  have n3 : q.vertex (c.2 + 3) = q.vertex c.2 := Poly.vertex_three l2 (by omega)
  -- the vectors
  set a : Vec K := q.vertex (c.2 + 2) - q.vertex (c.2 + 1) with ha
  set b : Vec K := q.vertex c.2 - q.vertex (c.2 + 2) with hb
  have vm : ∀ i, q.vertex (i % 3) = q.vertex i := fun i => Poly.vertex_three l2 (by omega)
  have vm1 : ∀ i, q.vertex (i % 3 + 1) = q.vertex (i + 1) := fun i => Poly.vertex_three l2 (by omega)
  have vm2 : ∀ i, q.vertex (i % 3 + 2) = q.vertex (i + 2) := fun i => Poly.vertex_three l2 (by omega)
  have w1 : S.vecOf (c.1, (c.2 + 1) % 3) = a := by
    unfold vecOf Poly.edge
    dsimp only
    rw [← hq, vm, vm1]
  have w2 : S.vecOf (c.1, (c.2 + 2) % 3) = b := by
    unfold vecOf Poly.edge
    dsimp only
    rw [← hq, vm, vm1, show c.2 + 2 + 1 = c.2 + 3 from rfl, n3]
  have d : S.vecOf h = a + b := by
    rw [hglue]
    unfold vecOf Poly.edge
    rw [← hq, ha, hb]
    abel
  have p1 : S.apexOf (c.1, (c.2 + 1) % 3) = a + b := by
    unfold apexOf
    dsimp only
    rw [← hq, vm, vm2, show c.2 + 1 + 2 = c.2 + 3 from rfl, n3, ha, hb]
    abel
  have p2 : S.apexOf (c.1, (c.2 + 2) % 3) = -a := by
    unfold apexOf
    dsimp only
    rw [← hq, vm, vm2, show c.2 + 2 + 2 = c.2 + 1 + 3 from rfl, Poly.vertex_three l2 (show (c.2 + 1 + 3) % 3 = (c.2 + 1) % 3 by omega), ha]
    abel
  have dE : S.vecOf h = p.vertex (h.2 + 1) - p.vertex h.2 := rfl
  have aE : S.apexOf h = p.vertex (h.2 + 2) - p.vertex h.2 := rfl
  obtain ⟨hlen, hcl, hcv, m, k, hci, hap⟩ := hw
  set v := 0 + (pre.map S.vecOf).sum with hv
  set A := S.dev 0 pre with hA
  set B := S.dev (v + (a + b)) post with hB
  have hdev : S.dev 0 (pre ++ h :: post) = A ++ v :: B := by
    rw [dev_append, dev, d]
  have hdev' : S.dev 0 (pre ++ (c.1, (c.2 + 1) % 3) :: (c.1, (c.2 + 2) % 3) :: post) = A ++ v :: (v + a) :: B := by
    rw [dev_append, dev, dev, w1, w2, ← hv, ← hA, hB, add_assoc v a b]
  have happ : S.apexes 0 (pre ++ h :: post) = S.apexes 0 pre ++ (v + S.apexOf h) :: S.apexes (v + (a + b)) post := by
    rw [apexes_append, apexes, d]
  have happ' : S.apexes 0 (pre ++ (c.1, (c.2 + 1) % 3) :: (c.1, (c.2 + 2) % 3) :: post) =
      S.apexes 0 pre ++ (v + (a + b)) :: (v + a + -a) :: S.apexes (v + (a + b)) post := by
    rw [apexes_append, apexes, apexes, p1, p2, w1, w2, ← hv, add_assoc v a b]
  rw [hdev] at hci hcv
  rw [happ] at hap
  have cv : OnCircle m k v := hci v (by simp)
  -- the end of the edge is the next point
  have next : (∃ B', B = (v + (a + b)) :: B') ∨ (B = [] ∧ ∃ A', A = (v + (a + b)) :: A') := by
    cases post with
    | cons g post => exact Or.inl ⟨_, rfl⟩
    | nil =>
      right
      refine ⟨rfl, ?_⟩
      cases pre with
      | nil => simp at hlen
      | cons g pre =>
        refine ⟨S.dev (0 + S.vecOf g) pre, ?_⟩
        rw [hA, dev]
        congr 1
        rw [hv, ← d, zero_add]
        rw [List.map_append, List.sum_append] at hcl
        simp only [List.map_cons, List.map_nil, List.sum_cons, List.sum_nil, add_zero] at hcl ⊢
        exact hcl.symm
  have cw : OnCircle m k (v + (a + b)) := by
    rcases next with ⟨B', e⟩ | ⟨-, A', e⟩
    · exact hci _ (by rw [e]; simp)
    · exact hci _ (by rw [e]; simp)
  have cy : OnCircle m k (v + S.apexOf h) := hap _ (by simp)
  have hz : OnCircle m k (v + a) := by
    refine OnCircle.of_angles cv cw cy ?_ ?_
    · unfold tri
      rw [add_sub_cancel_left, add_sub_cancel_left, ← d, dE, aE]
      simp only [ccw, Prod.fst_sub, Prod.snd_sub] at A1 ⊢
      linarith
    · have s1 : v - (v + S.apexOf h) = p.vertex h.2 - p.vertex (h.2 + 2) := by
        rw [aE]; abel
      have s2 : v + (a + b) - (v + S.apexOf h) = p.vertex (h.2 + 1) - p.vertex (h.2 + 2) := by
        rw [← d, dE, aE]; abel
      have s3 : v + (a + b) - (v + a) = q.vertex c.2 - q.vertex (c.2 + 2) := by
        rw [hb]; abel
      have s4 : v - (v + a) = q.vertex (c.2 + 1) - q.vertex (c.2 + 2) := by
        rw [ha]; abel
      rw [s1, s2, s3, s4]
      linarith
  have zw : 0 < tri v (v + a) (v + (a + b)) := by
    unfold tri
    rw [add_sub_cancel_left, add_sub_cancel_left, ha, hb]
    rw [hb] at A2
    simp only [ccw, Prod.fst_sub, Prod.snd_sub, Prod.fst_add, Prod.snd_add] at A2 ⊢
    linarith
  have beyond : ∀ x, OnCircle m k x → 0 < tri v (v + (a + b)) x → 0 < tri v (v + a) x := fun x hx hpos => OnCircle.cyclic cv hz cw hx zw hpos
  have hins : ∀ x ∈ A ++ B, 0 < tri v (v + a) x := by
    have hcv' := hcv
    rw [List.triplewise_append, List.triplewise_cons] at hcv'
    obtain ⟨-, ⟨t1, -⟩, t2, t3⟩ := hcv'
    rcases next with ⟨B', e⟩ | ⟨e, A', e'⟩
    · intro x hx
      rw [e] at t1 t2 hci hx
      rcases List.mem_append.1 hx with hx | hx
      · refine beyond x (hci x (List.mem_append_left _ hx)) ?_
        have := t2 x hx
        rw [List.pairwise_cons] at this
        have := this.1 _ (List.mem_cons_self ..)
        rwa [tri_rot]
      · rcases List.mem_cons.1 hx with rfl | hx
        · exact zw
        · refine beyond x (hci x (by simp [hx])) ?_
          rw [List.pairwise_cons] at t1
          exact t1.1 x hx
    · intro x hx
      rw [e, List.append_nil] at hx
      have t3v := t3 v (by simp)
      rw [e'] at t3v hx hci
      rcases List.mem_cons.1 hx with rfl | hx
      · exact zw
      · refine beyond x (hci x (by simp [hx])) ?_
        rw [List.pairwise_cons] at t3v
        have := t3v.1 x hx
        rwa [← tri_rot]
  refine ⟨?_, ?_, ?_, m, k, ?_, ?_⟩
  · simp only [List.length_append, List.length_cons] at hlen ⊢
    omega
  · rw [List.map_append, List.sum_append, List.map_cons, List.sum_cons] at hcl
    rw [List.map_append, List.sum_append, List.map_cons, List.sum_cons, List.map_cons, List.sum_cons, w1, w2, ← hcl, d]
    abel
  · rw [hdev']
    exact triplewise_insert hci hz hcv hins
  · rw [hdev']
    intro x hx
    rcases List.mem_append.1 hx with hx | hx
    · exact hci x (List.mem_append_left _ hx)
    · rcases List.mem_cons.1 hx with rfl | hx
      · exact cv
      · rcases List.mem_cons.1 hx with rfl | hx
        · exact hz
        · exact hci x (by simp [hx])
  · rw [happ']
    intro x hx
    rcases List.mem_append.1 hx with hx | hx
    · exact hap x (List.mem_append_left _ hx)
    · rcases List.mem_cons.1 hx with rfl | hx
      · exact cw
      · rcases List.mem_cons.1 hx with rfl | hx
        · rw [add_neg_cancel_right]
          exact cv
        · exact hap x (by simp [hx])

/-- An inscribed word is the boundary of a polygon. -/
theorem Inscribed.polygon {w : List (L × ℕ)} (hw : S.Inscribed w) : ∃ q : Poly K, Poly.ofEdges (w.map S.vecOf) = .ok q ∧ q.Valid ∧
    q = S.dev 0 w ∧ q.length = w.length ∧
    ∀ i j : ℕ, i % q.length ≠ j % q.length → (i + 1) % q.length ≠ j % q.length → 0 < q.left (q.vertex j) i := by
  obtain ⟨hlen, hcl, hcv, -⟩ := hw
  have hl : ((S.dev 0 w : Poly K)).length = w.length := by
    rw [dev_eq, List.length_dropLast, Poly.partialSums_length, List.length_map]
    omega
  have h0 : Poly.vertex (S.dev 0 w) 0 = 0 := by
    cases w with
    | nil => simp at hlen
    | cons h w =>
      unfold Poly.vertex
      simp [dev]
  obtain ⟨hv, hleft⟩ := Poly.valid_of_triples (p := S.dev 0 w) (by rw [hl]; exact hlen) h0 hcv
  refine ⟨S.dev 0 w, ?_, hv, rfl, hl, hleft⟩
  have hck := (Poly.check_iff (S.dev 0 w) hv.len3).2 hv
  unfold Poly.ofEdges
  rw [List.length_map, if_neg (by omega)]
  dsimp only
  rw [Poly.partialSums_getLast, hcl, zero_add, if_neg (by simp), ← dev_eq, hck]
  rfl

end RSurf
end Flat
