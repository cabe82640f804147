import Verif.Lemmas.Polygon
import Verif.Lemmas.MapM
import Mathlib.Algebra.Order.Field.Rat
import Mathlib.Tactic.NormNum

/-!
# C09, C10, C13, C14: area, linear maps, subdivisions and joins of polygons
-/

namespace Flat
namespace Poly
variable {K : Type} [Field K] [LinearOrder K] [IsStrictOrderedRing K]

/-! ### C09 -/

/-- **C09.** The area does not change under translations. -/
theorem C09_area_translate (p : Poly K) (u : Vec K) : (p.translate u).area = p.area := by
  rw [area_eq, area_eq, translate, cycSum_map]
  congr 1
  exact cycSum_eq_of_telescope (fun v => ccw u v) (fun a b => by
    simp only [ccw, Prod.fst_add, Prod.snd_add]; ring) _

/-- **C09.** The area does not depend on the choice of the first vertex. -/
theorem C09_area_rotate (p : Poly K) (k : ℕ) : area (p.rotate k) = p.area := by
  rw [area_eq, area_eq, cycSum_rotate]

/-- **C09.** A linear map multiplies the area by the absolute value of its determinant, also when it
reverses the orientation. -/
theorem C09_area_mul (g : Mat2 K) (p q : Poly K) (hp : p ≠ []) (h : mul g p = some q) :
    q.area = |g.det| * p.area := by
  obtain ⟨_, ⟨hd, rfl⟩ | ⟨hd, x, l, rfl, rfl⟩⟩ := mul_eq g p hp q h
  · rw [abs_of_pos hd, area_eq, area_eq, cycSum_map, cycSum_congr (fun a b => ccw_mulVec g a b), cycSum_mul]
    ring
  · rw [abs_of_neg hd, area_eq, area_eq, cycSum_map, cycSum_congr (fun a b => ccw_mulVec g a b), cycSum_mul]
    have h1 : cycSum ccw (x :: l.reverse) = - cycSum (ccw (K := K)) (x :: l) := by
      rw [← cycSum_rotate_one, ← List.reverse_cons, cycSum_reverse, ← cycSum_neg]
      exact cycSum_congr (fun a b => by unfold ccw; ring) _
    rw [h1]
    ring

/-- **C09**, normalization: the area of a triangle is half the determinant of two sides, and the area of an
axis parallel rectangle is the product of its sides. -/
theorem C09_area_triangle_rectangle (a b c : Vec K) (w h : K) :
    area [a, b, c] = ccw (b - a) (c - a) / 2 ∧ area [(0, 0), (w, 0), (w, h), (0, h)] = w * h := by
  rw [area_eq, area_eq]
  constructor
  · simp [cycSum, pathSum, ccw]; ring
  · simp [cycSum, pathSum, ccw]

example : mul ⟨0, 1, 1, 0⟩ [((0 : ℚ), (0 : ℚ)), (1, 0), (0, 2)] = some [(0, 0), (2, 0), (0, 1)] := by
  norm_num [mul, Mat2.det, Mat2.mulVec, vertex, List.range_succ]

/-! ### C10 -/

/-- **C10.** Exactly the invertible matrices act. -/
theorem C10_mul_defined (g : Mat2 K) (p : Poly K) : (mul g p).isSome ↔ g.det ≠ 0 := by
  unfold mul
  split_ifs <;> simp_all

/-- **C10.** The identity acts trivially. -/
theorem C10_mul_one (p : Poly K) : mul Mat2.one p = some p := by
  unfold mul
  have h : (Mat2.one : Mat2 K).det = 1 := by simp [Mat2.det, Mat2.one]
  rw [h, if_neg one_ne_zero, if_neg (not_lt.2 zero_le_one)]
  congr 1
  conv_rhs => rw [← List.map_id p]
  refine List.map_congr_left fun v _ => ?_
  simp [Mat2.mulVec, Mat2.one]

theorem mulVec_mul (g h : Mat2 K) (v : Vec K) : (g.mul h).mulVec v = g.mulVec (h.mulVec v) := by
  apply Prod.ext <;> simp only [Mat2.mulVec, Mat2.mul] <;> ring

theorem det_mul (g h : Mat2 K) : (g.mul h).det = g.det * h.det := by
  simp only [Mat2.det, Mat2.mul]; ring

/-- The value of the action on a polygon with at least one vertex. -/
theorem mul_cons (g : Mat2 K) (x : Vec K) (l : List (Vec K)) (hg : g.det ≠ 0) :
    mul g (x :: l) = some (if g.det < 0 then (x :: l.reverse).map g.mulVec else (x :: l).map g.mulVec) := by
  obtain ⟨q, hq⟩ := Option.isSome_iff_exists.1 ((C10_mul_defined g (x :: l)).2 hg)
  obtain ⟨_, ⟨hd, h1⟩ | ⟨hd, y, m, h1, h2⟩⟩ := mul_eq g (x :: l) (by simp) q hq
  · rw [hq, h1, if_neg (not_lt.2 hd.le)]
  · injection h1 with h3 h4
    subst h3 h4
    rw [hq, h2, if_pos hd]

/-- **C10.** `(g*h)*P = g*(h*P)`, whether the maps preserve or reverse the orientation. -/
theorem C10_mul_mul (g h : Mat2 K) (p : Poly K) (hp : p ≠ []) (hg : g.det ≠ 0) (hh : h.det ≠ 0) :
    mul (g.mul h) p = (mul h p).bind (mul g) := by
  cases p with
  | nil => exact absurd rfl hp
  | cons x l =>
    have hgh : (g.mul h).det ≠ 0 := by rw [det_mul]; exact mul_ne_zero hg hh
    rw [mul_cons _ _ _ hgh, mul_cons _ _ _ hh, det_mul, Option.bind_some]
    have hcomp : ∀ m : List (Vec K), (m.map h.mulVec).map g.mulVec = m.map (g.mul h).mulVec := by
      intro m
      rw [List.map_map]
      exact List.map_congr_left fun v _ => (mulVec_mul g h v).symm
    rcases lt_or_gt_of_ne hh with h1 | h1 <;> rcases lt_or_gt_of_ne hg with h2 | h2
    · rw [if_pos h1, List.map_cons (f := h.mulVec), mul_cons _ _ _ hg, if_pos h2, if_neg (not_lt.2 (mul_pos_of_neg_of_neg h2 h1).le),
        List.map_reverse, List.reverse_reverse, ← List.map_cons (f := h.mulVec), hcomp]
    · rw [if_pos h1, List.map_cons (f := h.mulVec), mul_cons _ _ _ hg, if_neg (not_lt.2 h2.le), if_pos (mul_neg_of_pos_of_neg h2 h1),
        ← List.map_cons (f := h.mulVec), hcomp]
    · rw [if_neg (not_lt.2 h1.le), List.map_cons (f := h.mulVec), mul_cons _ _ _ hg, if_pos h2,
        if_pos (mul_neg_of_neg_of_pos h2 h1), ← List.map_reverse, ← List.map_cons (f := h.mulVec), hcomp]
    · rw [if_neg (not_lt.2 h1.le), List.map_cons (f := h.mulVec), mul_cons _ _ _ hg, if_neg (not_lt.2 h2.le),
        if_neg (not_lt.2 (mul_pos h2 h1).le), ← List.map_cons (f := h.mulVec), hcomp]

theorem vertex_map (f : Vec K → Vec K) (p : Poly K) (hp : p ≠ []) (i : ℕ) :
    vertex (p.map f) i = f (p.vertex i) := by
  have hpos : 0 < p.length := List.length_pos_iff.2 hp
  have h1 := Nat.mod_lt i hpos
  rw [← vertex_mod p, ← vertex_mod (p.map f), List.length_map, vertex_of_lt p h1,
    vertex_of_lt _ (by rw [List.length_map]; exact h1), List.getElem_map]

theorem vertex_reversed (x : Vec K) (l : List (Vec K)) (i : ℕ) (hi : i ≤ l.length + 1) :
    vertex (x :: l.reverse) i = vertex (x :: l) (l.length + 1 - i) := by
  rcases Nat.lt_or_eq_of_le hi with hi | rfl
  · cases i with
    | zero =>
      rw [Nat.sub_zero]
      have : vertex (x :: l) (l.length + 1) = vertex (x :: l) 0 := vertex_congr _ (by simp)
      rw [this, vertex_of_lt _ (by simp), vertex_of_lt _ (by simp)]
      rfl
    | succ i =>
      have hil : i < l.length := by omega
      rw [vertex_of_lt _ (by simpa using hil), vertex_of_lt _ (by simp only [List.length_cons]; omega),
        List.getElem_cons_succ, List.getElem_reverse]
      have : l.length + 1 - (i + 1) = (l.length - 1 - i) + 1 := by omega
      simp only [this, List.getElem_cons_succ]
  · have : vertex (x :: l.reverse) (l.length + 1) = vertex (x :: l.reverse) 0 := vertex_congr _ (by simp)
    rw [this, Nat.sub_self, vertex_of_lt _ (by simp), vertex_of_lt _ (by simp)]
    rfl

/-- **C10.** The vertices of `g*P`: in the same order when `g` preserves the orientation and in the opposite
order otherwise; in any case vertex 0 is the image of vertex 0. -/
theorem C10_vertices (g : Mat2 K) (p q : Poly K) (hp : p ≠ []) (h : mul g p = some q) :
    q.length = p.length ∧ q.vertex 0 = g.mulVec (p.vertex 0) ∧
    (0 < g.det → ∀ i, q.vertex i = g.mulVec (p.vertex i)) ∧
    (g.det < 0 → ∀ i ≤ p.length, q.vertex i = g.mulVec (p.vertex (p.length - i))) := by
  obtain ⟨_, ⟨hd, rfl⟩ | ⟨hd, x, l, rfl, rfl⟩⟩ := mul_eq g p hp q h
  · exact ⟨by simp, vertex_map _ _ hp _, fun _ i => vertex_map _ _ hp _, fun h' => absurd h' (not_lt.2 hd.le)⟩
  · refine ⟨by simp, ?_, fun h' => absurd h' (not_lt.2 hd.le), fun _ i hi => ?_⟩
    · rw [vertex_map _ _ (by simp), vertex_of_lt _ (by simp), vertex_of_lt _ (by simp)]
      rfl
    · rw [vertex_map _ _ (by simp), vertex_reversed x l i hi]
      rfl

/-- **C10.** The image of a counterclockwise polygon is counterclockwise. -/
theorem C10_counterclockwise (g : Mat2 K) (p q : Poly K) (hp : p ≠ []) (h : mul g p = some q)
    (ha : 0 < p.area) : 0 < q.area := by
  rw [C09_area_mul g p q hp h]
  exact mul_pos (abs_pos.2 (mul_eq g p hp q h).1) ha

theorem isConvex_iff (p : Poly K) (hp : p ≠ []) (strict : Bool) :
    p.isConvex strict = true ↔ ∀ i, if strict then 0 < ccw (p.edge i) (p.edge (i + 1)) else
      0 ≤ ccw (p.edge i) (p.edge (i + 1)) := by
  have key : ∀ i, ∃ j < p.length, p.edge i = p.edge j ∧ p.edge (i + 1) = p.edge (j + 1) := by
    intro i
    refine ⟨i % p.length, Nat.mod_lt _ (List.length_pos_iff.2 hp), (edge_mod p i).symm, ?_⟩
    exact edge_congr p (by simp)
  unfold isConvex
  rw [List.all_eq_true]
  cases strict with
  | false =>
    simp only [List.mem_range, Bool.false_eq_true, if_false, decide_eq_true_eq, not_lt]
    constructor
    · intro h i
      obtain ⟨j, hj, h1, h2⟩ := key i
      rw [h1, h2]; exact h j hj
    · exact fun h i _ => h i
  | true =>
    simp only [List.mem_range, if_true, decide_eq_true_eq, not_le]
    constructor
    · intro h i
      obtain ⟨j, hj, h1, h2⟩ := key i
      rw [h1, h2]; exact h j hj
    · exact fun h i _ => h i

theorem mulVec_sub (g : Mat2 K) (v w : Vec K) : g.mulVec v - g.mulVec w = g.mulVec (v - w) := by
  apply Prod.ext <;> simp only [Mat2.mulVec, Prod.fst_sub, Prod.snd_sub] <;> ring

/-- **C10.** The image of a (strictly) convex polygon is (strictly) convex. -/
theorem C10_convex (g : Mat2 K) (p q : Poly K) (hp : p ≠ []) (h : mul g p = some q) (strict : Bool)
    (hc : p.isConvex strict = true) : q.isConvex strict = true := by
  obtain ⟨hlen, _, hpos, hneg⟩ := C10_vertices g p q hp h
  have hpl : 0 < p.length := List.length_pos_iff.2 hp
  have hq : q ≠ [] := by
    rw [← List.length_pos_iff, hlen]; exact hpl
  rw [isConvex_iff p hp] at hc
  rw [isConvex_iff q hq]
  intro i
  rcases lt_or_gt_of_ne (mul_eq g p hp q h).1 with hd | hd
  · -- the vertices in the opposite order
    have hv : ∀ i m, (m + i) % p.length = 0 → q.vertex i = g.mulVec (p.vertex m) := by
      intro i m hm
      have hlt := Nat.mod_lt i hpl
      rw [← vertex_mod q i, hlen, hneg hd _ hlt.le]
      congr 1
      refine vertex_congr p ?_
      obtain ⟨t, ht⟩ := Nat.dvd_of_mod_eq_zero hm
      have hi := Nat.mod_add_div i p.length
      have : p.length - i % p.length + p.length * t = m + p.length * (1 + i / p.length) := by
        rw [Nat.mul_add, Nat.mul_one]
        omega
      calc (p.length - i % p.length) % p.length
          = (p.length - i % p.length + p.length * t) % p.length := by simp
        _ = m % p.length := by rw [this]; simp
    obtain ⟨m, hm⟩ : ∃ m, (m + (i + 2)) % p.length = 0 := by
      refine ⟨(p.length - 1) * (i + 2), ?_⟩
      have : (p.length - 1) * (i + 2) + (i + 2) = p.length * (i + 2) := by
        obtain ⟨n, hn⟩ : ∃ n, p.length = n + 1 := ⟨p.length - 1, by omega⟩
        rw [hn, Nat.add_sub_cancel]; ring
      rw [this]
      simp
    have e0 : q.edge i = g.mulVec (-p.edge (m + 1)) := by
      unfold edge
      rw [hv (i + 1) (m + 1) (by rw [← hm]; congr 1; omega), hv i (m + 2) (by rw [← hm]; congr 1; omega),
        mulVec_sub, neg_sub]
    have e1 : q.edge (i + 1) = g.mulVec (-p.edge m) := by
      unfold edge
      rw [hv (i + 1 + 1) m (by rw [← hm]), hv (i + 1) (m + 1) (by rw [← hm]; congr 1; omega),
        mulVec_sub, neg_sub]
    have e2 : ccw (q.edge i) (q.edge (i + 1)) = (-g.det) * ccw (p.edge m) (p.edge (m + 1)) := by
      rw [e0, e1, ccw_mulVec]
      simp only [ccw, Prod.fst_neg, Prod.snd_neg]; ring
    have hcm := hc m
    rw [e2]
    split_ifs at hcm ⊢
    · exact mul_pos (neg_pos.2 hd) hcm
    · exact mul_nonneg (neg_pos.2 hd).le hcm
  · have e : ∀ i, q.edge i = g.mulVec (p.edge i) := by
      intro i
      unfold edge
      rw [hpos hd, hpos hd, mulVec_sub]
    have hci := hc i
    rw [e, e, ccw_mulVec]
    split_ifs at hci ⊢
    · exact mul_pos hd hci
    · exact mul_nonneg hd.le hci

example : isConvex [((0 : ℚ), (0 : ℚ)), (1, 0), (0, 2)] true = true := by
  norm_num [isConvex, edge, vertex, ccw, List.range_succ]

/-! ### C13 -/

/-- A triangle is accepted by the constructor iff it is counterclockwise and not degenerate. -/
theorem ofVertices_triangle (a b c : Vec K) :
    ofVertices [a, b, c] = .ok [a, b, c] ↔ 0 < ccw (b - a) (c - a) := by
  have harea := (C09_area_triangle_rectangle a b c 0 0).1
  have v0 : vertex [a, b, c] 0 = a := by simp [vertex]
  have v1 : vertex [a, b, c] 1 = b := by simp [vertex]
  have v2 : vertex [a, b, c] 2 = c := by simp [vertex]
  have v3 : vertex [a, b, c] 3 = a := by simp [vertex]
  have v4 : vertex [a, b, c] 4 = b := by simp [vertex]
  have hpar : ∀ v w : Vec K, ccw v w ≠ 0 → isAntiParallel v w = false := by
    intro v w h
    unfold isAntiParallel isParallel
    rw [if_pos]
    intro h'
    apply h
    have : ccw v (-w) = - ccw v w := by simp only [ccw, Prod.fst_neg, Prod.snd_neg]; ring
    rw [this] at h'
    exact neg_eq_zero.1 h'
  constructor
  · intro h
    unfold ofVertices check at h
    rw [if_neg (by simp)] at h
    simp only [harea, bind, Except.bind] at h
    split_ifs at h with h1 h2
    all_goals first | (cases h; done) | skip
    all_goals
      rw [not_lt] at h1
      rcases h1.lt_or_eq with h3 | h3
      · linarith
      · exact absurd h3.symm h2
  · intro h
    unfold ofVertices check
    have hs : isSimple [a, b, c] = true := by
      simp [isSimple, List.range_succ]
    have hne : ∀ x y z : Vec K, ccw (y - x) (z - x) ≠ 0 → y - x ≠ 0 := by
      intro x y z hh hxy
      rw [hxy] at hh
      simp [ccw] at hh
    have r1 : ccw (c - b) (a - b) = ccw (b - a) (c - a) := by
      simp only [ccw, Prod.fst_sub, Prod.snd_sub]; ring
    have r2 : ccw (a - c) (b - c) = ccw (b - a) (c - a) := by
      simp only [ccw, Prod.fst_sub, Prod.snd_sub]; ring
    have q1 : ccw (b - a) (c - b) ≠ 0 := by
      have : ccw (b - a) (c - b) = ccw (b - a) (c - a) := by
        simp only [ccw, Prod.fst_sub, Prod.snd_sub]; ring
      rw [this]; exact h.ne'
    have q2 : ccw (c - b) (a - c) ≠ 0 := by
      have : ccw (c - b) (a - c) = ccw (b - a) (c - a) := by
        simp only [ccw, Prod.fst_sub, Prod.snd_sub]; ring
      rw [this]; exact h.ne'
    have q3 : ccw (a - c) (b - a) ≠ 0 := by
      have : ccw (a - c) (b - a) = ccw (b - a) (c - a) := by
        simp only [ccw, Prod.fst_sub, Prod.snd_sub]; ring
      rw [this]; exact h.ne'
    have he1 := hne a b c h.ne'
    have he2 := hne b c a (by rw [r1]; exact h.ne')
    have he3 := hne c a b (by rw [r2]; exact h.ne')
    rw [if_neg (by simp), harea, if_neg (by linarith), if_neg (by linarith), if_neg, if_neg, if_neg (by simp [hs])]
    · rfl
    · simp only [List.length_cons, List.length_nil, List.any_eq_true, not_exists]
      rintro i ⟨hi, hh⟩
      have : i = 0 ∨ i = 1 ∨ i = 2 := by
        rw [List.mem_range] at hi; omega
      rcases this with rfl | rfl | rfl
      · simp only [edge, v0, v1, v2, hpar _ _ q1] at hh; cases hh
      · simp only [edge, v1, v2, v3, hpar _ _ q2] at hh; cases hh
      · simp only [edge, v2, v3, v4, hpar _ _ q3] at hh; cases hh
    · simp only [edges, List.length_cons, List.length_nil, List.any_eq_true, not_exists]
      rintro e ⟨he, hh⟩
      obtain ⟨i, hi, rfl⟩ := List.mem_map.1 he
      have : i = 0 ∨ i = 1 ∨ i = 2 := by
        rw [List.mem_range] at hi; omega
      rcases this with rfl | rfl | rfl
      · simp only [edge, v0, v1, decide_eq_true_eq] at hh; exact he1 hh
      · simp only [edge, v1, v2, decide_eq_true_eq] at hh; exact he2 hh
      · simp only [edge, v2, v3, decide_eq_true_eq] at hh; exact he3 hh

theorem ofVertices_ok {vs p : List (Vec K)} (h : ofVertices vs = .ok p) :
    p = vs ∧ 3 ≤ vs.length ∧ 0 < area vs := by
  unfold ofVertices at h
  split_ifs at h with h1
  simp only [bind, Except.bind] at h
  cases hc : check vs with
  | error e => rw [hc] at h; cases h
  | ok u =>
    rw [hc] at h
    injection h with h
    refine ⟨h.symm, by omega, ?_⟩
    unfold check at hc
    split_ifs at hc with h2 h3
    rw [not_lt] at h2
    exact lt_of_le_of_ne h2 (Ne.symm h3)

/-- **C13.** `subdivide()` returns one counterclockwise triangle for each edge of the polygon, having this
edge as its edge 0; consecutive triangles share an edge with opposite direction; the areas add up to the
area of the polygon. -/
theorem C13_subdivide (p : Poly K) (ts : List (Poly K)) (h : subdivide p = .ok ts) :
    ts.length = p.length ∧
    (∀ i (hi : i < ts.length), ts[i].length = 3 ∧ 0 < ts[i].area ∧ ts[i].vertex 0 = p.vertex i ∧
      ts[i].edge 0 = p.edge i) ∧
    (∀ i (hi : i < ts.length), ∃ j, ∃ hj : j < ts.length, j = (i + 1) % ts.length ∧
      ts[i].vertex 1 = ts[j].vertex 0 ∧ ts[i].vertex 2 = ts[j].vertex 2 ∧ ts[i].edge 1 = -ts[j].edge 2) ∧
    (ts.map area).sum = p.area := by
  unfold subdivide at h
  have hF := (mapM_ok_iff _ _ _).1 h
  have hlen : ts.length = p.length := by rw [← hF.length_eq, List.length_range]
  have hget : ∀ i (hi : i < ts.length), ts[i] = [p.vertex i, p.vertex (i + 1), p.centroid] ∧ 0 < ts[i].area := by
    intro i hi
    have := List.forall₂_iff_get.1 hF
    have h2 := this.2 i (by rw [List.length_range, ← hlen]; exact hi) hi
    simp only [List.get_eq_getElem, List.getElem_range] at h2
    obtain ⟨h3, _, h4⟩ := ofVertices_ok h2
    exact ⟨h3, by rw [h3]; exact h4⟩
  have v0 : ∀ a b c : Vec K, vertex [a, b, c] 0 = a := fun a b c => by simp [vertex]
  have v1 : ∀ a b c : Vec K, vertex [a, b, c] 1 = b := fun a b c => by simp [vertex]
  have v2 : ∀ a b c : Vec K, vertex [a, b, c] 2 = c := fun a b c => by simp [vertex]
  have v3 : ∀ a b c : Vec K, vertex [a, b, c] 3 = a := fun a b c => by simp [vertex]
  refine ⟨hlen, fun i hi => ?_, fun i hi => ?_, ?_⟩
  · obtain ⟨h1, h2⟩ := hget i hi
    refine ⟨by rw [h1]; rfl, h2, by rw [h1, v0], ?_⟩
    rw [h1]
    simp only [edge, v0, v1]
  · have hj : (i + 1) % ts.length < ts.length := Nat.mod_lt _ (by omega)
    refine ⟨_, hj, rfl, ?_⟩
    rw [(hget i hi).1, (hget _ hj).1]
    have e : p.vertex ((i + 1) % ts.length) = p.vertex (i + 1) := by rw [hlen, vertex_mod]
    refine ⟨by rw [v1, v0, e], by rw [v2, v2], ?_⟩
    simp only [edge, v1, v2, v3, e, neg_sub]
  · have : ts.map area = (List.range p.length).map
        (fun i => ccw (p.vertex (i + 1) - p.vertex i) (p.centroid - p.vertex i) / 2) := by
      apply List.ext_getElem
      · simp [hlen]
      · intro i h1 h2
        rw [List.length_map] at h1
        rw [List.getElem_map, List.getElem_map, List.getElem_range, (hget i h1).1,
          (C09_area_triangle_rectangle _ _ _ 0 0).1]
    rw [this, sum_edges_eq (fun v w => ccw (w - v) (p.centroid - v) / 2), area_eq, div_eq_inv_mul, ← cycSum_mul]
    refine cycSum_eq_of_telescope (fun v => -(ccw v p.centroid) / 2 * (-1)) (fun a b => ?_) _
    simp only [ccw, Prod.fst_sub, Prod.snd_sub]
    ring

/-- A square. -/
def exSquare : Poly ℚ := [(0, 0), (1, 0), (1, 1), (0, 1)]

example : ∃ ts, subdivide exSquare = .ok ts ∧ ts.length = 4 := by
  have h : (subdivide exSquare).toOption.map List.length = some 4 := by decide +kernel
  cases hs : subdivide exSquare with
  | error e => rw [hs] at h; cases h
  | ok ts => rw [hs] at h; exact ⟨ts, rfl, by injection h⟩

/-- The centroid moves along with translations. -/
theorem C13_centroid_translate (p : Poly K) (u : Vec K) (h : p.area ≠ 0) :
    (p.translate u).centroid = u + p.centroid := by
  by_cases hp : p = []
  · subst hp; exact absurd (by simp [area]) h
  have hlen : (p.translate u).length = p.length := by simp [translate]
  have hv : ∀ i, (p.translate u).vertex i = u + p.vertex i := fun i => vertex_map _ p hp i
  have hpos : 0 < p.length := List.length_pos_iff.2 hp
  -- shift the index: `i - 1, i` becomes `i, i + 1`
  have shift : ∀ (q : Poly K) (_ : q.length = p.length) (F : Vec K → Vec K → K),
      ((List.range q.length).map (fun i => F (q.vertex (i + q.length - 1)) (q.vertex i))).sum = cycSum F q := by
    intro q hq F
    rw [← cycSum_rotate F q (q.length - 1), ← sum_edges_eq, List.length_rotate]
    congr 1
    refine List.map_congr_left fun i hi => ?_
    have hr : ∀ j, vertex (q.rotate (q.length - 1)) j = q.vertex (j + (q.length - 1)) := by
      intro j
      have hl := Nat.mod_lt j (hq ▸ hpos)
      rw [← vertex_mod (q.rotate _), List.length_rotate, vertex_of_lt _ (by rw [List.length_rotate]; exact hl),
        List.getElem_rotate, ← vertex_of_lt]
      exact vertex_congr q (by simp)
    rw [hr, hr]
    congr 1
    · congr 1; omega
    · refine vertex_congr q ?_
      have : i + 1 + (q.length - 1) = i + q.length := by omega
      rw [this, Nat.add_mod_right]
  unfold centroid
  simp only [C09_area_translate]
  rw [shift p rfl (fun v w => (v.1 + w.1) * (v.1 * w.2 - w.1 * v.2)),
    shift p rfl (fun v w => (v.2 + w.2) * (v.1 * w.2 - w.1 * v.2)),
    shift (p.translate u) hlen (fun v w => (v.1 + w.1) * (v.1 * w.2 - w.1 * v.2)),
    shift (p.translate u) hlen (fun v w => (v.2 + w.2) * (v.1 * w.2 - w.1 * v.2))]
  have h2 := two_area p
  rw [translate, cycSum_map, cycSum_map]
  have ex : cycSum (fun a b : Vec K => ((u + a).1 + (u + b).1) * ((u + a).1 * (u + b).2 - (u + b).1 * (u + a).2)) p
      = cycSum (fun v w => (v.1 + w.1) * (v.1 * w.2 - w.1 * v.2)) p + 6 * p.area * u.1 := by
    have : 6 * p.area * u.1 = 3 * u.1 * cycSum ccw p := by rw [← h2]; ring
    rw [this, ← cycSum_mul, ← cycSum_add]
    refine cycSum_eq_of_telescope (fun v => 2 * u.1 * (u.1 * v.2 - u.2 * v.1) + u.1 * v.1 * v.2 - u.2 * v.1 * v.1) (fun a b => ?_) _
    simp only [ccw, Prod.fst_add, Prod.snd_add]
    ring
  have ey : cycSum (fun a b : Vec K => ((u + a).2 + (u + b).2) * ((u + a).1 * (u + b).2 - (u + b).1 * (u + a).2)) p
      = cycSum (fun v w => (v.2 + w.2) * (v.1 * w.2 - w.1 * v.2)) p + 6 * p.area * u.2 := by
    have : 6 * p.area * u.2 = 3 * u.2 * cycSum ccw p := by rw [← h2]; ring
    rw [this, ← cycSum_mul, ← cycSum_add]
    refine cycSum_eq_of_telescope (fun v => 2 * u.2 * (u.1 * v.2 - u.2 * v.1) - u.2 * v.1 * v.2 + u.1 * v.2 * v.2) (fun a b => ?_) _
    simp only [ccw, Prod.fst_add, Prod.snd_add]
    ring
  have h6 : (6 * p.area) ≠ 0 := mul_ne_zero (by norm_num) h
  rw [ex, ey]
  apply Prod.ext
  · simp only [Prod.fst_add]; field_simp; ring
  · simp only [Prod.snd_add]; field_simp; ring

/-! ### Polygons from edges -/

theorem partialSums_length (v : Vec K) (es : List (Vec K)) : (partialSums v es).length = es.length + 1 := by
  induction es generalizing v with
  | nil => rfl
  | cons e es ih => simp [partialSums, ih]

theorem partialSums_getElem (v : Vec K) (es : List (Vec K)) (i : ℕ) (hi : i < (partialSums v es).length) :
    (partialSums v es)[i] = v + (es.take i).sum := by
  induction es generalizing v i with
  | nil =>
    have : i = 0 := by simp [partialSums] at hi; exact hi
    subst this
    simp [partialSums]
  | cons e es ih =>
    cases i with
    | zero => simp [partialSums]
    | succ i => simp [partialSums, ih, add_assoc]

theorem partialSums_getLast (v : Vec K) (es : List (Vec K)) : (partialSums v es).getLast? = some (v + es.sum) := by
  rw [List.getLast?_eq_getElem?, partialSums_length, Nat.add_sub_cancel,
    List.getElem?_eq_getElem (by rw [partialSums_length]; omega), partialSums_getElem, List.take_length]

/-- What the constructor guarantees for a polygon given by its edges. -/
theorem ofEdges_ok {es : List (Vec K)} {p : Poly K} (h : ofEdges es = .ok p) :
    p = (partialSums 0 es).dropLast ∧ p.length = es.length ∧ 3 ≤ es.length ∧ es.sum = 0 ∧ 0 < p.area := by
  unfold ofEdges at h
  split_ifs at h with h1
  dsimp only at h
  split_ifs at h with h2
  simp only [bind, Except.bind] at h
  rw [not_not, partialSums_getLast, zero_add] at h2
  cases hc : check (partialSums 0 es).dropLast with
  | error e => rw [hc] at h; cases h
  | ok u =>
    rw [hc] at h
    injection h with h
    subst h
    refine ⟨rfl, by simp [partialSums_length], by omega, by injection h2, ?_⟩
    unfold check at hc
    split_ifs at hc with h3 h4
    rw [not_lt] at h3
    exact lt_of_le_of_ne h3 (Ne.symm h4)

theorem closed_vertex {es : List (Vec K)} (hs : es.sum = 0) (i : ℕ) (hi : i ≤ es.length) (hne : es ≠ []) :
    vertex ((partialSums 0 es).dropLast) i = (es.take i).sum := by
  have hl : ((partialSums 0 es).dropLast).length = es.length := by simp [partialSums_length]
  rcases Nat.lt_or_eq_of_le hi with hi | rfl
  · rw [vertex_of_lt _ (by rw [hl]; exact hi), List.getElem_dropLast, partialSums_getElem, zero_add]
  · have : vertex ((partialSums 0 es).dropLast) es.length = vertex ((partialSums 0 es).dropLast) 0 :=
      vertex_congr _ (by rw [hl]; simp)
    rw [this, List.take_length, hs, vertex_of_lt _ (by rw [hl]; exact List.length_pos_iff.2 hne),
      List.getElem_dropLast, partialSums_getElem]
    simp

/-- The edges of a polygon given by its edges. -/
theorem closed_edge {es : List (Vec K)} (hs : es.sum = 0) (i : ℕ) (hi : i < es.length) :
    edge ((partialSums 0 es).dropLast) i = es[i] := by
  have hne : es ≠ [] := by rintro rfl; simp at hi
  unfold edge
  rw [closed_vertex hs _ hi hne, closed_vertex hs _ hi.le hne, List.take_add_one, List.getElem?_eq_getElem hi,
    List.sum_append, add_sub_cancel_left]
  simp

/-- The area of a polygon given by its edges. -/
theorem closed_area {es : List (Vec K)} (hs : es.sum = 0) :
    area ((partialSums 0 es).dropLast) = pathSum ccw (partialSums 0 es) / 2 := by
  rw [area_eq]
  congr 1
  unfold cycSum
  cases es with
  | nil => rfl
  | cons e es =>
    congr 1
    have hlast := partialSums_getLast (0 : Vec K) (e :: es)
    rw [hs, add_zero] at hlast
    have h1 : (partialSums 0 (e :: es)).dropLast.take 1 = [0] := by
      cases es <;> simp [partialSums]
    rw [h1]
    exact List.dropLast_append_getLast? 0 hlast

theorem edges_sum (p : Poly K) (i : ℕ) (hi : i ≤ p.length) : (p.edges.take i).sum = p.vertex i - p.vertex 0 := by
  induction i with
  | zero => simp
  | succ i ih =>
    have hlt : i < p.edges.length := by simp [edges]; omega
    rw [List.take_add_one, List.sum_append, ih (by omega), List.getElem?_eq_getElem hlt]
    simp [edges, edge]

theorem edges_closed (p : Poly K) : p.edges.sum = 0 := by
  have := edges_sum p p.length le_rfl
  rw [List.take_of_length_le (by simp [edges])] at this
  rw [this, vertex_congr p (i := p.length) (j := 0) (by simp), sub_self]

/-- The polygon built from the edges of `p` is `p` with vertex 0 moved to the origin. -/
theorem ofEdges_edges (p : Poly K) (hp : p ≠ []) :
    (partialSums 0 p.edges).dropLast = p.translate (-p.vertex 0) := by
  have hl : p.edges.length = p.length := by simp [edges]
  apply List.ext_getElem
  · simp [partialSums_length, hl, translate]
  · intro i h1 h2
    simp only [List.length_dropLast, partialSums_length, hl, Nat.add_sub_cancel] at h1
    rw [List.getElem_dropLast, partialSums_getElem, zero_add, edges_sum p i h1.le, vertex_of_lt p h1]
    simp [translate, sub_eq_neg_add]

/-- The area is determined by the edges. -/
theorem area_of_edges (p : Poly K) : p.area = pathSum ccw (partialSums 0 p.edges) / 2 := by
  by_cases hp : p = []
  · subst hp; rfl
  rw [← closed_area (edges_closed p), ofEdges_edges p hp, C09_area_translate]

theorem pathSum_partialSums_cons (v e : Vec K) (es : List (Vec K)) :
    pathSum ccw (partialSums v (e :: es)) = ccw v e + pathSum ccw (partialSums (v + e) es) := by
  have : ∃ l, partialSums (v + e) es = (v + e) :: l := by cases es <;> exact ⟨_, rfl⟩
  obtain ⟨l, hl⟩ := this
  simp only [partialSums, hl, pathSum]
  congr 1
  simp only [ccw, Prod.fst_add, Prod.snd_add]; ring

theorem pathSum_partialSums_replicate (v e : Vec K) (n : ℕ) (es : List (Vec K)) :
    pathSum ccw (partialSums v (List.replicate n e ++ es)) =
      n * ccw v e + pathSum ccw (partialSums (v + (n : K) • e) es) := by
  induction n generalizing v with
  | zero => simp
  | succ n ih =>
    rw [List.replicate_succ, List.cons_append, pathSum_partialSums_cons, ih]
    have e1 : v + e + (n : K) • e = v + ((n + 1 : ℕ) : K) • e := by
      apply Prod.ext <;> simp <;> ring
    have e2 : ccw (v + e) e = ccw v e := by simp only [ccw, Prod.fst_add, Prod.snd_add]; ring
    rw [e1, e2]
    push_cast
    ring

theorem pathSum_partialSums_subdivided (v : Vec K) (n : ℕ) (hn : 1 ≤ n) (es : List (Vec K)) :
    pathSum ccw (partialSums v ((es.map (fun e => List.replicate n ((n : K)⁻¹ • e))).flatten)) =
      pathSum ccw (partialSums v es) := by
  have hn' : (n : K) ≠ 0 := Nat.cast_ne_zero.2 (by omega)
  induction es generalizing v with
  | nil => rfl
  | cons e es ih =>
    rw [List.map_cons, List.flatten_cons, pathSum_partialSums_replicate, ih, pathSum_partialSums_cons,
      smul_smul, mul_inv_cancel₀ hn', one_smul]
    congr 1
    simp only [ccw, Prod.smul_fst, Prod.smul_snd, smul_eq_mul]
    field_simp

omit [LinearOrder K] [IsStrictOrderedRing K] in
theorem subdivided_take (n : ℕ) (f : Vec K → Vec K) (es : List (Vec K)) (i j : ℕ) (hj : j < n) (hi : i < es.length) :
    ((es.map (fun e => List.replicate n (f e))).flatten).take (n * i + j) =
      ((es.take i).map (fun e => List.replicate n (f e))).flatten ++ List.replicate j (f es[i]) := by
  induction es generalizing i with
  | nil => simp at hi
  | cons e es ih =>
    cases i with
    | zero =>
      simp only [List.map_cons, List.flatten_cons, Nat.mul_zero, Nat.zero_add, List.take_zero, List.map_nil,
        List.flatten_nil, List.nil_append, List.getElem_cons_zero]
      rw [List.take_append_of_le_length (by simp; omega), List.take_replicate, min_eq_left hj.le]
    | succ i =>
      simp only [List.map_cons, List.flatten_cons, List.take_succ_cons, List.getElem_cons_succ,
        List.append_assoc]
      rw [← ih i (by simpa using hi), List.take_append, List.take_of_length_le (by simp; nlinarith)]
      congr 2
      simp only [List.length_replicate]
      have : n * (i + 1) = n + n * i := by ring
      omega

theorem subdivided_sum (n : ℕ) (hn : 1 ≤ n) (es : List (Vec K)) :
    ((es.map (fun e => List.replicate n ((n : K)⁻¹ • e))).flatten).sum = es.sum := by
  have hn' : (n : K) ≠ 0 := Nat.cast_ne_zero.2 (by omega)
  induction es with
  | nil => rfl
  | cons e es ih =>
    rw [List.map_cons, List.flatten_cons, List.sum_append, ih, List.sum_replicate, List.sum_cons,
      ← Nat.cast_smul_eq_nsmul K, smul_smul, mul_inv_cancel₀ hn', one_smul]

theorem subdivided_spec (p : Poly K) {n : ℕ} (hn : 1 ≤ n) (q : Poly K)
    (hq : q = (partialSums 0 ((p.edges.map (fun e => List.replicate n ((n : K)⁻¹ • e))).flatten)).dropLast) :
    q.length = n * p.length ∧ q.area = p.area ∧
    ∀ i < p.length, ∀ j < n, q.vertex (n * i + j) = (p.vertex i - p.vertex 0) + ((j : K) / n) • p.edge i ∧
      q.edge (n * i + j) = (n : K)⁻¹ • p.edge i := by
  subst hq
  have hn' : (n : K) ≠ 0 := Nat.cast_ne_zero.2 (by omega)
  have hs : ((p.edges.map (fun e => List.replicate n ((n : K)⁻¹ • e))).flatten).sum = 0 := by
    rw [subdivided_sum n hn, edges_closed]
  have hlen' : ((p.edges.map (fun e => List.replicate n ((n : K)⁻¹ • e))).flatten).length = n * p.length := by
    simp [List.length_flatten, edges, Function.comp_def, mul_comm]
  have hel : p.edges.length = p.length := by simp [edges]
  refine ⟨by rw [List.length_dropLast, partialSums_length, hlen']; rfl, ?_, fun i hi j hj => ?_⟩
  · rw [closed_area hs, pathSum_partialSums_subdivided _ _ hn, ← area_of_edges]
  · have hne : ((p.edges.map (fun e => List.replicate n ((n : K)⁻¹ • e))).flatten) ≠ [] := by
      intro h0
      rw [h0] at hlen'
      have : 0 < n * p.length := Nat.mul_pos hn (by omega)
      simp only [List.length_nil] at hlen'
      omega
    have hlt : n * i + j < n * p.length := by
      calc n * i + j < n * i + n := by omega
        _ = n * (i + 1) := by ring
        _ ≤ n * p.length := Nat.mul_le_mul_left _ hi
    have hv : ∀ k ≤ n, (((p.edges.map (fun e => List.replicate n ((n : K)⁻¹ • e))).flatten).take (n * i + k)).sum
        = (p.vertex i - p.vertex 0) + ((k : K) / n) • p.edge i := by
      intro k hk
      have hpe : ∀ h, p.edges[i]'h = p.edge i := fun h => by simp [edges]
      rcases Nat.lt_or_eq_of_le hk with hk | rfl
      · rw [subdivided_take n (fun e => (n : K)⁻¹ • e) p.edges i k hk (by omega), List.sum_append, subdivided_sum n hn,
          edges_sum p i hi.le, List.sum_replicate, hpe, ← Nat.cast_smul_eq_nsmul K, smul_smul, div_eq_mul_inv]
      · have h2 : k * i + k = k * (i + 1) + 0 := by ring
        rw [div_self hn', one_smul]
        have h5 : p.vertex i - p.vertex 0 + p.edge i = p.vertex (i + 1) - p.vertex 0 := by
          unfold edge; abel
        rw [h5, h2]
        rcases Nat.lt_or_eq_of_le (Nat.succ_le_of_lt hi) with hi' | hi'
        · rw [subdivided_take k (fun e => (k : K)⁻¹ • e) p.edges (i + 1) 0 (by omega) (by rw [hel]; exact hi'),
            List.sum_append, subdivided_sum k hn, edges_sum p (i + 1) hi'.le]
          simp
        · have h6 : i + 1 = p.length := hi'
          rw [h6, List.take_of_length_le (by rw [hlen']; omega), hs, vertex_congr p (i := p.length) (j := 0) (by simp),
            sub_self]
    refine ⟨?_, ?_⟩
    · rw [closed_vertex hs _ (by rw [hlen']; exact hlt.le) hne, hv j hj.le]
    · unfold edge
      rw [add_assoc, closed_vertex hs _ (by rw [hlen']; omega) hne, closed_vertex hs _ (by rw [hlen']; exact hlt.le) hne,
        hv j hj.le, hv (j + 1) hj]
      rw [add_sub_add_left_eq_sub, ← sub_smul]
      congr 1
      push_cast
      field_simp
      ring

/-- **C13.** `subdivide_edges(n)` cuts every edge into `n` equal consecutive pieces (the first vertex of
the result is the origin) and keeps the area. -/
theorem C13_subdivide_edges (p q : Poly K) (n : ℕ) (h : subdivideEdges p n = .ok q) :
    1 ≤ n ∧ q.length = n * p.length ∧ q.area = p.area ∧
    ∀ i < p.length, ∀ j < n, q.vertex (n * i + j) = (p.vertex i - p.vertex 0) + ((j : K) / n) • p.edge i ∧
      q.edge (n * i + j) = (n : K)⁻¹ • p.edge i := by
  unfold subdivideEdges at h
  split_ifs at h with h1
  have hn : 1 ≤ n := by omega
  obtain ⟨rfl, -⟩ := ofEdges_ok h
  exact ⟨hn, subdivided_spec p hn _ rfl⟩

example : subdivideEdges exSquare 2 =
    .ok [(0, 0), (1/2, 0), (1, 0), (1, 1/2), (1, 1), (1/2, 1), (0, 1), (0, 1/2)] := by decide +kernel

example : exSquare.area ≠ 0 := by decide +kernel

/-! ### C14 -/

theorem vertex_rotate (p : Poly K) (k i : ℕ) : vertex (p.rotate k) i = p.vertex (i + k) := by
  by_cases hp : p = []
  · subst hp; simp [vertex]
  have hl := Nat.mod_lt i (List.length_pos_iff.2 hp)
  rw [← vertex_mod (p.rotate k), List.length_rotate, vertex_of_lt _ (by rw [List.length_rotate]; exact hl),
    List.getElem_rotate, ← vertex_of_lt]
  exact vertex_congr p (by simp)

/-- The vertex list built by `join`. -/
theorem join_list (p q r : Poly K) (e f : ℕ) (he : e < p.length) (hf : f < q.length) (hp : 2 ≤ p.length)
    (hq : 2 ≤ q.length) (h1 : p.vertex e = q.vertex (f + 1)) (h2 : p.vertex (e + 1) = q.vertex f)
    (hr : r = p.take e ++ q.drop (f + 1) ++ q.take f ++ p.drop (e + 1)) :
    r.length = p.length + q.length - 2 ∧ r.area = p.area + q.area ∧
    (∀ i < e, r.edge i = p.edge i) ∧
    (∀ i < q.length - 1, r.edge (e + i) = q.edge (f + 1 + i)) ∧
    (∀ i, e < i → i < p.length → r.edge (i + q.length - 2) = p.edge i) := by
  have hpr : p.rotate e = p[e] :: (p.drop (e + 1) ++ p.take e) := by
    rw [List.rotate_eq_drop_append_take he.le, List.drop_eq_getElem_cons he, List.cons_append]
  have hqr : q.rotate f = q[f] :: (q.drop (f + 1) ++ q.take f) := by
    rw [List.rotate_eq_drop_append_take hf.le, List.drop_eq_getElem_cons hf, List.cons_append]
  have hP : (p.drop (e + 1) ++ p.take e).length = p.length - 1 := by simp; omega
  have hQ : (q.drop (f + 1) ++ q.take f).length = q.length - 1 := by simp; omega
  have hrr : r.rotate e = (q.drop (f + 1) ++ q.take f) ++ (p.drop (e + 1) ++ p.take e) := by
    have : r = p.take e ++ ((q.drop (f + 1) ++ q.take f) ++ p.drop (e + 1)) := by rw [hr]; simp
    rw [this]
    have hle : (p.take e).length = e := by simp; omega
    have h3 := List.rotate_append_length_eq (p.take e) ((q.drop (f + 1) ++ q.take f) ++ p.drop (e + 1))
    rw [hle] at h3
    rw [h3]
    simp
  have hrl : r.length = p.length + q.length - 2 := by
    rw [← List.length_rotate (l := r) (n := e), hrr, List.length_append, hP, hQ]; omega
  -- vertices
  have vP : ∀ i < p.length - 1, (p.drop (e + 1) ++ p.take e)[i]? = some (p.vertex (e + 1 + i)) := by
    intro i hi
    have := vertex_rotate p e (i + 1)
    rw [vertex_of_lt _ (by rw [List.length_rotate]; omega)] at this
    rw [show e + 1 + i = i + 1 + e by ring, ← this]
    simp only [hpr, List.getElem_cons_succ]
    rw [List.getElem?_eq_getElem]
  have vQ : ∀ i < q.length - 1, (q.drop (f + 1) ++ q.take f)[i]? = some (q.vertex (f + 1 + i)) := by
    intro i hi
    have := vertex_rotate q f (i + 1)
    rw [vertex_of_lt _ (by rw [List.length_rotate]; omega)] at this
    rw [show f + 1 + i = i + 1 + f by ring, ← this]
    simp only [hqr, List.getElem_cons_succ]
    rw [List.getElem?_eq_getElem]
  have rQ : ∀ i < q.length - 1, r.vertex (e + i) = q.vertex (f + 1 + i) := by
    intro i hi
    have h3 := vertex_rotate r e i
    rw [add_comm e i, ← h3]
    unfold vertex
    rw [List.length_rotate, Nat.mod_eq_of_lt (by omega), hrr, List.getElem?_append_left (by rw [hQ]; exact hi), vQ i hi]
    rfl
  have rP : ∀ i < p.length - 1, r.vertex (e + (q.length - 1) + i) = p.vertex (e + 1 + i) := by
    intro i hi
    have h3 := vertex_rotate r e (q.length - 1 + i)
    rw [show e + (q.length - 1) + i = q.length - 1 + i + e by ring, ← h3]
    unfold vertex
    rw [List.length_rotate, Nat.mod_eq_of_lt (by omega), hrr, List.getElem?_append_right (by rw [hQ]; omega), hQ,
      Nat.add_sub_cancel_left, vP i hi]
    rfl
  -- the two common vertices
  have rQ' : ∀ i ≤ q.length - 1, r.vertex (e + i) = q.vertex (f + 1 + i) := by
    intro i hi
    rcases Nat.lt_or_eq_of_le hi with hi | rfl
    · exact rQ i hi
    · have := rP 0 (by omega)
      rw [add_zero] at this
      rw [this, add_zero, h2]
      exact (vertex_congr q (by rw [show f + 1 + (q.length - 1) = f + q.length by omega]; simp)).symm
  have rP' : ∀ i ≤ p.length - 1, r.vertex (e + (q.length - 1) + i) = p.vertex (e + 1 + i) := by
    intro i hi
    rcases Nat.lt_or_eq_of_le hi with hi | rfl
    · exact rP i hi
    · have h4 : r.vertex (e + (q.length - 1) + (p.length - 1)) = r.vertex (e + 0) :=
        vertex_congr r (by rw [show e + (q.length - 1) + (p.length - 1) = e + r.length by omega]; simp)
      rw [h4, rQ 0 (by omega), add_zero, ← h1]
      exact (vertex_congr p (by rw [show e + 1 + (p.length - 1) = e + p.length by omega]; simp)).symm
  refine ⟨hrl, ?_, fun i hi => ?_, fun i hi => ?_, fun i hi1 hi2 => ?_⟩
  · -- area
    obtain ⟨P', hP'⟩ : ∃ P', p.drop (e + 1) ++ p.take e = p.vertex (e + 1) :: P' := by
      have := vP 0 (by omega)
      cases hc : p.drop (e + 1) ++ p.take e with
      | nil => rw [hc] at this; simp at this
      | cons x l => rw [hc] at this; simp at this; rw [this]; exact ⟨l, rfl⟩
    obtain ⟨Q', hQ'⟩ : ∃ Q', q.drop (f + 1) ++ q.take f = q.vertex (f + 1) :: Q' := by
      have := vQ 0 (by omega)
      cases hc : q.drop (f + 1) ++ q.take f with
      | nil => rw [hc] at this; simp at this
      | cons x l => rw [hc] at this; simp at this; rw [this]; exact ⟨l, rfl⟩
    rw [← C09_area_rotate r e, ← C09_area_rotate p e, ← C09_area_rotate q f, area_eq, area_eq, area_eq, hrr, hpr, hqr,
      hP', hQ', ← vertex_of_lt p he, ← vertex_of_lt q hf, h1, h2]
    rw [cycSum_cut ccw (q.vertex (f + 1)) (q.vertex f) Q' P' (by unfold ccw; ring)]
    ring
  · have h5 : ∀ j, 1 ≤ j → j ≤ e + 1 → r.vertex (j - 1) = p.vertex (j - 1) := by
      intro j hj1 hj2
      have h6 := rP' (p.length - e - 1 + (j - 1)) (by omega)
      have e1 : r.vertex (e + (q.length - 1) + (p.length - e - 1 + (j - 1))) = r.vertex (j - 1) := by
        refine vertex_congr r ?_
        rw [show e + (q.length - 1) + (p.length - e - 1 + (j - 1)) = (j - 1) + r.length by omega]
        simp
      have e2 : p.vertex (e + 1 + (p.length - e - 1 + (j - 1))) = p.vertex (j - 1) := by
        refine vertex_congr p ?_
        rw [show e + 1 + (p.length - e - 1 + (j - 1)) = (j - 1) + p.length by omega]
        simp
      rw [← e1, h6, e2]
    unfold edge
    have h6 := h5 (i + 1) (by omega) (by omega)
    have h7 := h5 (i + 2) (by omega) (by omega)
    simp only [Nat.add_sub_cancel] at h6
    rw [show i + 2 - 1 = i + 1 by omega] at h7
    rw [h6, h7]
  · unfold edge
    rw [add_assoc e i 1, rQ' (i + 1) (by omega), rQ' i (by omega)]
    rfl
  · unfold edge
    obtain ⟨k, rfl⟩ : ∃ k, i = e + 1 + k := ⟨i - (e + 1), by omega⟩
    rw [show e + 1 + k + q.length - 2 + 1 = e + (q.length - 1) + (k + 1) by omega,
      show e + 1 + k + q.length - 2 = e + (q.length - 1) + k by omega, rP' (k + 1) (by omega), rP' k (by omega)]
    rfl

/-- **C14.** Joining polygons with `n` and `m` vertices along a common edge gives a polygon with `n + m - 2`
edges, which are the remaining edges in order, and the areas add up. -/
theorem C14_join (p q r : Poly K) (e f : ℕ) (he : e < p.length) (hf : f < q.length) (hp : 2 ≤ p.length)
    (hq : 2 ≤ q.length) (h : join p q e f = .ok r) :
    r.length = p.length + q.length - 2 ∧ r.area = p.area + q.area ∧
    (∀ i < e, r.edge i = p.edge i) ∧
    (∀ i < q.length - 1, r.edge (e + i) = q.edge (f + 1 + i)) ∧
    (∀ i, e < i → i < p.length → r.edge (i + q.length - 2) = p.edge i) := by
  unfold join at h
  split_ifs at h with hcond
  push Not at hcond
  obtain ⟨h1, h2⟩ := hcond
  obtain ⟨hr, _, _⟩ := ofVertices_ok h
  exact join_list p q r e f he hf hp hq h1 h2 hr

example : join [((0 : ℚ), (0 : ℚ)), (1, 0), (0, 1)] [(1, 0), (1, 1), (0, 1)] 1 2 = .ok exSquare := by
  decide +kernel

end Poly
end Flat
