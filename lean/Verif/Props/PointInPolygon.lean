import Verif.Lemmas.Crossing
import Verif.Props.TriangulateTotal
import Verif.Props.PointPosition

/-!
# The position of a point in a polygon that need not be convex
-/

namespace Flat
namespace Poly
variable {K : Type} [Field K] [LinearOrder K] [IsStrictOrderedRing K]

theorem windT_rot {f : ℕ → Vec K} {q : Vec K} {T : List Triple} {a b c : ℕ} (h : Rot T a b c) :
    ∃ t ∈ T, windT f q t = windT f q (a, b, c) := by
  rcases h with h | h | h
  · exact ⟨_, h, rfl⟩
  · exact ⟨_, h, by unfold windT; ring⟩
  · exact ⟨_, h, by unfold windT; ring⟩

theorem Valid.exists_tri_disj {p : Poly K} (h : p.Valid) : ∃ T, Tri p.vertex 1 (List.range p.length) T ∧ Disj p.vertex 1 T := by
  obtain ⟨s, hs, T, hT, hd⟩ := h.isSimplePoly.exists_tri_disj
  obtain ⟨T', hT'⟩ := h.exists_tri
  have hnd : (List.range p.length).Nodup := List.nodup_range
  obtain ⟨v, hvu, hv⟩ := exists_extreme lexPos_cone lexPos_total p.vertex (List.range p.length)
    (by have h3 := h.len3; intro e; have h4 := congrArg List.length e; rw [List.length_range] at h4; rw [h4] at h3; simp at h3) h.isSimplePoly.inj
  obtain ⟨prv, h1⟩ := exists_prev hvu
  obtain ⟨nxt, h2⟩ := exists_next hvu
  obtain rfl := sign_unique hs (Or.inl rfl) (hT.fan hnd lexPos_cone hv h1 h2).2 (hT'.fan hnd lexPos_cone hv h1 h2).2
  exact ⟨T, hT, hd⟩

theorem onBd_range {p : Poly K} (h : p.Valid) {q : Vec K} : OnBd p.vertex (List.range p.length) q ↔ ∃ i, q ∈ p.side i := by
  have h3 := h.len3
  constructor
  · rintro ⟨x, hx, hq⟩
    refine ⟨x.1, ?_⟩
    rw [(mem_cyc_range.1 hx).2, vertex_mod] at hq
    exact hq
  · rintro ⟨i, hi⟩
    refine ⟨(i % p.length, (i % p.length + 1) % p.length), mem_cyc_range.2 ⟨Nat.mod_lt _ (by omega), rfl⟩, ?_⟩
    rw [← side_mod] at hi
    have e := p.vertex_mod (i % p.length + 1)
    dsimp only
    rw [e]
    exact hi

/-- The winding number computed by `get_point_position` is 0 or 1. -/
theorem C61_winding {p : Poly K} (h : p.Valid) (q : Vec K) : p.winding q = 0 ∨ p.winding q = 1 := by
  obtain ⟨T, hT, hd⟩ := h.exists_tri_disj
  rw [winding_sum hT.perm]
  rcases sum_le_one (fun t ht => hT.pos _ _ _ (Or.inl ht)) hd q with h | h
  · exact Or.inl h.1
  · exact Or.inr h.1

/-- Triangles as in a triangulation of a polygon. -/
structure IsTri (p : Poly K) (T : List Triple) : Prop where
  perm : ∃ D : List (ℕ × ℕ), List.Perm (T.flatMap tEdges) (cyc (List.range p.length) ++ D ++ D.map Prod.swap)
  pos : ∀ t ∈ T, 0 < ori 1 (p.vertex t.1) (p.vertex t.2.1) (p.vertex t.2.2)
  mem : ∀ x ∈ T.flatMap tEdges, x.1 < p.length

theorem IsTri.rot_pos {p : Poly K} {T : List Triple} (h : IsTri p T) {a b c : ℕ} (ht : Rot T a b c) :
    0 < ori 1 (p.vertex a) (p.vertex b) (p.vertex c) := by
  rcases ht with ht | ht | ht
  · exact h.pos _ ht
  · have := h.pos _ ht; dsimp only at this; rwa [ori_rot] at this
  · have := h.pos _ ht; dsimp only at this; rwa [← ori_rot] at this

theorem IsTri.disj {p : Poly K} (hv : p.Valid) {T : List Triple} (h : IsTri p T) : Disj p.vertex 1 T := by
  refine disj_of_sum h.pos fun q => ?_
  rw [← winding_sum h.perm]
  rcases C61_winding hv q with h | h <;> omega

theorem IsTri.winding_iff {p : Poly K} (hv : p.Valid) {T : List Triple} (h : IsTri p T) {q : Vec K} (hb : ¬ ∃ i, q ∈ p.side i) :
    p.winding q = 1 ↔ Region p.vertex 1 T q := by
  have hs := sum_le_one h.pos (h.disj hv) q
  rw [← winding_sum h.perm] at hs
  constructor
  · intro h1
    rcases hs with hs | ⟨-, t, ht, hw⟩
    · omega
    · obtain ⟨g1, g2, g3⟩ := (wind_tri (h.pos t ht)).2.1 hw
      exact region_iff.2 ⟨t, ht, desc_nonneg g1, desc_nonneg g2, desc_nonneg g3⟩
  · rintro ⟨a, b, c, ht, hi⟩
    suffices hsuff : ∃ a b c, Rot T a b c ∧ windT p.vertex q (a, b, c) = 1 by
      obtain ⟨a, b, c, ht, hw⟩ := hsuff
      obtain ⟨t, ht, hw'⟩ := windT_rot (f := p.vertex) (q := q) ht
      rcases hs with hs | hs
      · have := hs.2 t ht
        omega
      · exact hs.1
    have hmem : ∀ a b c, Rot T a b c → a < p.length := fun a b c ht => h.mem (a, b) (mem_edges.2 ⟨c, ht⟩)
    have hvert : ∀ a, q ≠ p.vertex a := fun a hq => hb ⟨a, hq ▸ left_mem_segPts _ _⟩
    -- a point on a side
    have side : ∀ a b c, Rot T a b c → InTri 1 (p.vertex a) (p.vertex b) (p.vertex c) q → ori 1 (p.vertex a) (p.vertex b) q = 0 →
        ∃ a b c, Rot T a b c ∧ windT p.vertex q (a, b, c) = 1 := by
      intro a b c ht hi h0
      have hseg := side_of_zero (h.rot_pos ht) hi h0
      obtain ⟨D, hD⟩ := h.perm
      have hm := hD.mem_iff.1 (mem_edges.2 ⟨c, ht⟩)
      have hcyc : (a, b) ∉ cyc (List.range p.length) := fun hc => hb ((onBd_range hv).1 ⟨_, hc, hseg⟩)
      obtain ⟨d, ht'⟩ : ∃ d, Rot T b a d := by
        refine mem_edges.1 (hD.mem_iff.2 ?_)
        simp only [List.mem_append, List.mem_map, Prod.exists, Prod.swap_prod_mk, Prod.mk.injEq] at hm ⊢
        rcases hm with (hm | hm) | ⟨x, y, hm, rfl, rfl⟩
        · exact absurd hm hcyc
        · exact Or.inr ⟨a, b, hm, rfl, rfl⟩
        · exact Or.inl (Or.inr hm)
      have hab : p.vertex b - p.vertex a ≠ 0 := by
        intro e
        have := h.rot_pos ht
        rw [sub_eq_zero.1 e] at this
        simp [ori, ccw] at this
      obtain ⟨m, m0, m1, hm⟩ := hseg
      dsimp only at hm
      have m0' : 0 < m := by
        refine lt_of_le_of_ne m0 fun e => hvert a ?_
        rw [hm, ← e]; simp
      have m1' : m < 1 := by
        refine lt_of_le_of_ne m1 fun e => hvert b ?_
        rw [hm, e]; simp
      have key : ∀ a b c, Rot T a b c → ∀ m : K, 0 < m → m < 1 → q = p.vertex a + m • (p.vertex b - p.vertex a) → Desc (p.vertex b - p.vertex a) →
          windT p.vertex q (a, b, c) = 1 := by
        intro a b c ht m m0 m1 hq hd
        have hp := h.rot_pos ht
        refine (wind_tri hp).2.2 ⟨Or.inr ⟨?_, hd⟩, Or.inl ?_, Or.inl ?_⟩
        · rw [hq, ori_lin, ori_left, ori_right]; ring
        · rw [hq, ori_lin, ori_left, ori_rot]
          nlinarith
        · rw [hq, ori_lin, ori_right, ← ori_rot]
          nlinarith
      rcases desc_total hab with hd | hd
      · exact ⟨a, b, c, ht, key a b c ht m m0' m1' hm hd⟩
      · rw [neg_sub] at hd
        refine ⟨b, a, d, ht', key b a d ht' (1 - m) (by linarith) (by linarith) ?_ hd⟩
        rw [hm]
        ext <;> simp <;> ring
    rcases hi.1.eq_or_lt with h1 | h1
    · exact side a b c ht hi h1.symm
    rcases hi.2.1.eq_or_lt with h2 | h2
    · exact side b c a ht.rot hi.rot h2.symm
    rcases hi.2.2.eq_or_lt with h3 | h3
    · exact side c a b ht.rot.rot hi.rot.rot h3.symm
    exact ⟨a, b, c, ht, (wind_tri (h.rot_pos ht)).2.2 ⟨Or.inl h1, Or.inl h2, Or.inl h3⟩⟩

/-- Points in triangles. -/
theorem triangle_position {a b c : Vec K} (hD : 0 < ori 1 a b c) (q : Vec K) :
    (pointPosition [a, b, c] q = .interior ↔ InOpen 1 a b c q) ∧ (pointPosition [a, b, c] q = .outside ↔ ¬ InTri 1 a b c q) := by
  have hv : Valid [a, b, c] := ((ofVertices_iff _ _).1 ((ofVertices_triangle _ _ _).2 (by simpa [ori] using hD))).2
  have hleft : ∀ (Q : K → Prop) (x : Vec K), (∀ i, Q (left [a, b, c] x i)) ↔ Q (ori 1 a b x) ∧ Q (ori 1 b c x) ∧ Q (ori 1 c a x) := by
    intro Q x
    have e0 : left [a, b, c] x 0 = ori 1 a b x := by simp [left, edge, vertex, ori]
    have e1 : left [a, b, c] x 1 = ori 1 b c x := by simp [left, edge, vertex, ori]
    have e2 : left [a, b, c] x 2 = ori 1 c a x := by simp [left, edge, vertex, ori]
    constructor
    · intro h
      exact ⟨e0 ▸ h 0, e1 ▸ h 1, e2 ▸ h 2⟩
    · rintro ⟨h0, h1, h2⟩ i
      rw [← left_mod]
      have hi : i % List.length [a, b, c] < 3 := Nat.mod_lt _ (by simp)
      generalize i % List.length [a, b, c] = k at *
      interval_cases k
      · rw [e0]; exact h0
      · rw [e1]; exact h1
      · rw [e2]; exact h2
  have hc : Convex [a, b, c] := by
    intro i j
    revert i
    have hj : ∀ j < 3, ∀ i, 0 ≤ left [a, b, c] (vertex [a, b, c] j) i := by
      intro j hj
      rw [hleft (fun x => 0 ≤ x)]
      have r1 : ori 1 b c a = ori 1 a b c := ori_rot _ _ _ _
      have r2 : ori 1 c a b = ori 1 a b c := (ori_rot _ _ _ _).symm
      interval_cases j <;> simp [vertex, ori_left, ori_right, r1, r2, hD.le]
    intro i
    have := hj (j % 3) (Nat.mod_lt _ (by norm_num)) i
    have e : vertex [a, b, c] (j % 3) = vertex [a, b, c] j := vertex_mod _ _
    rw [e] at this
    exact this
  obtain ⟨h1, h2⟩ := C12_interior hv hc q
  refine ⟨h1.trans (hleft (fun x => 0 < x) q), h2.trans ?_⟩
  have := hleft (fun x => 0 ≤ x) q
  unfold InTri
  rw [← this]
  push Not
  rfl

theorem open_of_closed {a b c a' b' c' q : Vec K} (hD : 0 < ori 1 a' b' c') (h : InOpen 1 a b c q) (h' : InTri 1 a' b' c' q) :
    ∃ x, InOpen 1 a b c x ∧ InOpen 1 a' b' c' x := by
  obtain ⟨g, hg⟩ : ∃ g : Vec K, InOpen 1 a' b' c' g := by
    refine ⟨(1 / 3 : K) • (a' + b' + c'), ?_⟩
    have e : ∀ x y : Vec K, ori 1 x y ((1 / 3 : K) • (a' + b' + c')) = (ori 1 x y a' + ori 1 x y b' + ori 1 x y c') / 3 := by
      intro x y
      simp only [ori, ccw, Prod.fst_sub, Prod.snd_sub, Prod.smul_fst, Prod.smul_snd, Prod.fst_add, Prod.snd_add, smul_eq_mul]
      ring
    have r1 : ori 1 b' c' a' = ori 1 a' b' c' := ori_rot _ _ _ _
    have r2 : ori 1 c' a' b' = ori 1 a' b' c' := (ori_rot _ _ _ _).symm
    refine ⟨?_, ?_, ?_⟩ <;> rw [e] <;> simp only [ori_left, ori_right, r1, r2] <;> linarith
  obtain ⟨e, he, hq⟩ := h.near (g - q)
  have h0 : 0 < min e 1 := lt_min he one_pos
  have h1 : min e 1 ≤ 1 := min_le_right _ _
  refine ⟨_, hq (min e 1) h0 (min_le_left _ _), ?_⟩
  generalize min e 1 = r at *
  refine ⟨?_, ?_, ?_⟩ <;> rw [ori_lin]
  · nlinarith [mul_pos h0 hg.1, mul_nonneg (sub_nonneg.2 h1) h'.1]
  · nlinarith [mul_pos h0 hg.2.1, mul_nonneg (sub_nonneg.2 h1) h'.2.1]
  · nlinarith [mul_pos h0 hg.2.2, mul_nonneg (sub_nonneg.2 h1) h'.2.2]

theorem position_outside_iff {p : Poly K} (hv : p.Valid) {T : List Triple} (h : IsTri p T) (q : Vec K) :
    p.pointPosition q = .outside ↔ ¬ Region p.vertex 1 T q := by
  by_cases hb : ∃ i, q ∈ p.side i
  · have h1 : p.pointPosition q ≠ .outside := by
      intro e
      have := (pointPosition_boundary hv).1 hb
      rw [e] at this
      simp at this
    have h2 : Region p.vertex 1 T q := by
      obtain ⟨x, hx, hq⟩ := (onBd_range hv).2 hb
      obtain ⟨D, hD⟩ := h.perm
      obtain ⟨c, ht⟩ := mem_edges.1 (hD.mem_iff.2 (by simp [hx] : (x.1, x.2) ∈ _))
      refine ⟨x.2, c, x.1, ht.rot, ?_⟩
      exact inTri_side (by rw [ori_rot]; exact h.rot_pos ht) hq
    exact ⟨fun e => absurd e h1, fun e => absurd h2 e⟩
  · rw [pointPosition_winding hv hb, ← h.winding_iff hv hb]
    rcases C61_winding hv q with e | e <;> rw [e] <;> simp

/-- **C61.** The position does not change along a segment that does not meet the boundary. -/
theorem C61_path {p : Poly K} (hv : p.Valid) {q q' : Vec K} (h : ∀ x ∈ segPts (q, q'), ∀ i, x ∉ p.side i) :
    p.pointPosition q = p.pointPosition q' := by
  obtain ⟨T, hT, -⟩ := hv.exists_tri_disj
  have hI : IsTri p T := ⟨hT.perm, fun t ht => hT.pos _ _ _ (Or.inl ht), fun x hx => by
    obtain ⟨c, hc⟩ := mem_edges.1 (show (x.1, x.2) ∈ _ from hx)
    exact List.mem_range.1 (hT.mem _ _ _ hc)⟩
  have hbd : ∀ x ∈ segPts (q, q'), ¬ OnBd p.vertex (List.range p.length) x := fun x hx hb => by
    obtain ⟨i, hi⟩ := (onBd_range hv).1 hb
    exact h x hx i hi
  have e1 : Region p.vertex 1 T q ↔ Region p.vertex 1 T q' :=
    ⟨fun hr => hT.stay hr hbd, fun hr => hT.stay hr fun x hx => hbd x (segPts_comm hx)⟩
  have b1 : ¬ ∃ i, q ∈ p.side i := fun ⟨i, hi⟩ => h q (left_mem_segPts _ _) i hi
  have b2 : ¬ ∃ i, q' ∈ p.side i := fun ⟨i, hi⟩ => h q' (right_mem_segPts _ _) i hi
  rw [← hI.winding_iff hv b1, ← hI.winding_iff hv b2] at e1
  rw [pointPosition_winding hv b1, pointPosition_winding hv b2]
  rcases C61_winding hv q with g | g <;> rcases C61_winding hv q' with g' | g' <;> rw [g, g'] at e1 ⊢ <;> simp at e1

/-- **C61.** A point that is separated from the vertices by a line is outside. -/
theorem C61_hull {p : Poly K} (hv : p.Valid) {q a d : Vec K} (h : ∀ i, ccw d (p.vertex i - a) ≤ 0) (hq : 0 < ccw d (q - a)) :
    p.pointPosition q = .outside := by
  obtain ⟨T, hT, -⟩ := hv.exists_tri_disj
  have hI : IsTri p T := ⟨hT.perm, fun t ht => hT.pos _ _ _ (Or.inl ht), fun x hx => by
    obtain ⟨c, hc⟩ := mem_edges.1 (show (x.1, x.2) ∈ _ from hx)
    exact List.mem_range.1 (hT.mem _ _ _ hc)⟩
  rw [position_outside_iff hv hI]
  rintro ⟨x, y, z, ht, i1, i2, i3⟩
  have hD := hI.rot_pos ht
  have e := bary_sum 1 (p.vertex x) (p.vertex y) (p.vertex z) q
  have e1 := congrArg Prod.fst e
  have e2 := congrArg Prod.snd e
  simp only [Prod.fst_add, Prod.snd_add, Prod.smul_fst, Prod.smul_snd, smul_eq_mul, Prod.fst_sub, Prod.snd_sub, Prod.fst_zero, Prod.snd_zero] at e1 e2
  have hs := ori_add 1 (p.vertex x) (p.vertex y) (p.vertex z) q
  have k1 := mul_nonneg i2 (neg_nonneg.2 (h x))
  have k2 := mul_nonneg i3 (neg_nonneg.2 (h y))
  have k3 := mul_nonneg i1 (neg_nonneg.2 (h z))
  have k4 := mul_pos hD hq
  simp only [ccw, Prod.fst_sub, Prod.snd_sub] at k1 k2 k3 k4
  rw [← hs] at k4
  generalize ori 1 (p.vertex x) (p.vertex y) q = C at *
  generalize ori 1 (p.vertex y) (p.vertex z) q = A at *
  generalize ori 1 (p.vertex z) (p.vertex x) q = B at *
  have : (C + A + B) * (d.1 * (q.2 - a.2) - d.2 * (q.1 - a.1)) =
      A * (d.1 * ((p.vertex x).2 - a.2) - d.2 * ((p.vertex x).1 - a.1)) + B * (d.1 * ((p.vertex y).2 - a.2) - d.2 * ((p.vertex y).1 - a.1)) +
      C * (d.1 * ((p.vertex z).2 - a.2) - d.2 * ((p.vertex z).1 - a.1)) := by
    linear_combination d.2 * e1 - d.1 * e2
  linarith

end Poly

namespace MSurf
variable {K : Type} [Field K] [LinearOrder K] [IsStrictOrderedRing K]
open Poly

/-- **C61.** `get_point_position` of a polygon, convex or not, agrees with its triangulation: the points of the polygon
are the points of the triangles returned by `triangulate()`, and these do not overlap. -/
theorem C61_triangulate {p : Poly K} (h : p.Valid) :
    wp (triangulate p) (fun _ t => ∀ q : Vec K,
      (p.pointPosition q = .outside ↔ ∀ l r, t.polygons.get l = some r → r.pointPosition q = .outside) ∧
      ∀ l l' r r', l ≠ l' → t.polygons.get l = some r → t.polygons.get l' = some r' → r.pointPosition q = .interior →
        r'.pointPosition q = .outside) (fun _ _ => False) MSurf.empty := by
  refine wp_mono (triangulate_total h) ?_ (fun _ _ h => h)
  rintro outer t ⟨-, T, hT, hpos, hget⟩ q
  have hI : IsTri p T := ⟨hT.perm, fun t ht => by simpa [ori] using hpos t ht, fun x hx => (hT.lt x hx).1⟩
  have hd := hI.disj h
  constructor
  · rw [position_outside_iff h hI, region_iff]
    push Not
    constructor
    · intro hh l r hl
      rw [hget, Option.map_eq_some_iff] at hl
      obtain ⟨x, hx, rfl⟩ := hl
      have hxT := List.mem_of_getElem? hx
      exact (triangle_position (hI.pos x hxT) q).2.2 (hh x hxT)
    · intro hh x hx
      obtain ⟨l, hl⟩ := List.getElem?_of_mem hx
      exact (triangle_position (hI.pos x hx) q).2.1 (hh l (triPoly p x) (by rw [hget, hl]; rfl))
  · intro l l' r r' hne hl hl' hr
    rw [hget, Option.map_eq_some_iff] at hl hl'
    obtain ⟨x, hx, rfl⟩ := hl
    obtain ⟨x', hx', rfl⟩ := hl'
    have hxT := List.mem_of_getElem? hx
    have hxT' := List.mem_of_getElem? hx'
    refine (triangle_position (hI.pos x' hxT') q).2.2 fun hi => ?_
    obtain ⟨z, z1, z2⟩ := open_of_closed (hI.pos x' hxT') ((triangle_position (hI.pos x hxT) q).1.1 hr) hi
    obtain ⟨k1, e1⟩ := List.getElem?_eq_some_iff.1 hx
    obtain ⟨k2, e2⟩ := List.getElem?_eq_some_iff.1 hx'
    rcases Nat.lt_or_gt_of_ne hne with hlt | hlt
    · have := List.pairwise_iff_getElem.1 hd l l' k1 k2 hlt z
      rw [e1, e2] at this
      exact this z1 z2
    · have := List.pairwise_iff_getElem.1 hd l' l k2 k1 hlt z
      rw [e1, e2] at this
      exact this z2 z1

/-- An L-shaped hexagon, a point in it and a point in its convex hull that is outside. -/
example : Poly.Valid ([(0, 0), (2, 0), (2, 1), (1, 1), (1, 2), (0, 2)] : Poly ℚ) ∧
    Poly.pointPosition ([(0, 0), (2, 0), (2, 1), (1, 1), (1, 2), (0, 2)] : Poly ℚ) (1/2, 3/2) = .interior ∧
    Poly.pointPosition ([(0, 0), (2, 0), (2, 1), (1, 1), (1, 2), (0, 2)] : Poly ℚ) (5/4, 5/4) = .outside :=
  ⟨(Poly.check_iff _ (by decide)).1 (by decide +kernel), by decide +kernel, by decide +kernel⟩

end MSurf
end Flat
