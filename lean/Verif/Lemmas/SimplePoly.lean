import Verif.Lemmas.EarClip
import Verif.Lemmas.Planar

/-!
# Triangulated simple polygons
-/

namespace Flat
namespace Poly
variable {K : Type} [Field K] [LinearOrder K] [IsStrictOrderedRing K]

/-- Directed edges of an open walk. -/
def chn {α : Type} (l : List α) : List (α × α) := l.zip l.tail

theorem cyc_eq_chn {α : Type} (x : α) (l : List α) : cyc (x :: l) = chn (x :: l ++ [x]) := by
  unfold cyc chn
  rw [List.rotate_cons_succ, List.rotate_zero]
  simp only [List.cons_append, List.tail_cons]
  have h1 : x :: (l ++ [x]) = (x :: l) ++ [x] := rfl
  have : ((x :: l) ++ [x]).zip (l ++ [x]) = ((x :: l) ++ [x]).zip ((l ++ [x]) ++ []) := by simp
  rw [h1, this, List.zip_append (by simp)]
  simp

theorem chn_append {α : Type} (A : List α) (w : α) (B : List α) : chn (A ++ w :: B) = chn (A ++ [w]) ++ chn (w :: B) := by
  induction A with
  | nil => simp [chn]
  | cons a A ih =>
    cases A with
    | nil => simp [chn]
    | cons b A =>
      simp only [chn, List.cons_append, List.tail_cons, List.zip_cons_cons] at ih ⊢
      rw [ih]

/-- The boundary of a polygon cut in two. -/
theorem cyc_split {α : Type} (v w : α) (A B : List α) :
    cyc (v :: A ++ w :: B) = chn (v :: A ++ [w]) ++ chn (w :: B ++ [v]) := by
  have e : v :: (A ++ w :: B) ++ [v] = (v :: A) ++ w :: (B ++ [v]) := by simp
  rw [List.cons_append, cyc_eq_chn, e, chn_append]
  rfl

theorem cyc_snoc {α : Type} (v w : α) (A : List α) : cyc (v :: A ++ [w]) = chn (v :: A ++ [w]) ++ [(w, v)] := by
  have := cyc_split v w A []
  rw [this]
  rfl

theorem mem_chn {α : Type} {l : List α} {x : α × α} (h : x ∈ chn l) : x.1 ∈ l ∧ x.2 ∈ l := by
  have := List.of_mem_zip h
  exact ⟨this.1, List.mem_of_mem_tail this.2⟩

/-- Every vertex has a successor and a predecessor. -/
theorem exists_next {u : List ℕ} {z : ℕ} (h : z ∈ u) : ∃ y, (z, y) ∈ cyc u := by
  obtain ⟨i, hi, rfl⟩ := List.getElem_of_mem h
  unfold cyc
  refine ⟨(u.rotate 1)[i]'(by simpa using hi), ?_⟩
  rw [List.mem_iff_getElem]
  exact ⟨i, by simpa using hi, by simp⟩

theorem exists_prev {u : List ℕ} {z : ℕ} (h : z ∈ u) : ∃ y, (y, z) ∈ cyc u := by
  obtain ⟨i, hi, hz⟩ := List.getElem_of_mem (List.mem_rotate.2 h : z ∈ u.rotate 1)
  have hi' : i < u.length := by simpa using hi
  unfold cyc
  refine ⟨u[i], ?_⟩
  rw [List.mem_iff_getElem]
  exact ⟨i, by simpa using hi', by simp [hz]⟩

theorem next_unique {u : List ℕ} (h : u.Nodup) {a b b' : ℕ} (h1 : (a, b) ∈ cyc u) (h2 : (a, b') ∈ cyc u) : b = b' := by
  have hk : (Dict.keys (cyc u : Dict ℕ ℕ)).Nodup := by
    unfold cyc Dict.keys
    rw [List.map_fst_zip (by simp)]
    exact h
  have e1 := Dict.get_of_mem (cyc u : Dict ℕ ℕ) hk _ _ h1
  have e2 := Dict.get_of_mem (cyc u : Dict ℕ ℕ) hk _ _ h2
  rw [e1] at e2
  exact Option.some.inj e2

theorem prev_unique {u : List ℕ} (h : u.Nodup) {a a' b : ℕ} (h1 : (a, b) ∈ cyc u) (h2 : (a', b) ∈ cyc u) : a = a' := by
  have hk : (Dict.keys ((cyc u).map Prod.swap : Dict ℕ ℕ)).Nodup := by
    unfold Dict.keys cyc
    rw [List.map_map]
    have : (Prod.fst ∘ Prod.swap : ℕ × ℕ → ℕ) = Prod.snd := rfl
    rw [this, List.map_snd_zip (by simp)]
    exact List.nodup_rotate.2 h
  have e1 := Dict.get_of_mem _ hk b a (List.mem_map.2 ⟨_, h1, rfl⟩)
  have e2 := Dict.get_of_mem _ hk b a' (List.mem_map.2 ⟨_, h2, rfl⟩)
  rw [e1] at e2
  exact Option.some.inj e2

/-- A simple closed polygon, with vertices `f a` for `a` in `u`: edges only meet in common end points. -/
structure Simple (f : ℕ → Vec K) (u : List ℕ) : Prop where
  nodup : u.Nodup
  len : 3 ≤ u.length
  inj : ∀ a ∈ u, ∀ b ∈ u, f a = f b → a = b
  meet : ∀ x ∈ cyc u, ∀ y ∈ cyc u, x ≠ y → ∀ q, q ∈ segPts (f x.1, f x.2) → q ∈ segPts (f y.1, f y.2) →
    ∃ a, (a = x.1 ∨ a = x.2) ∧ (a = y.1 ∨ a = y.2) ∧ q = f a

theorem Simple.rotated {f : ℕ → Vec K} {u u' : List ℕ} (h : Simple f u) (hr : u ~r u') : Simple f u' where
  nodup := hr.nodup_iff.1 h.nodup
  len := by rw [← hr.perm.length_eq]; exact h.len
  inj := fun a ha b hb => h.inj a (hr.mem_iff.2 ha) b (hr.mem_iff.2 hb)
  meet := fun x hx y hy => h.meet x ((cyc_perm hr).mem_iff.2 hx) y ((cyc_perm hr).mem_iff.2 hy)

/-- A vertex on an edge is an end point of the edge. -/
theorem Simple.vertex_on {f : ℕ → Vec K} {u : List ℕ} (h : Simple f u) {z : ℕ} (hz : z ∈ u) {x : ℕ × ℕ} (hx : x ∈ cyc u)
    (hq : f z ∈ segPts (f x.1, f x.2)) : z = x.1 ∨ z = x.2 := by
  obtain ⟨y, hy⟩ := exists_next hz
  by_cases he : x = (z, y)
  · left; rw [he]
  · obtain ⟨a, h1, h2, h3⟩ := h.meet x hx (z, y) hy he _ hq (left_mem_segPts _ _)
    have : z = a := by
      refine h.inj z hz a ?_ h3
      rcases h1 with rfl | rfl
      · exact (mem_cyc hx).1
      · exact (mem_cyc hx).2
    rw [this]
    exact h1

/-- `a`, `b`, `c` are the corners of a triangle, in this cyclic order. -/
def Rot (T : List Triple) (a b c : ℕ) : Prop := (a, b, c) ∈ T ∨ (b, c, a) ∈ T ∨ (c, a, b) ∈ T

theorem Rot.rot {T : List Triple} {a b c : ℕ} (h : Rot T a b c) : Rot T b c a := by
  rcases h with h | h | h
  · exact Or.inr (Or.inr h)
  · exact Or.inl h
  · exact Or.inr (Or.inl h)

theorem mem_edges {T : List Triple} {a b : ℕ} : (a, b) ∈ T.flatMap tEdges ↔ ∃ c, Rot T a b c := by
  rw [List.mem_flatMap]
  constructor
  · rintro ⟨⟨x, y, z⟩, ht, hx⟩
    simp only [tEdges, List.mem_cons, Prod.mk.injEq, List.not_mem_nil, or_false] at hx
    rcases hx with ⟨rfl, rfl⟩ | ⟨rfl, rfl⟩ | ⟨rfl, rfl⟩
    · exact ⟨z, Or.inl ht⟩
    · exact ⟨x, Or.inr (Or.inr ht)⟩
    · exact ⟨y, Or.inr (Or.inl ht)⟩
  · rintro ⟨c, h | h | h⟩
    · exact ⟨_, h, by simp [tEdges]⟩
    · exact ⟨_, h, by simp [tEdges]⟩
    · exact ⟨_, h, by simp [tEdges]⟩

/-- A triangulation of a polygon by triangles of the same orientation, which contain no other vertices. -/
structure Tri (f : ℕ → Vec K) (s : K) (u : List ℕ) (T : List Triple) : Prop where
  len : T.length + 2 = u.length
  perm : ∃ D : List (ℕ × ℕ), List.Perm (T.flatMap tEdges) (cyc u ++ D ++ D.map Prod.swap)
  pos : ∀ a b c, Rot T a b c → 0 < ori s (f a) (f b) (f c)
  mem : ∀ a b c, Rot T a b c → a ∈ u
  empty : ∀ a b c, Rot T a b c → ∀ z ∈ u, InTri s (f a) (f b) (f c) (f z) → z = a ∨ z = b ∨ z = c

theorem Tri.rotated {f : ℕ → Vec K} {s : K} {u u' : List ℕ} {T : List Triple} (h : Tri f s u T) (hr : u ~r u') : Tri f s u' T where
  len := by rw [← hr.perm.length_eq]; exact h.len
  perm := by
    obtain ⟨D, hD⟩ := h.perm
    exact ⟨D, hD.trans (((cyc_perm hr).append_right D).append_right _)⟩
  pos := h.pos
  mem := fun a b c ht => hr.mem_iff.1 (h.mem a b c ht)
  empty := fun a b c ht z hz => h.empty a b c ht z (hr.mem_iff.2 hz)

theorem Tri.boundary {f : ℕ → Vec K} {s : K} {u : List ℕ} {T : List Triple} (h : Tri f s u T) {a b : ℕ} (hx : (a, b) ∈ cyc u) :
    ∃ c, Rot T a b c := by
  obtain ⟨D, hD⟩ := h.perm
  exact mem_edges.1 (hD.mem_iff.2 (by simp [hx]))

theorem Tri.inner {f : ℕ → Vec K} {s : K} {u : List ℕ} {T : List Triple} (h : Tri f s u T) {a b c : ℕ} (ht : Rot T a b c) :
    (a, b) ∈ cyc u ∨ ∃ d, Rot T b a d := by
  obtain ⟨D, hD⟩ := h.perm
  have := hD.mem_iff.1 (mem_edges.2 ⟨c, ht⟩)
  rw [List.mem_append, List.mem_append] at this
  rcases this with (hh | hh) | hh
  · exact Or.inl hh
  · refine Or.inr (mem_edges.1 (hD.mem_iff.2 ?_))
    rw [List.mem_append]
    exact Or.inr (List.mem_map.2 ⟨_, hh, rfl⟩)
  · obtain ⟨⟨y, x⟩, hy, he⟩ := List.mem_map.1 hh
    simp only [Prod.swap_prod_mk, Prod.mk.injEq] at he
    obtain ⟨rfl, rfl⟩ := he
    refine Or.inr (mem_edges.1 (hD.mem_iff.2 ?_))
    rw [List.mem_append, List.mem_append]
    exact Or.inl (Or.inr hy)

/-- The points in the triangles. -/
def Region (f : ℕ → Vec K) (s : K) (T : List Triple) (q : Vec K) : Prop := ∃ a b c, Rot T a b c ∧ InTri s (f a) (f b) (f c) q

/-- The points on the boundary. -/
def OnBd (f : ℕ → Vec K) (u : List ℕ) (q : Vec K) : Prop := ∃ x ∈ cyc u, q ∈ segPts (f x.1, f x.2)

theorem onBd_vertex {f : ℕ → Vec K} {u : List ℕ} {z : ℕ} (h : z ∈ u) : OnBd f u (f z) := by
  obtain ⟨y, hy⟩ := exists_next h
  exact ⟨_, hy, left_mem_segPts _ _⟩

/-- Close to a point that is not on the boundary, all points are in triangles. -/
theorem Tri.interior {f : ℕ → Vec K} {s : K} {u : List ℕ} {T : List Triple} (h : Tri f s u T) {q : Vec K} (hq : Region f s T q)
    (hb : ¬ OnBd f u q) (d : Vec K) : ∃ e : K, 0 < e ∧ ∀ r, 0 < r → r ≤ e → Region f s T (q + r • d) := by
  -- a point on one side only
  have side : ∀ a b c, Rot T a b c → ori s (f a) (f b) q = 0 → 0 < ori s (f b) (f c) q → 0 < ori s (f c) (f a) q →
      ∃ e : K, 0 < e ∧ ∀ r, 0 < r → r ≤ e → Region f s T (q + r • d) := by
    intro a b c ht h0 h1 h2
    have hD := h.pos a b c ht
    rcases h.inner ht with hx | ⟨c', ht'⟩
    · exact absurd ⟨_, hx, side_of_zero hD ⟨h0.ge, h1.le, h2.le⟩ h0⟩ hb
    · have hD' := h.pos b a c' ht'
      have hsum := ori_add s (f a) (f b) (f c) q
      rw [h0, zero_add] at hsum
      have hbar := bary' s (f a) (f b) (f c) q hD.ne'
      rw [h0, zero_div, zero_smul, add_zero] at hbar
      have t0 : 0 < ori s (f c) (f a) q / ori s (f a) (f b) (f c) := div_pos h2 hD
      have t1 : ori s (f c) (f a) q / ori s (f a) (f b) (f c) < 1 := by
        rw [div_lt_one hD]; linarith
      generalize ori s (f c) (f a) q / ori s (f a) (f b) (f c) = τ at *
      have k1 : 0 < ori s (f a) (f c') q := by
        rw [hbar, ori_lin, ori_left, sub_zero, zero_add]
        refine mul_pos t0 ?_
        rwa [← ori_rot] at hD'
      have k2 : 0 < ori s (f c') (f b) q := by
        rw [hbar, ori_lin, ori_right, zero_sub]
        have : ori s (f c') (f b) (f a) = ori s (f b) (f a) (f c') := ori_rot s _ _ _ ▸ rfl
        have h3 : 0 < ori s (f c') (f b) (f a) := by rw [this]; exact hD'
        nlinarith
      rcases le_total 0 (s * ccw (f b - f a) d) with hd | hd
      · obtain ⟨e1, p1, q1⟩ := exists_eps h1 (s * ccw (f c - f b) d)
        obtain ⟨e2, p2, q2⟩ := exists_eps h2 (s * ccw (f a - f c) d)
        refine ⟨min e1 e2, lt_min p1 p2, fun r r0 r1 => ⟨a, b, c, ht, ?_, ?_, ?_⟩⟩ <;> rw [ori_dir]
        · rw [h0, zero_add]; exact mul_nonneg r0.le hd
        · exact (q1 r r0.le (r1.trans (min_le_left _ _))).le
        · exact (q2 r r0.le (r1.trans (min_le_right _ _))).le
      · obtain ⟨e1, p1, q1⟩ := exists_eps k1 (s * ccw (f c' - f a) d)
        obtain ⟨e2, p2, q2⟩ := exists_eps k2 (s * ccw (f b - f c') d)
        refine ⟨min e1 e2, lt_min p1 p2, fun r r0 r1 => ⟨b, a, c', ht', ?_, ?_, ?_⟩⟩ <;> rw [ori_dir]
        · rw [ori_flip, h0, neg_zero, zero_add]
          have : ccw (f a - f b) d = -ccw (f b - f a) d := by simp [ccw]; ring
          rw [this]
          exact mul_nonneg r0.le (by linarith)
        · exact (q1 r r0.le (r1.trans (min_le_left _ _))).le
        · exact (q2 r r0.le (r1.trans (min_le_right _ _))).le
  have corner : ∀ a b c, Rot T a b c → ori s (f a) (f b) q = 0 → ori s (f c) (f a) q = 0 → False := by
    intro a b c ht h0 h1
    have := corner_of_zero (h.pos a b c ht) h0 h1
    rw [this] at hb
    exact hb (onBd_vertex (h.mem a b c ht))
  obtain ⟨a, b, c, ht, h1, h2, h3⟩ := hq
  rcases h1.eq_or_lt with z1 | p1
  · rcases h2.eq_or_lt with z2 | p2
    · exact absurd (corner b c a ht.rot z2.symm z1.symm) id
    · rcases h3.eq_or_lt with z3 | p3
      · exact absurd (corner a b c ht z1.symm z3.symm) id
      · exact side a b c ht z1.symm p2 p3
  · rcases h2.eq_or_lt with z2 | p2
    · rcases h3.eq_or_lt with z3 | p3
      · exact absurd (corner c a b ht.rot.rot z3.symm z2.symm) id
      · exact side b c a ht.rot z2.symm p3 p1
    · rcases h3.eq_or_lt with z3 | p3
      · exact side c a b ht.rot.rot z3.symm p1 p2
      · obtain ⟨e1, p1, q1⟩ := exists_eps p1 (s * ccw (f b - f a) d)
        obtain ⟨e2, p2, q2⟩ := exists_eps p2 (s * ccw (f c - f b) d)
        obtain ⟨e3, p3, q3⟩ := exists_eps p3 (s * ccw (f a - f c) d)
        refine ⟨min e1 (min e2 e3), lt_min p1 (lt_min p2 p3), fun r r0 r1 => ⟨a, b, c, ht, ?_, ?_, ?_⟩⟩ <;> rw [ori_dir]
        · exact (q1 r r0.le (r1.trans (min_le_left _ _))).le
        · exact (q2 r r0.le (r1.trans ((min_le_right _ _).trans (min_le_left _ _)))).le
        · exact (q3 r r0.le (r1.trans ((min_le_right _ _).trans (min_le_right _ _)))).le

/-- Finitely many sets of times have a last time. -/
theorem list_last {α : Type} (L : List α) (Q : α → K → Prop)
    (h : ∀ x ∈ L, (∀ t, 0 ≤ t → t ≤ 1 → ¬ Q x t) ∨ ∃ m, 0 ≤ m ∧ m ≤ 1 ∧ Q x m ∧ ∀ t, m < t → t ≤ 1 → ¬ Q x t) :
    (∀ t, 0 ≤ t → t ≤ 1 → ¬ ∃ x ∈ L, Q x t) ∨ ∃ m, 0 ≤ m ∧ m ≤ 1 ∧ (∃ x ∈ L, Q x m) ∧ ∀ t, m < t → t ≤ 1 → ¬ ∃ x ∈ L, Q x t := by
  induction L with
  | nil => left; rintro t - - ⟨x, hx, -⟩; cases hx
  | cons x L ih =>
    have hex : ∀ t, (∃ y ∈ x :: L, Q y t) ↔ Q x t ∨ ∃ y ∈ L, Q y t := fun t => by simp
    simp only [hex]
    rcases h x (by simp) with h1 | ⟨m, m0, m1, m2, m3⟩ <;> rcases ih (fun y hy => h y (List.mem_cons_of_mem _ hy)) with h2 | ⟨n, n0, n1, n2, n3⟩
    · left
      rintro t t0 t1 (hh | hh)
      · exact h1 t t0 t1 hh
      · exact h2 t t0 t1 hh
    · right
      refine ⟨n, n0, n1, Or.inr n2, ?_⟩
      rintro t t0 t1 (hh | hh)
      · exact h1 t (n0.trans t0.le) t1 hh
      · exact n3 t t0 t1 hh
    · right
      refine ⟨m, m0, m1, Or.inl m2, ?_⟩
      rintro t t0 t1 (hh | hh)
      · exact m3 t t0 t1 hh
      · exact h2 t (m0.trans t0.le) t1 hh
    · right
      rcases le_total m n with hmn | hmn
      · refine ⟨n, n0, n1, Or.inr n2, ?_⟩
        rintro t t0 t1 (hh | hh)
        · exact m3 t (hmn.trans_lt t0) t1 hh
        · exact n3 t t0 t1 hh
      · refine ⟨m, m0, m1, Or.inl m2, ?_⟩
        rintro t t0 t1 (hh | hh)
        · exact m3 t t0 t1 hh
        · exact n3 t (hmn.trans_lt t0) t1 hh

theorem region_iff {f : ℕ → Vec K} {s : K} {T : List Triple} {q : Vec K} :
    Region f s T q ↔ ∃ t ∈ T, InTri s (f t.1) (f t.2.1) (f t.2.2) q := by
  constructor
  · rintro ⟨a, b, c, ht | ht | ht, h⟩
    · exact ⟨_, ht, h⟩
    · exact ⟨_, ht, h.rot⟩
    · exact ⟨_, ht, h.rot.rot⟩
  · rintro ⟨⟨a, b, c⟩, ht, h⟩
    exact ⟨a, b, c, Or.inl ht, h⟩

/-- The last time a segment is in the triangles. -/
theorem region_last (f : ℕ → Vec K) (s : K) (T : List Triple) (p q : Vec K) (h : Region f s T p) :
    ∃ m : K, 0 ≤ m ∧ m ≤ 1 ∧ Region f s T (p + m • (q - p)) ∧ ∀ t, m < t → t ≤ 1 → ¬ Region f s T (p + t • (q - p)) := by
  simp only [region_iff] at h ⊢
  have hall := list_last T (fun t (x : K) => InTri s (f t.1) (f t.2.1) (f t.2.2) (p + x • (q - p))) ?_
  · rcases hall with h1 | h1
    · exact absurd (by simpa using h) (h1 0 le_rfl zero_le_one)
    · exact h1
  · rintro ⟨a, b, c⟩ -
    dsimp only
    have key : ∀ t : K, InTri s (f a) (f b) (f c) (p + t • (q - p)) ↔
        ∀ c' ∈ [(ori s (f a) (f b) p, s * ccw (f b - f a) (q - p)), (ori s (f b) (f c) p, s * ccw (f c - f b) (q - p)),
          (ori s (f c) (f a) p, s * ccw (f a - f c) (q - p))], 0 ≤ c'.1 + t * c'.2 := by
      intro t
      unfold InTri
      rw [ori_dir, ori_dir, ori_dir]
      simp
    by_cases hex : ∃ t0 : K, 0 ≤ t0 ∧ t0 ≤ 1 ∧ InTri s (f a) (f b) (f c) (p + t0 • (q - p))
    · obtain ⟨t0, h0, h1, hi⟩ := hex
      obtain ⟨m, m1, m2, m3, m4⟩ := last_time _ t0 h0 h1 ((key t0).1 hi)
      exact Or.inr ⟨m, h0.trans m1, m2, (key m).2 m3, fun t ht ht' hh => m4 t ht ht' ((key t).1 hh)⟩
    · left
      intro t t0 t1 hh
      exact hex ⟨t, t0, t1, hh⟩

/-- A segment that does not meet the boundary stays in the triangles. -/
theorem Tri.stay {f : ℕ → Vec K} {s : K} {u : List ℕ} {T : List Triple} (h : Tri f s u T) {p q : Vec K} (hp : Region f s T p)
    (hb : ∀ r ∈ segPts (p, q), ¬ OnBd f u r) : Region f s T q := by
  obtain ⟨m, m0, m1, m2, m3⟩ := region_last f s T p q hp
  rcases m1.eq_or_lt with rfl | hlt
  · simpa using m2
  · exfalso
    obtain ⟨e, he, hr⟩ := h.interior m2 (hb _ ⟨m, m0, m1, rfl⟩) (q - p)
    have hd : 0 < min e (1 - m) := lt_min he (by linarith)
    refine m3 (m + min e (1 - m)) (by linarith) (by linarith [min_le_right e (1 - m)]) ?_
    have := hr _ hd (min_le_left _ _)
    rwa [add_assoc, ← add_smul] at this

/-- The triangles at an extreme vertex are between the two edges. -/
theorem Tri.fan {f : ℕ → Vec K} {s : K} {u : List ℕ} {T : List Triple} (h : Tri f s u T) (hu : u.Nodup) {H : Vec K → Prop} (hH : Cone H)
    {v : ℕ} (hv : ∀ z ∈ u, z ≠ v → H (f z - f v)) {prv nxt : ℕ} (h1 : (prv, v) ∈ cyc u) (h2 : (v, nxt) ∈ cyc u) :
    (∀ x y, Rot T v x y → 0 ≤ ori s (f v) (f nxt) (f x) ∧ 0 ≤ ori s (f v) (f y) (f prv)) ∧ 0 < ori s (f v) (f nxt) (f prv) := by
  have ne : ∀ x y, Rot T v x y → x ≠ v ∧ y ≠ v := by
    intro x y ht
    have := h.pos v x y ht
    constructor
    · rintro rfl
      simp [ori, ccw] at this
    · rintro rfl
      rw [ori_left] at this; exact lt_irrefl _ this
  have cone : ∀ x y, Rot T v x y → H (f x - f v) ∧ H (f y - f v) := fun x y ht =>
    ⟨hv x (h.mem x y v ht.rot) (ne x y ht).1, hv y (h.mem y v x ht.rot.rot) (ne x y ht).2⟩
  obtain ⟨y0, hy0⟩ := h.boundary h2
  obtain ⟨x0, hx0⟩ := h.boundary h1
  have hx0 := hx0.rot
  -- a list of all corners next to `v`
  have first : ∀ (s' : K) (Q : ℕ → Prop) (z0 : ℕ), Q z0 → (∀ z, Q z → z ∈ u ∧ H (f z - f v)) →
      ∃ z, Q z ∧ ∀ z', Q z' → 0 ≤ ori s' (f v) (f z) (f z') := by
    intro s' Q z0 hz0 hQ
    classical
    have hfirst := hH.first (s := s') ((u.filter (fun z => decide (Q z))).map (fun z => f z - f v)) ?_ ?_
    · obtain ⟨x, hx, hmin⟩ := hfirst
      obtain ⟨z, hz, rfl⟩ := List.mem_map.1 hx
      have hz2 := (List.mem_filter.1 hz).2
      rw [decide_eq_true_iff] at hz2
      refine ⟨z, hz2, fun z' hz' => hmin _ (List.mem_map.2 ⟨z', List.mem_filter.2 ⟨(hQ z' hz').1, by simpa using hz'⟩, rfl⟩)⟩
    · intro he
      rw [List.map_eq_nil_iff] at he
      have : z0 ∈ u.filter (fun z => decide (Q z)) := List.mem_filter.2 ⟨(hQ z0 hz0).1, by simpa using hz0⟩
      rw [he] at this
      cases this
    · intro x hx
      obtain ⟨z, hz, rfl⟩ := List.mem_map.1 hx
      have hz2 := (List.mem_filter.1 hz).2
      rw [decide_eq_true_iff] at hz2
      exact (hQ z hz2).2
  have c1 : ∀ x y, Rot T v x y → 0 ≤ ori s (f v) (f nxt) (f x) := by
    obtain ⟨z, ⟨y, hz⟩, hmin⟩ := first s (fun x => ∃ y, Rot T v x y) nxt ⟨y0, hy0⟩
      (fun x ⟨y, hxy⟩ => ⟨h.mem x y v hxy.rot, (cone x y hxy).1⟩)
    have hzn : z = nxt := by
      rcases h.inner hz with hc | ⟨d, hd⟩
      · exact next_unique hu hc h2
      · exfalso
        have hd' := hd.rot
        have p1 := h.pos _ _ _ hd'
        have p2 := hmin d ⟨z, hd'⟩
        rw [ori_swap] at p2
        linarith
    subst hzn
    exact fun x y hxy => hmin x ⟨y, hxy⟩
  have c2 : ∀ x y, Rot T v x y → 0 ≤ ori s (f v) (f y) (f prv) := by
    obtain ⟨z, ⟨x, hz⟩, hmin⟩ := first (-s) (fun y => ∃ x, Rot T v x y) prv ⟨x0, hx0⟩
      (fun y ⟨x, hxy⟩ => ⟨h.mem y v x hxy.rot.rot, (cone x y hxy).2⟩)
    have hzn : z = prv := by
      rcases h.inner hz.rot.rot with hc | ⟨d, hd⟩
      · exact prev_unique hu hc h1
      · exfalso
        have p1 := h.pos _ _ _ hd
        have p2 := hmin d ⟨z, hd⟩
        rw [ori_neg] at p2
        linarith
    subst hzn
    intro x y hxy
    have := hmin y ⟨x, hxy⟩
    rw [ori_neg, ← ori_swap] at this
    exact this
  refine ⟨fun x y hxy => ⟨c1 x y hxy, c2 x y hxy⟩, ?_⟩
  have hp : prv ∈ u ∧ prv ≠ v := by
    refine ⟨(mem_cyc h1).1, ?_⟩
    rintro rfl
    exact (ne _ _ hx0).2 rfl
  exact hH.trans_lt (cone _ _ hy0).1 (cone _ _ hy0).2 (hv prv hp.1 hp.2) (h.pos _ _ _ hy0) (c2 _ _ hy0)

end Poly
end Flat
