import Verif.Lemmas.Arcs
import Verif.Props.PointInPolygon

/-!
# The sum of the angles of a polygon

The polygon is triangulated.  At each vertex the angles of the triangles add up to the angle of the polygon up to full turns, since the
sides of the triangles inside the polygon cancel, and to at most a full turn, since the triangles do not overlap.
-/

namespace Flat
namespace Poly
open Real
variable {K : Type} [Field K] [LinearOrder K] [IsStrictOrderedRing K] {ι : K →+* ℝ}

/-- The corners of a triangle. -/
def tCorners (t : Triple) : List Triple := [(t.1, t.2.1, t.2.2), (t.2.1, t.2.2, t.1), (t.2.2, t.1, t.2.1)]

/-- The angle of a corner. -/
noncomputable def cAngle (ι : K →+* ℝ) (f : ℕ → Vec K) (c : Triple) : ℝ := 2 * π * angleOf ι (f c.2.1 - f c.1) (f c.2.2 - f c.1)

theorem mem_corners {T : List Triple} {a b c : ℕ} : (a, b, c) ∈ T.flatMap tCorners ↔ Rot T a b c := by
  rw [List.mem_flatMap]
  constructor
  · rintro ⟨⟨x, y, z⟩, ht, hx⟩
    simp only [tCorners, List.mem_cons, Prod.mk.injEq, List.not_mem_nil, or_false] at hx
    rcases hx with ⟨rfl, rfl, rfl⟩ | ⟨rfl, rfl, rfl⟩ | ⟨rfl, rfl, rfl⟩
    · exact .inl ht
    · exact .inr (.inr ht)
    · exact .inr (.inl ht)
  · rintro (h | h | h)
    · exact ⟨_, h, by simp [tCorners]⟩
    · exact ⟨_, h, by simp [tCorners]⟩
    · exact ⟨_, h, by simp [tCorners]⟩

theorem ori_one (a b c : Vec K) : ori 1 a b c = ccw (b - a) (c - a) := by unfold ori; rw [one_mul]

/-- The angles of a triangle. -/
theorem triangle_sum (hι : StrictMono ι) {f : ℕ → Vec K} {t : Triple} (h : 0 < ori 1 (f t.1) (f t.2.1) (f t.2.2)) :
    ((tCorners t).map (cAngle ι f)).sum = π := by
  obtain ⟨a, b, c⟩ := t
  have hpi := Real.pi_pos
  simp only [tCorners, List.map_cons, List.map_nil, List.sum_cons, List.sum_nil, cAngle]
  have h1 := h
  have h2 : 0 < ori 1 (f b) (f c) (f a) := by rw [ori_rot]; exact h
  have h3 : 0 < ori 1 (f c) (f a) (f b) := by rw [ori_rot]; exact h2
  simp only at h1
  rw [ori_one] at h1 h2 h3
  have p1 := angleOf_pos hι h1
  have p2 := angleOf_pos hι h2
  have p3 := angleOf_pos hι h3
  have nz : ∀ {u v : Vec K}, 0 < ccw u v → u ≠ 0 ∧ v ≠ 0 := by
    intro u v h
    constructor <;> rintro rfl <;> simp [ccw] at h
  have n1 := nz h1
  have n2 := nz h2
  have n3 := nz h3
  refine eq_of_angle ?_ (by nlinarith) (by nlinarith)
  rw [Real.Angle.coe_add, Real.Angle.coe_add, Real.Angle.coe_add, Real.Angle.coe_zero, angleOf_vdir ι n1.1 n1.2, angleOf_vdir ι n2.1 n2.2,
    angleOf_vdir ι n3.1 n3.2]
  have e1 : vdir ι (f b - f a) = vdir ι (f a - f b) + (π : ℝ) := by rw [← vdir_neg ι n2.2, neg_sub]
  have e2 : vdir ι (f c - f b) = vdir ι (f b - f c) + (π : ℝ) := by rw [← vdir_neg ι n3.2, neg_sub]
  have e3 : vdir ι (f a - f c) = vdir ι (f c - f a) + (π : ℝ) := by rw [← vdir_neg ι n1.2, neg_sub]
  rw [e1, e2, e3]
  have hneg : -((π : ℝ) : Real.Angle) = (π : ℝ) := Real.Angle.neg_coe_pi
  have h2pi : ((π : ℝ) : Real.Angle) + (π : ℝ) = 0 := by rw [← Real.Angle.coe_add, ← two_mul, Real.Angle.coe_two_pi]
  calc _ = -((π : ℝ) : Real.Angle) - ((π : ℝ) + (π : ℝ)) := by abel
    _ = _ := by rw [h2pi, hneg, sub_zero]

/-- The sum of the angles of the triangles at a vertex. -/
noncomputable def vSum (ι : K →+* ℝ) (f : ℕ → Vec K) (T : List Triple) (v : ℕ) : ℝ :=
  (((T.flatMap tCorners).filter (fun c => c.1 = v)).map (cAngle ι f)).sum

theorem sum_filter {α : Type} (g : α → ℝ) (P : α → Prop) [DecidablePred P] (l : List α) :
    ((l.filter (fun x => P x)).map g).sum = (l.map (fun x => if P x then g x else 0)).sum := by
  induction l with
  | nil => simp
  | cons x l ih =>
    rw [List.filter_cons]
    by_cases h : P x
    · simp [h, ih]
    · simp [h, ih]

theorem sum_ite_mem {M : Type} [AddCommMonoid M] {u : List ℕ} (hu : u.Nodup) {a : ℕ} (ha : a ∈ u) (g : ℕ → M) :
    (u.map (fun v => if a = v then g v else 0)).sum = g a := by
  induction u with
  | nil => cases ha
  | cons x u ih =>
    rw [List.nodup_cons] at hu
    rw [List.map_cons, List.sum_cons]
    by_cases h : a = x
    · subst h
      have : (u.map (fun v => if a = v then g v else 0)).sum = 0 := by
        refine List.sum_eq_zero ?_
        intro y hy
        obtain ⟨v, hv, rfl⟩ := List.mem_map.1 hy
        rw [if_neg]
        rintro rfl
        exact hu.1 hv
      rw [if_pos rfl, this, add_zero]
    · rw [if_neg h, zero_add, ih hu.2 ((List.mem_cons.1 ha).resolve_left h)]

theorem sum_sub_map {M α : Type} [AddCommGroup M] (l : List α) (g h : α → M) :
    (l.map (fun x => g x - h x)).sum = (l.map g).sum - (l.map h).sum := by
  induction l with
  | nil => simp
  | cons x l ih => simp only [List.map_cons, List.sum_cons, ih]; abel

/-- All angles, ordered by vertices. -/
theorem sum_vertices {u : List ℕ} (hu : u.Nodup) (g : Triple → ℝ) (C : List Triple) (hC : ∀ c ∈ C, c.1 ∈ u) :
    (u.map (fun v => ((C.filter (fun c => c.1 = v)).map g).sum)).sum = (C.map g).sum := by
  simp only [sum_filter]
  induction C with
  | nil => simp
  | cons c C ih =>
    simp only [List.map_cons, List.sum_cons]
    rw [List.sum_map_add, sum_ite_mem hu (hC c List.mem_cons_self) (fun _ => g c), ih (fun c' h => hC c' (List.mem_cons_of_mem _ h))]

theorem corners_sum (hι : StrictMono ι) {f : ℕ → Vec K} {u : List ℕ} {T : List Triple} (h : Tri f 1 u T) :
    ((T.flatMap tCorners).map (cAngle ι f)).sum = T.length * π := by
  have key : ∀ T' : List Triple, (∀ t ∈ T', t ∈ T) → ((T'.flatMap tCorners).map (cAngle ι f)).sum = T'.length * π := by
    intro T'
    induction T' with
    | nil => intro _; simp
    | cons t T' ih =>
      intro hT
      rw [List.flatMap_cons, List.map_append, List.sum_append, ih (fun t' h' => hT t' (List.mem_cons_of_mem _ h')),
        triangle_sum hι (h.pos _ _ _ (.inl (hT t List.mem_cons_self)))]
      push_cast [List.length_cons]
      ring
  exact key T (fun _ h => h)

/-- Triangles that do not overlap, at a common corner. -/
theorem sector_disj {f : ℕ → Vec K} {a x y x' y' : ℕ} (h : 0 < ori 1 (f a) (f x) (f y)) (h' : 0 < ori 1 (f a) (f x') (f y'))
    (hd : ∀ q, InOpen 1 (f a) (f x) (f y) q → ¬ InOpen 1 (f a) (f x') (f y') q) :
    ¬ ∃ w : Vec K, 0 < ccw (f x - f a) w ∧ 0 < ccw w (f y - f a) ∧ 0 < ccw (f x' - f a) w ∧ 0 < ccw w (f y' - f a) := by
  rintro ⟨w, h1, h2, h3, h4⟩
  have hin : ∀ x y, 0 < ori 1 (f a) (f x) (f y) → 0 < ccw (f x - f a) w → 0 < ccw w (f y - f a) →
      ∃ e : K, 0 < e ∧ ∀ r, 0 < r → r ≤ e → InOpen 1 (f a) (f x) (f y) (f a + r • w) := by
    intro x y h h1 h2
    have h0 : 0 < ori 1 (f x) (f y) (f a) := by rw [ori_rot]; exact h
    obtain ⟨e, he, hr⟩ := exists_eps h0 (1 * ccw (f y - f x) w)
    refine ⟨e, he, fun r r0 r1 => ⟨?_, ?_, ?_⟩⟩
    · rw [ori_dir, show ori 1 (f a) (f x) (f a) = 0 by simp [ori, ccw], zero_add, one_mul]
      exact mul_pos r0 h1
    · rw [ori_dir]; exact hr r r0.le r1
    · rw [ori_dir, show ori 1 (f y) (f a) (f a) = 0 by simp [ori, ccw]; ring, zero_add, one_mul,
        show ccw (f a - f y) w = ccw w (f y - f a) by simp [ccw]; ring]
      exact mul_pos r0 h2
  obtain ⟨e, he, k⟩ := hin x y h h1 h2
  obtain ⟨e', he', k'⟩ := hin x' y' h' h3 h4
  have hm : 0 < min e e' := lt_min he he'
  exact hd _ (k _ hm (min_le_left _ _)) (k' _ hm (min_le_right _ _))

theorem vSum_le (hι : StrictMono ι) {f : ℕ → Vec K} {u : List ℕ} {T : List Triple} (h : Tri f 1 u T) (hd : Disj f 1 T) (v : ℕ) :
    vSum ι f T v ≤ 2 * π := by
  have hR : ∀ t ∈ T, ∀ c ∈ tCorners t, Rot T c.1 c.2.1 c.2.2 := fun t ht c hc =>
    mem_corners.1 (List.mem_flatMap.2 ⟨t, ht, hc⟩)
  have := sectors_le hι (((T.flatMap tCorners).filter (fun c => c.1 = v)).map (fun c => (f c.2.1 - f c.1, f c.2.2 - f c.1))) ?_ ?_
  · rw [List.map_map] at this
    exact this
  · intro c hc
    obtain ⟨c', hc', rfl⟩ := List.mem_map.1 hc
    have hc1 := (List.mem_filter.1 hc').1
    have := h.pos _ _ _ (mem_corners.1 hc1)
    rwa [ori_one] at this
  · rw [List.pairwise_map, List.pairwise_filter]
    rw [List.pairwise_flatMap]
    constructor
    · intro t ht
      obtain ⟨a, b, c⟩ := t
      have hp := h.pos a b c (.inl ht)
      have ab : a ≠ b := by rintro rfl; simp [ori, ccw] at hp
      have ac : a ≠ c := by rintro rfl; simp [ori, ccw] at hp
      have bc : b ≠ c := by rintro rfl; simp [ori, ccw] at hp; rw [mul_comm] at hp; exact lt_irrefl _ hp
      simp only [tCorners, List.pairwise_cons, List.mem_cons, List.not_mem_nil, or_false, List.Pairwise.nil, and_true, forall_eq_or_imp,
        forall_eq, decide_eq_true_eq, IsEmpty.forall_iff, implies_true]
      refine ⟨⟨fun e1 e2 => absurd (e1.trans e2.symm) ab, fun e1 e2 => absurd (e1.trans e2.symm) ac⟩, fun e1 e2 => absurd (e1.trans e2.symm) bc⟩
    · refine hd.imp_of_mem (fun {t t'} ht ht' hdis c hc c' hc' e1 e2 => ?_)
      have p1 := h.pos _ _ _ (hR t ht c hc)
      have p2 := h.pos _ _ _ (hR t' ht' c' hc')
      rw [decide_eq_true_eq] at e1 e2
      have e3 : c'.1 = c.1 := e2.trans e1.symm
      rw [e3] at p2 ⊢
      refine sector_disj p1 p2 (fun q k1 k2 => ?_)
      have open1 : ∀ t : Triple, ∀ c ∈ tCorners t, InOpen 1 (f c.1) (f c.2.1) (f c.2.2) q → InOpen 1 (f t.1) (f t.2.1) (f t.2.2) q := by
        rintro ⟨x, y, z⟩ c hc hq
        simp only [tCorners, List.mem_cons, List.not_mem_nil, or_false] at hc
        rcases hc with rfl | rfl | rfl
        · exact hq
        · exact hq.rot.rot
        · exact hq.rot
      refine hdis q (open1 t c hc k1) (open1 t' c' hc' ?_)
      rw [e3]; exact k2

theorem cAngle_pos (hι : StrictMono ι) {f : ℕ → Vec K} {u : List ℕ} {T : List Triple} (h : Tri f 1 u T) {c : Triple} (hc : c ∈ T.flatMap tCorners) :
    0 < cAngle ι f c := by
  have := h.pos _ _ _ (mem_corners.1 hc)
  rw [ori_one] at this
  have h1 := (angleOf_pos hι this).1
  have := Real.pi_pos
  unfold cAngle
  positivity

theorem vSum_pos (hι : StrictMono ι) {f : ℕ → Vec K} {u : List ℕ} {T : List Triple} (h : Tri f 1 u T) {v : ℕ} (hv : v ∈ u) : 0 < vSum ι f T v := by
  obtain ⟨y, hy⟩ := exists_next hv
  obtain ⟨c, hc⟩ := h.boundary hy
  refine List.sum_pos _ ?_ ?_
  · intro x hx
    obtain ⟨c', hc', rfl⟩ := List.mem_map.1 hx
    exact cAngle_pos hι h (List.mem_filter.1 hc').1
  · intro he
    rw [List.map_eq_nil_iff] at he
    have : (v, y, c) ∈ (T.flatMap tCorners).filter (fun c => c.1 = v) := List.mem_filter.2 ⟨mem_corners.2 hc, by simp⟩
    rw [he] at this
    cases this

/-- The part of a directed edge in the sum of the angles at a vertex. -/
noncomputable def edgePart (ι : K →+* ℝ) (f : ℕ → Vec K) (v a b : ℕ) : Real.Angle :=
  (if b = v then vdir ι (f a - f v) else 0) - (if a = v then vdir ι (f b - f v) else 0)

theorem edgePart_swap (ι : K →+* ℝ) (f : ℕ → Vec K) (v a b : ℕ) : edgePart ι f v a b = -edgePart ι f v b a := by
  unfold edgePart; abel

theorem vSum_edges {f : ℕ → Vec K} {u : List ℕ} {T : List Triple} (h : Tri f 1 u T) (v : ℕ) :
    ((vSum ι f T v : ℝ) : Real.Angle) = ((T.flatMap tEdges).map (fun x => edgePart ι f v x.1 x.2)).sum := by
  unfold vSum
  rw [sum_filter]
  have key : ∀ T' : List Triple, (∀ t ∈ T', t ∈ T) →
      ((((T'.flatMap tCorners).map (fun c => if c.1 = v then cAngle ι f c else 0)).sum : ℝ) : Real.Angle) =
        ((T'.flatMap tEdges).map (fun x => edgePart ι f v x.1 x.2)).sum := by
    intro T'
    induction T' with
    | nil => intro _; simp
    | cons t T' ih =>
      intro hT
      rw [List.flatMap_cons, List.flatMap_cons, List.map_append, List.map_append, List.sum_append, List.sum_append, Real.Angle.coe_add,
        ih (fun t' h' => hT t' (List.mem_cons_of_mem _ h'))]
      congr 1
      obtain ⟨a, b, c⟩ := t
      have ht : Rot T a b c := .inl (hT _ List.mem_cons_self)
      have nz : ∀ x y z, Rot T x y z → (((if x = v then cAngle ι f (x, y, z) else 0 : ℝ)) : Real.Angle) =
          (if x = v then vdir ι (f z - f v) - vdir ι (f y - f v) else 0) := by
        intro x y z hr
        by_cases hx : x = v
        · subst hx
          have hp := h.pos _ _ _ hr
          rw [ori_one] at hp
          have h1 : f y - f x ≠ 0 := by intro h0; rw [h0] at hp; simp [ccw] at hp
          have h2 : f z - f x ≠ 0 := by intro h0; rw [h0] at hp; simp [ccw] at hp
          rw [if_pos rfl, if_pos rfl]
          exact angleOf_vdir ι h1 h2
        · rw [if_neg hx, if_neg hx, Real.Angle.coe_zero]
      simp only [tCorners, tEdges, List.map_cons, List.map_nil, List.sum_cons, List.sum_nil, Real.Angle.coe_add, Real.Angle.coe_zero]
      rw [nz a b c ht, nz b c a ht.rot, nz c a b ht.rot.rot]
      unfold edgePart
      by_cases ha : a = v <;> by_cases hb : b = v <;> by_cases hc : c = v <;> simp only [ha, hb, hc, if_true, if_false] <;> abel
  exact key T (fun _ h => h)

theorem Valid.not_parallel {p : Poly K} (h : p.Valid) {v : ℕ} (_hv : v < p.length) :
    isParallel (p.edge v) (-p.edge ((v + (p.length - 1)) % p.length)) = false := by
  have h3 := h.len3
  have := h.turn ((v + (p.length - 1)) % p.length)
  have e : p.edge ((v + (p.length - 1)) % p.length + 1) = p.edge v := by
    rw [← edge_mod, Nat.mod_add_mod, show v + (p.length - 1) + 1 = v + p.length by omega, Nat.add_mod_right, edge_mod]
  rw [e] at this
  set w := p.edge ((v + (p.length - 1)) % p.length)
  set x := p.edge v
  unfold isAntiParallel isParallel at this
  unfold isParallel
  have e1 : ccw x (-w) = ccw w x := by simp [ccw]; ring
  have e2 : ccw w (-x) = -ccw w x := by simp [ccw]; ring
  rw [e2] at this
  rw [e1]
  by_cases hc : ccw w x = 0
  · rw [if_neg (not_not.2 (by rw [hc, neg_zero]))] at this
    rw [if_neg (not_not.2 hc)]
    simp only [Prod.fst_neg, Prod.snd_neg, decide_eq_false_iff_not] at this ⊢
    intro hh; apply this; linarith
  · rw [if_pos hc]

/-- At each vertex the angles of the triangles add up to the angle of the polygon. -/
theorem Valid.vSum_eq (hι : StrictMono ι) {p : Poly K} (h : p.Valid) {T : List Triple} (hT : Tri p.vertex 1 (List.range p.length) T)
    (hd : Disj p.vertex 1 T) {v : ℕ} (hv : v < p.length) : vSum ι p.vertex T v = 2 * π * p.angle ι v := by
  have h3 := h.len3
  have hpi := Real.pi_pos
  have hle := vSum_le hι hT hd v
  have hpos := vSum_pos hι hT (List.mem_range.2 hv)
  have a0 : 0 < p.angle ι v := angleOf_ne_zero hι (h.edge_ne _) (neg_ne_zero.2 (h.edge_ne _)) (h.not_parallel hv)
  have a1 : p.angle ι v < 1 := angleOf_lt_one ι _ _
  refine eq_of_angle ?_ (by nlinarith) (by nlinarith)
  rw [vSum_edges hT, perm_sum hT.perm (edgePart ι p.vertex v) (edgePart_swap ι p.vertex v)]
  unfold Poly.angle
  rw [angleOf_vdir ι (h.edge_ne _) (neg_ne_zero.2 (h.edge_ne _))]
  set w := (v + (p.length - 1)) % p.length with hw
  have hwl : w < p.length := Nat.mod_lt _ (by omega)
  have hw1 : (w + 1) % p.length = v := by
    rw [hw, Nat.mod_add_mod, show v + (p.length - 1) + 1 = v + p.length by omega, Nat.add_mod_right, Nat.mod_eq_of_lt hv]
  have hwu : ∀ i, i < p.length → (i + 1) % p.length = v → i = w := by
    intro i hi he
    have h1 : i = ((i + 1) % p.length + (p.length - 1)) % p.length := by
      rw [Nat.mod_add_mod, show i + 1 + (p.length - 1) = i + p.length by omega, Nat.add_mod_right, Nat.mod_eq_of_lt hi]
    rw [he] at h1
    exact h1
  have ew : -p.edge w = p.vertex w - p.vertex v := by
    unfold Poly.edge
    rw [neg_sub, ← vertex_mod p (w + 1), hw1]
  have ev : p.edge v = p.vertex ((v + 1) % p.length) - p.vertex v := by
    unfold Poly.edge
    rw [vertex_mod]
  rw [ew, ev]
  have hs : ∀ (q : ℕ → Prop) [DecidablePred q] (g : ℕ → Real.Angle) (j : ℕ), j < p.length → (∀ i, i < p.length → (q i ↔ i = j)) →
      ((List.range p.length).map (fun i => if q i then g i else 0)).sum = g j := by
    intro q _ g j hj hq
    rw [← sum_ite_mem List.nodup_range (List.mem_range.2 hj) g]
    congr 1
    refine List.map_congr_left (fun i hi => ?_)
    have := hq i (List.mem_range.1 hi)
    by_cases hi : i = j
    · rw [if_pos hi.symm, if_pos (this.2 hi)]
    · rw [if_neg (Ne.symm hi), if_neg (fun h => hi (this.1 h))]
  unfold edgePart
  rw [sum_sub_map, hs (fun i => (i + 1) % p.length = v) (fun i => vdir ι (p.vertex i - p.vertex v)) w hwl
    (fun i hi => ⟨hwu i hi, fun h => by rw [h]; exact hw1⟩), hs (fun i => i = v) (fun i => vdir ι (p.vertex ((i + 1) % p.length) - p.vertex v)) v hv
    (fun i _ => Iff.rfl)]

/-- The angles of a polygon with `n` vertices add up to `n / 2 - 1` full turns. -/
theorem Valid.angles_sum (hι : StrictMono ι) {p : Poly K} (h : p.Valid) : (p.angles ι).sum = p.length / 2 - 1 := by
  obtain ⟨T, hT, hd⟩ := h.exists_tri_disj
  have hpi := Real.pi_pos
  have h1 := sum_vertices (List.nodup_range (n := p.length)) (cAngle ι p.vertex) (T.flatMap tCorners)
    (fun c hc => hT.mem _ _ _ (mem_corners.1 hc))
  rw [corners_sum hι hT] at h1
  have h2 : (List.range p.length).map (fun v => (((T.flatMap tCorners).filter (fun c => c.1 = v)).map (cAngle ι p.vertex)).sum) =
      (List.range p.length).map (fun v => 2 * π * p.angle ι v) :=
    List.map_congr_left (fun v hv => h.vSum_eq hι hT hd (List.mem_range.1 hv))
  rw [h2, List.sum_map_mul_left] at h1
  have hl := hT.len
  rw [List.length_range] at hl
  have hl' : (T.length : ℝ) = p.length - 2 := by rw [← hl]; push_cast; ring
  rw [hl'] at h1
  unfold Poly.angles
  have := mul_left_cancel₀ hpi.ne' (show π * (2 * ((List.range p.length).map (p.angle ι)).sum) = π * ((p.length : ℝ) - 2) by linarith)
  linarith

end Poly
end Flat
