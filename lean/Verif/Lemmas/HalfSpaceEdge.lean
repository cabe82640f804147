import Verif.Lemmas.HalfSpaceSegment

/-!
# Edges in the unit disk

Helper lemmas about `Verif.Model.HyperbolicPolygon`: the edge of a half space is the part of its boundary that is in all half spaces.
-/

namespace Flat
namespace Hyp

variable {K F : Type} [Field K] [LinearOrder K] [IsStrictOrderedRing K] [Field F] [LinearOrder F] [IsStrictOrderedRing F]

theorem Cyc.map {f : K →+* F} (hf : StrictMono f) {n : ℕ} {X : ℕ → Geo K} (h : Cyc n X) : Cyc n (fun i => (X i).map f) := by
  refine ⟨h.pos, fun i => by rw [h.per], fun i => valid_map hf (h.valid i), fun i j a b => ?_, fun i j k a b c => ?_, fun i => ?_⟩
  · intro h0
    rw [cross_map, zero_map hf] at h0
    have := (neg_map_iff hf).2 (h.dist i j a b h0)
    simpa [Geo.ndot, Geo.map] using this
  · obtain ⟨t1, t2, t3⟩ := h.tri i j k a b c
    have np : ∀ {x : K}, f x ≤ 0 ↔ x ≤ 0 := fun {x} => by rw [← map_zero f, hf.le_iff_le]
    simp only [Tri, cross_map, neg_map_iff hf, np]
    exact ⟨t1, t2, t3⟩
  · intro h1 h2
    rw [cross_map, pos_map hf] at h1 h2
    rcases h.loc i h1 h2 with h | ⟨s, hs, h⟩
    · left; rw [det3_map]; exact (pos_map hf).2 h
    · right
      refine ⟨f s, (pos_map hf).2 hs, ?_⟩
      rw [h]
      simp [Geo.map, Geo.smul, Geo.neg]

theorem triples_eq (L : List (Geo K)) : triples L = (List.range L.length).map (fun i => (seqOf L (i + (L.length - 1)), seqOf L i, seqOf L (i + 1))) := by
  apply List.ext_getElem
  · simp [triples]
  · intro i h1 h2
    have hi : i < L.length := by simpa using h2
    have e1 : (L.rotate (L.length - 1))[i]'(by simpa using hi) = seqOf L (i + (L.length - 1)) := by
      rw [← seqOf_rotate, seqOf_lt (by simpa using hi)]
    have e2 : (L.rotate 1)[i]'(by simpa using hi) = seqOf L (i + 1) := by
      rw [← seqOf_rotate, seqOf_lt (by simpa using hi)]
    simp only [triples, List.getElem_zip, List.getElem_map, List.getElem_range]
    rw [e1, e2, seqOf_lt hi]

/-- A small step from a point in the open disk stays there. -/
theorem small_finite {p : K × K} (hp : p.1 * p.1 + p.2 * p.2 < 1) (d : K × K) : ∃ ε, 0 < ε ∧ ε ≤ 1 ∧ ∀ t, 0 ≤ t → t ≤ ε → (shift p d t).1 * (shift p d t).1 + (shift p d t).2 * (shift p d t).2 < 1 := by
  set δ := 1 - (p.1 * p.1 + p.2 * p.2) with hδ
  set N := d.1 * d.1 + d.2 * d.2 with hN
  set w := |p.1 * d.1 + p.2 * d.2| with hw
  have hδ0 : 0 < δ := by linarith
  have hN0 : 0 ≤ N := by nlinarith [mul_self_nonneg d.1, mul_self_nonneg d.2]
  have hw0 : 0 ≤ w := abs_nonneg _
  have hww : p.1 * d.1 + p.2 * d.2 ≤ w := le_abs_self _
  have hC : 0 < 2 * w + N + 1 + δ := by linarith
  refine ⟨δ / (2 * w + N + 1 + δ), div_pos hδ0 hC, by rw [div_le_one hC]; linarith, fun t ht hte => ?_⟩
  rw [le_div_iff₀ hC] at hte
  have ht1 : t ≤ 1 := by
    by_contra hc
    rw [not_le] at hc
    nlinarith
  simp only [shift]
  have e : (p.1 + t * d.1) * (p.1 + t * d.1) + (p.2 + t * d.2) * (p.2 + t * d.2) = (1 - δ) + 2 * t * (p.1 * d.1 + p.2 * d.2) + t * t * N := by
    rw [hδ, hN]; ring
  rw [e]
  have h1 : 2 * t * (p.1 * d.1 + p.2 * d.2) ≤ 2 * t * w := mul_le_mul_of_nonneg_left hww (by linarith)
  have h2 : t * t * N ≤ t * N := mul_le_mul_of_nonneg_right (by nlinarith) hN0
  rcases ht.lt_or_eq with h | h
  · nlinarith
  · rw [← h]; nlinarith

omit [LinearOrder K] [IsStrictOrderedRing K] in
theorem along_shift (g : Geo K) (p : K × K) (t : K) : along g p t = shift p (g.c, -g.b) t := rfl

omit [LinearOrder K] [IsStrictOrderedRing K] in
theorem pos_shift (g : Geo K) (p d : K × K) (t : K) : g.pos (shift p d t) = g.pos p + t * (g.c * d.1 - g.b * d.2) := by
  simp only [Geo.pos, shift]; ring

theorem strictMono_ringHom_id : StrictMono (RingHom.id K) := fun _ _ h => h

omit [LinearOrder K] [IsStrictOrderedRing K] in
theorem map_id_geo (g : Geo K) : g.map (RingHom.id K) = g := rfl
omit [LinearOrder K] [IsStrictOrderedRing K] in
theorem mapPt_id (p : K × K) : mapPt (RingHom.id K) p = p := rfl

/-- On a line, there is another point nearby in each direction. -/
theorem near {g : Geo K} (hg : g.Proper) {p : K × K} (hp : p.1 * p.1 + p.2 * p.2 < 1) (h0 : g.val p = 0) :
    (∃ q, g.val q = 0 ∧ q.1 * q.1 + q.2 * q.2 < 1 ∧ g.pos p < g.pos q) ∧ ∃ q, g.val q = 0 ∧ q.1 * q.1 + q.2 * q.2 < 1 ∧ g.pos q < g.pos p := by
  have hn := hg.norm
  constructor
  · obtain ⟨ε, h1, -, h2⟩ := small_finite hp (g.c, -g.b)
    refine ⟨shift p (g.c, -g.b) ε, ?_, h2 ε h1.le le_rfl, ?_⟩
    · rw [val_shift, h0]; ring
    · rw [pos_shift]; nlinarith
  · obtain ⟨ε, h1, -, h2⟩ := small_finite hp (-g.c, g.b)
    refine ⟨shift p (-g.c, g.b) ε, ?_, h2 ε h1.le le_rfl, ?_⟩
    · rw [val_shift, h0]; ring
    · rw [pos_shift]; nlinarith

/-- A normalized segment contains two points in the open disk. -/
theorem two_points {g : Geo K} (hg : g.Valid) {R : ConvexSet K} (hR : R.IsEdge g) :
    ∃ y w : K × K, y ≠ w ∧ R.Mem (RingHom.id K) y ∧ R.Mem (RingHom.id K) w ∧ y.1 * y.1 + y.2 * y.2 < 1 ∧ w.1 * w.1 + w.2 * w.2 < 1 := by
  obtain ⟨s, e, hN, rfl⟩ := hR
  have hmem : ∀ z, (segmentFinal g s e).Mem (RingHom.id K) z ↔ InDisk z ∧ Between (RingHom.id K) g s e z :=
    mem_segmentFinal (RingHom.id K) (fun p hp q hq h => absurd (congrArg g.pos h) (hN.order p hp q hq).ne)
  have hb : ∀ z : K × K, Between (RingHom.id K) g s e z ↔ g.val z = 0 ∧ (∀ p ∈ s, g.pos p ≤ g.pos z) ∧ ∀ p ∈ e, g.pos z ≤ g.pos p := fun z => Iff.rfl
  have hne : ∀ {y w : K × K}, g.pos y < g.pos w → y ≠ w := fun h he => absurd (congrArg g.pos he) h.ne
  have mk : ∀ z : K × K, g.val z = 0 → z.1 * z.1 + z.2 * z.2 < 1 → (∀ p ∈ s, g.pos p ≤ g.pos z) → (∀ p ∈ e, g.pos z ≤ g.pos p) → (segmentFinal g s e).Mem (RingHom.id K) z :=
    fun z h1 h2 h3 h4 => (hmem z).2 ⟨h2.le, (hb z).2 ⟨h1, h3, h4⟩⟩
  rcases s with _ | p <;> rcases e with _ | q
  · obtain ⟨y, -, y0, -, yf⟩ := anElement_ok hg
    obtain ⟨w, w0, wf, hw⟩ := (near hg.proper yf y0).1
    exact ⟨y, w, hne hw, mk y y0 yf (by simp) (by simp), mk w w0 wf (by simp) (by simp), yf, wf⟩
  · obtain ⟨y0, yf⟩ := hN.stop q rfl
    have yf := of_decide_eq_true yf
    obtain ⟨w, w0, wf, hw⟩ := (near hg.proper yf y0).2
    exact ⟨w, q, hne hw, mk w w0 wf (by simp) (by simpa using hw.le), mk q y0 yf (by simp) (by simp), wf, yf⟩
  · obtain ⟨y0, yf⟩ := hN.start p rfl
    have yf := of_decide_eq_true yf
    obtain ⟨w, w0, wf, hw⟩ := (near hg.proper yf y0).1
    exact ⟨p, w, hne hw, mk p y0 yf (by simp) (by simp), mk w w0 wf (by simpa using hw.le) (by simp), yf, wf⟩
  · obtain ⟨y0, yf⟩ := hN.start p rfl
    obtain ⟨w0, wf⟩ := hN.stop q rfl
    have yf := of_decide_eq_true yf
    have wf := of_decide_eq_true wf
    have hw := hN.order p rfl q rfl
    exact ⟨p, q, hne hw, mk p y0 yf (by simp) (by simpa using hw.le), mk q w0 wf (by simpa using hw.le) (by simp), yf, wf⟩

/-- A half space does not contain the entire disk. -/
theorem exists_outside {g : Geo K} (hg : g.Valid) : ∃ w : K × K, InDisk w ∧ g.val w < 0 := by
  obtain ⟨y, -, y0, -, yf⟩ := anElement_ok hg
  obtain ⟨ε, h1, -, h2⟩ := small_finite yf (-g.b, -g.c)
  refine ⟨shift y (-g.b, -g.c) ε, (h2 ε h1.le le_rfl).le, ?_⟩
  have hn := hg.proper.norm
  have y0' : g.val y = 0 := y0
  rw [val_shift, y0']
  nlinarith

/-- On the way from a point in all half planes to another point, there is a last point in all half planes. -/
theorem exists_exit {y x : K × K} : ∀ (L : List (Geo K)), (∀ g ∈ L, 0 ≤ g.val y) →
    (∀ g ∈ L, 0 ≤ g.val x) ∨ ∃ t, 0 ≤ t ∧ t < 1 ∧ (∀ g ∈ L, 0 ≤ g.val (shift y (x.1 - y.1, x.2 - y.2) t)) ∧ ∃ g ∈ L, g.val (shift y (x.1 - y.1, x.2 - y.2) t) = 0 ∧ g.val x < 0 := by
  have hv : ∀ (g : Geo K) (t : K), g.val (shift y (x.1 - y.1, x.2 - y.2) t) = (1 - t) * g.val y + t * g.val x := by
    intro g t; simp only [Geo.val, shift]; ring
  simp only [hv]
  intro L
  induction L with
  | nil => intro _; left; simp
  | cons h L ih =>
    intro hy
    have hyh := hy h (by simp)
    rcases ih (fun g hg => hy g (List.mem_cons_of_mem _ hg)) with hx | ⟨t, t0, t1, ht, g, hg, hg0, hgx⟩
    · by_cases hxh : 0 ≤ h.val x
      · left
        intro g hg
        rcases List.mem_cons.mp hg with rfl | hg
        · exact hxh
        · exact hx g hg
      · right
        rw [not_le] at hxh
        have hd : 0 < h.val y - h.val x := by linarith
        have h0 : (1 - h.val y / (h.val y - h.val x)) * h.val y + h.val y / (h.val y - h.val x) * h.val x = 0 := by
          field_simp; ring
        have t0 : 0 ≤ h.val y / (h.val y - h.val x) := div_nonneg hyh hd.le
        have t1 : h.val y / (h.val y - h.val x) < 1 := by rw [div_lt_one hd]; linarith
        refine ⟨h.val y / (h.val y - h.val x), t0, t1, fun g hg => ?_, h, by simp, h0, hxh⟩
        rcases List.mem_cons.mp hg with rfl | hg
        · exact h0.ge
        · exact add_nonneg (mul_nonneg (by linarith) (hy g (List.mem_cons_of_mem _ hg))) (mul_nonneg t0 (hx g hg))
    · by_cases hth : 0 ≤ (1 - t) * h.val y + t * h.val x
      · right
        refine ⟨t, t0, t1, fun k hk => ?_, g, List.mem_cons_of_mem _ hg, hg0, hgx⟩
        rcases List.mem_cons.mp hk with rfl | hk
        · exact hth
        · exact ht k hk
      · right
        rw [not_le] at hth
        have hxh : h.val x < 0 := by
          by_contra hc
          rw [not_lt] at hc
          have := add_nonneg (mul_nonneg (show 0 ≤ 1 - t by linarith) hyh) (mul_nonneg t0 hc)
          linarith
        have hd : 0 < h.val y - h.val x := by linarith
        have h0 : (1 - h.val y / (h.val y - h.val x)) * h.val y + h.val y / (h.val y - h.val x) * h.val x = 0 := by
          field_simp; ring
        have s0 : 0 ≤ h.val y / (h.val y - h.val x) := div_nonneg hyh hd.le
        have st : h.val y / (h.val y - h.val x) ≤ t := by
          rw [div_le_iff₀ hd]; nlinarith
        generalize h.val y / (h.val y - h.val x) = s at h0 s0 st
        refine ⟨s, s0, by linarith, fun k hk => ?_, h, by simp, h0, hxh⟩
        rcases List.mem_cons.mp hk with rfl | hk
        · exact h0.ge
        · have k1 := hy k (List.mem_cons_of_mem _ hk)
          have k2 := ht k hk
          by_cases kx : 0 ≤ k.val x
          · exact add_nonneg (mul_nonneg (by linarith) k1) (mul_nonneg s0 kx)
          · rw [not_le] at kx
            nlinarith

/-- On the way from a point in the open disk to a point in the disk. -/
theorem shift_finite {y x : K × K} (hy : y.1 * y.1 + y.2 * y.2 < 1) (hx : InDisk x) {t : K} (t0 : 0 ≤ t) (t1 : t < 1) :
    (shift y (x.1 - y.1, x.2 - y.2) t).1 * (shift y (x.1 - y.1, x.2 - y.2) t).1 + (shift y (x.1 - y.1, x.2 - y.2) t).2 * (shift y (x.1 - y.1, x.2 - y.2) t).2 < 1 := by
  simp only [shift]
  unfold InDisk at hx
  have e : (y.1 + t * (x.1 - y.1)) * (y.1 + t * (x.1 - y.1)) + (y.2 + t * (x.2 - y.2)) * (y.2 + t * (x.2 - y.2)) =
      (1 - t) * (y.1 * y.1 + y.2 * y.2) + t * (x.1 * x.1 + x.2 * x.2) - t * (1 - t) * ((x.1 - y.1) * (x.1 - y.1) + (x.2 - y.2) * (x.2 - y.2)) := by ring
  rw [e]
  have h1 : 0 ≤ t * (1 - t) * ((x.1 - y.1) * (x.1 - y.1) + (x.2 - y.2) * (x.2 - y.2)) :=
    mul_nonneg (mul_nonneg t0 (by linarith)) (add_nonneg (mul_self_nonneg _) (mul_self_nonneg _))
  have h2 : t * (x.1 * x.1 + x.2 * x.2) ≤ t * 1 := mul_le_mul_of_nonneg_left hx t0
  have h3 : (1 - t) * (y.1 * y.1 + y.2 * y.2) < (1 - t) * 1 := mul_lt_mul_of_pos_left hy (by linarith)
  linarith

theorem cornerOf_spec {A B : Geo K} (vA : A.Valid) (vB : B.Valid) (h : A = B ∨ Distinct A B) : cornerOf A B = .ok (if 0 < A.cross B then A.inter B else none) := by
  rcases h with rfl | h
  · have h0 : A.cross A = 0 := by simp only [Geo.cross]; ring
    simp [cornerOf, config_self vA, bind, Except.bind, pure, Except.pure, h0, inter_none_of h0]
  · rcases config_cases vA vB h with ⟨h0, e⟩ | ⟨h0, e⟩ | ⟨h0, -, e⟩ | ⟨h0, -, e⟩
    · simp [cornerOf, e, bind, Except.bind, pure, Except.pure, h0]
    · simp [cornerOf, e, bind, Except.bind, pure, Except.pure, h0.not_gt]
    · simp [cornerOf, e, bind, Except.bind, pure, Except.pure, h0, inter_none_of h0]
    · simp [cornerOf, e, bind, Except.bind, pure, Except.pure, h0, inter_none_of h0]

/-- The position on a line tells the side of another line. -/
theorem side_of_pos {A B : Geo K} (vB : B.Proper) {s : K × K} (hA : A.val s = 0) (hB : B.val s = 0) (z : K × K) (hz : B.val z = 0) :
    A.val z * (B.b * B.b + B.c * B.c) = A.cross B * (B.pos z - B.pos s) := by
  obtain ⟨t, rfl⟩ := exists_along vB hB hz
  rw [val_along, hA, along_shift, pos_shift]
  ring

/-- The half spaces that are left together with their edges. -/
structure DiskEdges (L : List (Geo K)) (E : ℕ → ConvexSet K) : Prop where
  cyc : Cyc L.length (seqOf L)
  eq : ∀ i, edgeOf (seqOf L (i + (L.length - 1))) (seqOf L i) (seqOf L (i + 1)) = .ok (E i)
  kind : ∀ i, E i = .empty ∨ (∃ p, E i = .point p) ∨ (E i).IsEdge (seqOf L i)
  mem : ∀ i (F : Type) [Field F] [LinearOrder F] [IsStrictOrderedRing F] (f : K →+* F), StrictMono f → ∀ z : F × F, (E i).Mem f z ↔ InDisk z ∧ ((seqOf L i).map f).val z = 0 ∧ InAll f L z
  pts : ∃ a b : K × K, a ≠ b ∧ (∀ g ∈ L, 0 ≤ g.val a) ∧ ∀ g ∈ L, 0 ≤ g.val b

theorem exists_diskEdges {L : List (Geo K)} (hc : Cyc L.length (seqOf L)) {a b : K × K} (hab : a ≠ b) (ha : ∀ g ∈ L, 0 ≤ g.val a) (hb : ∀ g ∈ L, 0 ≤ g.val b) : ∃ E, DiskEdges L E := by
  have hn := hc.pos
  have key : ∀ i, ∃ R, edgeOf (seqOf L (i + (L.length - 1))) (seqOf L i) (seqOf L (i + 1)) = .ok R ∧ (R = .empty ∨ (∃ p, R = .point p) ∨ R.IsEdge (seqOf L i)) ∧
      ∀ (F : Type) [Field F] [LinearOrder F] [IsStrictOrderedRing F] (f : K →+* F), StrictMono f → ∀ z : F × F, R.Mem f z ↔ InDisk z ∧ ((seqOf L i).map f).val z = 0 ∧ InAll f L z := by
    intro i
    have e1 : seqOf L (i + (L.length - 1) + 1) = seqOf L i := by
      rw [show i + (L.length - 1) + 1 = i + L.length by omega, seqOf_per]
    have e2 : seqOf L (i + (L.length - 1) + 2) = seqOf L (i + 1) := by
      rw [show i + (L.length - 1) + 2 = i + 1 + L.length by omega, seqOf_per]
    have hdet := hc.det3_nonneg (i + (L.length - 1))
    have hinside := fun (F : Type) [Field F] [LinearOrder F] [IsStrictOrderedRing F] (f : K →+* F) (hf : StrictMono f) (z : F × F) =>
      (hc.map hf).edge_inside (p := mapPt f a) (fun j => by rw [val_mapPt, nonneg_map hf]; exact ha _ (seqOf_mem hn j)) (i := i + (L.length - 1)) (z := z)
    rw [e1, e2] at hdet
    simp only [e1, e2] at hinside
    have dAB : seqOf L (i + (L.length - 1)) = seqOf L i ∨ Distinct (seqOf L (i + (L.length - 1))) (seqOf L i) := by
      by_cases h1 : L.length = 1
      · left; rw [h1]; rfl
      · right; rw [← e1]; exact hc.dist _ _ (by omega) (by omega)
    have dBC : seqOf L i = seqOf L (i + 1) ∨ Distinct (seqOf L i) (seqOf L (i + 1)) := by
      by_cases h1 : L.length = 1
      · left; rw [← seqOf_per L i, h1]
      · right; exact hc.dist _ _ (by omega) (by omega)
    have vA := hc.valid (i + (L.length - 1))
    have vB := hc.valid i
    have vC := hc.valid (i + 1)
    have mA := seqOf_mem hn (i + (L.length - 1))
    have mB := seqOf_mem hn i
    have mC := seqOf_mem hn (i + 1)
    have hmemL : ∀ g ∈ L, ∃ j, seqOf L j = g := fun g hg => by
      obtain ⟨j, -, h⟩ := exists_seqOf hg
      exact ⟨j, h⟩
    generalize seqOf L (i + (L.length - 1)) = A at *
    generalize seqOf L i = B at *
    generalize seqOf L (i + 1) = C at *
    have hN := vB.proper.norm
    set s := (if 0 < A.cross B then A.inter B else none) with hs
    set e := (if 0 < B.cross C then B.inter C else none) with he
    have hsv : ∀ p ∈ s, 0 < A.cross B ∧ A.val p = 0 ∧ B.val p = 0 := by
      intro p hp
      by_cases h0 : 0 < A.cross B
      · rw [hs, if_pos h0] at hp
        obtain ⟨v, h1, h2, h3⟩ := exists_inter h0.ne'
        rw [h1, Option.mem_def, Option.some.injEq] at hp
        exact ⟨h0, hp ▸ h2, hp ▸ h3⟩
      · rw [hs, if_neg h0] at hp; cases hp
    have hev : ∀ p ∈ e, 0 < B.cross C ∧ B.val p = 0 ∧ C.val p = 0 := by
      intro p hp
      by_cases h0 : 0 < B.cross C
      · rw [he, if_pos h0] at hp
        obtain ⟨v, h1, h2, h3⟩ := exists_inter h0.ne'
        rw [h1, Option.mem_def, Option.some.injEq] at hp
        exact ⟨h0, hp ▸ h2, hp ▸ h3⟩
      · rw [he, if_neg h0] at hp; cases hp
    have hse : ∀ p ∈ s, ∀ q ∈ e, B.pos p ≤ B.pos q := by
      intro p hp q hq
      obtain ⟨h1, h2, h3⟩ := hsv p hp
      obtain ⟨h4, h5, h6⟩ := hev q hq
      have hd := hdet h1 h4
      have := det3_val A B C q
      rw [h5, h6] at this
      have hAq : 0 ≤ A.val q := by
        by_contra hc
        rw [not_le] at hc
        nlinarith
      have hside := side_of_pos vB.proper h2 h3 q h5
      by_contra hc
      rw [not_le] at hc
      nlinarith [mul_nonneg hAq hN.le]
    obtain ⟨R, r1, r2, r3⟩ := segment_spec vB (fun p hp => (hsv p hp).2.2) (fun p hp => (hev p hp).2.1) hse
    refine ⟨R, ?_, r2, fun F _ _ _ f hf z => ?_⟩
    · simp only [edgeOf, cornerOf_spec vA vB dAB, cornerOf_spec vB vC dBC, bind, Except.bind, ← hs, ← he, r1]
    · rw [r3 F f hf z]
      refine and_congr_right fun _ => ?_
      have hNF := (valid_map hf vB).proper.norm
      have sideA : ∀ p ∈ s, (B.map f).val z = 0 → (f (B.pos p) ≤ (B.map f).pos z ↔ 0 ≤ (A.map f).val z) := by
        intro p hp hz
        obtain ⟨h1, h2, h3⟩ := hsv p hp
        have := side_of_pos (valid_map hf vB).proper (A := A.map f) (s := mapPt f p) (by rw [val_mapPt, h2, map_zero]) (by rw [val_mapPt, h3, map_zero]) z hz
        rw [pos_mapPt, cross_map] at this
        have h1' := (pos_map hf).2 h1
        rw [← sub_nonneg, ← mul_nonneg_iff_of_pos_left h1', ← this, mul_nonneg_iff_of_pos_right hNF]
      have sideC : ∀ p ∈ e, (B.map f).val z = 0 → ((B.map f).pos z ≤ f (B.pos p) ↔ 0 ≤ (C.map f).val z) := by
        intro p hp hz
        obtain ⟨h1, h2, h3⟩ := hev p hp
        have := side_of_pos (valid_map hf vB).proper (A := C.map f) (s := mapPt f p) (by rw [val_mapPt, h3, map_zero]) (by rw [val_mapPt, h2, map_zero]) z hz
        rw [pos_mapPt, cross_map, cross_swap, map_neg] at this
        have h1' := (pos_map hf).2 h1
        have this' : (C.map f).val z * ((B.map f).b * (B.map f).b + (B.map f).c * (B.map f).c) = f (B.cross C) * (f (B.pos p) - (B.map f).pos z) := by linear_combination this
        rw [← sub_nonneg, ← mul_nonneg_iff_of_pos_left h1', ← this', mul_nonneg_iff_of_pos_right hNF]
      constructor
      · rintro ⟨z0, zs, ze⟩
        refine ⟨z0, fun g hg => ?_⟩
        obtain ⟨j, rfl⟩ := hmemL g hg
        refine hinside F f hf z z0 (fun h0 => ?_) (fun h0 => ?_) j
        · rw [cross_map, pos_map hf] at h0
          obtain ⟨v, h1, -, -⟩ := exists_inter h0.ne'
          have hv : v ∈ s := by rw [hs, if_pos h0, h1]; rfl
          exact (sideA v hv z0).1 (zs v hv)
        · rw [cross_map, pos_map hf] at h0
          obtain ⟨v, h1, -, -⟩ := exists_inter h0.ne'
          have hv : v ∈ e := by rw [he, if_pos h0, h1]; rfl
          exact (sideC v hv z0).1 (ze v hv)
      · rintro ⟨z0, hz⟩
        exact ⟨z0, fun p hp => (sideA p hp z0).2 (hz A mA), fun p hp => (sideC p hp z0).2 (hz C mC)⟩
  choose E h1 h2 h3 using key
  exact ⟨E, hc, h1, h2, h3, a, b, hab, ha, hb⟩

end Hyp
end Flat
