import Verif.Lemmas.HalfSpaceEdge

/-!
# Half spaces without an edge in the unit disk

Helper lemmas about `Verif.Model.HyperbolicPolygon`: the loop that drops half spaces that are redundant in the unit disk.
-/

namespace Flat
namespace Hyp

variable {K F : Type} [Field K] [LinearOrder K] [IsStrictOrderedRing K] [Field F] [LinearOrder F] [IsStrictOrderedRing F]

/-- `segmentFinal` of a normalized segment is neither empty nor a point. -/
theorem segmentFinal_ne {g : Geo K} {s e : Option (K × K)} (h : Normal g s e) : segmentFinal g s e ≠ .empty ∧ ∀ p, segmentFinal g s e ≠ .point p := by
  rcases s with _ | p <;> rcases e with _ | q <;> simp only [segmentFinal]
  · simp
  · simp
  · simp
  · rw [if_neg (fun he => absurd (congrArg g.pos he) (h.order p rfl q rfl).ne)]
    simp

/-- Whether an edge is not empty and not a point. -/
def ConvexSet.nondegenerate : ConvexSet K → Bool
  | .empty => false
  | .point _ => false
  | _ => true

theorem IsEdge.nondegenerate {g : Geo K} {R : ConvexSet K} (h : R.IsEdge g) : R.nondegenerate = true := by
  obtain ⟨s, e, hN, rfl⟩ := h
  obtain ⟨h1, h2⟩ := segmentFinal_ne hN
  cases hR : segmentFinal g s e <;> simp_all [ConvexSet.nondegenerate]

theorem reverse_between {g h : Geo K} (ho : Opposite g h) (s e : Option (K × K)) (z : K × K) : Between (RingHom.id K) h s e z ↔ Between (RingHom.id K) g e s z := by
  obtain ⟨t, ht, rfl⟩ := ho
  have e1 : ∀ z : K × K, (Geo.smul t g.neg).val z = -(t * g.val z) := fun z => by simp only [Geo.val, Geo.smul, Geo.neg]; ring
  have e2 : ∀ z : K × K, (Geo.smul t g.neg).pos z = -(t * g.pos z) := fun z => by simp only [Geo.pos, Geo.smul, Geo.neg]; ring
  simp only [Between, map_id_geo, RingHom.id_apply, e1, e2, neg_le_neg_iff, mul_le_mul_iff_of_pos_left ht, neg_eq_zero, mul_eq_zero, ht.ne', false_or]
  exact and_congr_right fun _ => and_comm

theorem reverse_normal {g h : Geo K} (ho : Opposite g h) {s e : Option (K × K)} (hN : Normal h s e) : Normal g e s := by
  obtain ⟨t, ht, rfl⟩ := ho
  have e1 : ∀ z : K × K, (Geo.smul t g.neg).val z = -(t * g.val z) := fun z => by simp only [Geo.val, Geo.smul, Geo.neg]; ring
  have e2 : ∀ z : K × K, (Geo.smul t g.neg).pos z = -(t * g.pos z) := fun z => by simp only [Geo.pos, Geo.smul, Geo.neg]; ring
  obtain ⟨h1, h2, h3⟩ := hN
  simp only [e1, e2, neg_eq_zero, mul_eq_zero, ht.ne', false_or, neg_lt_neg_iff, mul_lt_mul_iff_of_pos_left ht] at h1 h2 h3
  exact ⟨h2, h1, fun p hp q hq => h3 q hq p hp⟩

theorem normal_start {g : Geo K} (hg : g.Valid) {s e s' e' : Option (K × K)} (h : Normal g s e)
    (hb : ∀ z, InDisk z → (Between (RingHom.id K) g s e z ↔ Between (RingHom.id K) g s' e' z)) : ∀ p ∈ s, ∃ p' ∈ s', g.pos p' ≤ g.pos p := by
  intro p hp
  obtain ⟨p0, pf⟩ := h.start p hp
  have pf := of_decide_eq_true pf
  have h1 : Between (RingHom.id K) g s e p := ⟨p0, fun q hq => by
    rw [Option.mem_def] at hp hq
    rw [hp] at hq
    cases hq
    exact le_rfl, fun q hq => (h.order p hp q hq).le⟩
  obtain ⟨_, h2, h3⟩ := (hb p pf.le).1 h1
  rcases s' with _ | p'
  · exfalso
    obtain ⟨q, q0, qf, hq⟩ := (near hg.proper pf p0).2
    have : Between (RingHom.id K) g none e' q := ⟨q0, by simp, fun r hr => hq.le.trans (h3 r hr)⟩
    exact absurd (((hb q qf.le).2 this).2.1 p hp) (not_le.mpr hq)
  · exact ⟨p', rfl, h2 p' rfl⟩

theorem normal_unique {g : Geo K} (hg : g.Valid) {s e s' e' : Option (K × K)} (h : Normal g s e) (h' : Normal g s' e')
    (hb : ∀ z, InDisk z → (Between (RingHom.id K) g s e z ↔ Between (RingHom.id K) g s' e' z)) : s = s' := by
  have h1 := normal_start hg h hb
  have h2 := normal_start hg h' (fun z hz => (hb z hz).symm)
  rcases s with _ | p <;> rcases s' with _ | p'
  · rfl
  · obtain ⟨_, hp, -⟩ := h2 p' rfl; cases hp
  · obtain ⟨_, hp, -⟩ := h1 p rfl; cases hp
  · obtain ⟨_, hp, h3⟩ := h1 p rfl
    cases hp
    obtain ⟨_, hp, h4⟩ := h2 p' rfl
    cases hp
    rw [eq_of_pos hg.proper (h.start p rfl).1 (h'.start p' rfl).1 (le_antisymm h4 h3)]

namespace DiskEdges

variable {L : List (Geo K)} {E : ℕ → ConvexSet K}

theorem memK (h : DiskEdges L E) (i : ℕ) (z : K × K) : (E i).Mem (RingHom.id K) z ↔ InDisk z ∧ (seqOf L i).val z = 0 ∧ ∀ g ∈ L, 0 ≤ g.val z :=
  h.mem i K (RingHom.id K) strictMono_ringHom_id z

theorem isEdge_of_two (h : DiskEdges L E) (i : ℕ) {z w : K × K} (hzw : z ≠ w) (hz : (E i).Mem (RingHom.id K) z) (hw : (E i).Mem (RingHom.id K) w) : (E i).IsEdge (seqOf L i) := by
  rcases h.kind i with he | ⟨p, he⟩ | he
  · rw [he] at hz; exact absurd hz id
  · rw [he] at hz hw
    exact absurd (hz.trans hw.symm) hzw
  · exact he

theorem isEdge_iff (h : DiskEdges L E) (i : ℕ) : (E i).IsEdge (seqOf L i) ↔ (E i).nondegenerate = true := by
  refine ⟨IsEdge.nondegenerate, fun hn => ?_⟩
  rcases h.kind i with he | ⟨p, he⟩ | he
  · rw [he] at hn; simp [ConvexSet.nondegenerate] at hn
  · rw [he] at hn; simp [ConvexSet.nondegenerate] at hn
  · exact he

/-- An edge that is a point in the open disk is between half planes with the same boundary. -/
theorem opposite_of_finite (h : DiskEdges L E) {i : ℕ} {p : K × K} (hi : E i = .point p) (hp : p.1 * p.1 + p.2 * p.2 < 1) : Opposite (seqOf L (i + (L.length - 1))) (seqOf L (i + 1)) := by
  have hn := h.cyc.pos
  have e1 : seqOf L (i + (L.length - 1) + 1) = seqOf L i := by
    rw [show i + (L.length - 1) + 1 = i + L.length by omega, seqOf_per]
  have e2 : seqOf L (i + (L.length - 1) + 2) = seqOf L (i + 1) := by
    rw [show i + (L.length - 1) + 2 = i + 1 + L.length by omega, seqOf_per]
  have hmem := h.memK i
  rw [hi] at hmem
  obtain ⟨-, p0, pin⟩ := (hmem p).1 rfl
  have hloc := h.cyc.loc (i + (L.length - 1))
  have hinside := fun (z : K × K) => h.cyc.edge_inside (p := p) (fun j => pin _ (seqOf_mem hn j)) (i := i + (L.length - 1)) (z := z)
  have pA := pin _ (seqOf_mem hn (i + (L.length - 1)))
  have pC := pin _ (seqOf_mem hn (i + 1))
  have hmemL : ∀ g ∈ L, ∃ j, seqOf L j = g := fun g hg => by
    obtain ⟨j, -, h⟩ := exists_seqOf hg
    exact ⟨j, h⟩
  have vB := h.cyc.valid i
  simp only [e1, e2] at hloc hinside
  generalize seqOf L (i + (L.length - 1)) = A at *
  generalize seqOf L i = B at *
  generalize seqOf L (i + 1) = C at *
  have hN := vB.proper.norm
  -- there is no other point of the edge
  have only : ∀ z : K × K, z.1 * z.1 + z.2 * z.2 < 1 → B.val z = 0 → (0 < A.cross B → 0 ≤ A.val z) → (0 < B.cross C → 0 ≤ C.val z) → z = p := by
    intro z zf z0 h1 h2
    refine (hmem z).2 ⟨zf.le, z0, fun g hg => ?_⟩
    obtain ⟨j, rfl⟩ := hmemL g hg
    exact hinside z z0 h1 h2 j
  have step : ∀ (d : K × K), B.b * d.1 + B.c * d.2 = 0 → (d.1 ≠ 0 ∨ d.2 ≠ 0) →
      (0 < A.cross B → 0 < A.val p ∨ (A.val p = 0 ∧ 0 ≤ A.b * d.1 + A.c * d.2)) → (0 < B.cross C → 0 < C.val p ∨ (C.val p = 0 ∧ 0 ≤ C.b * d.1 + C.c * d.2)) → False := by
    intro d hd0 hd hA hC
    obtain ⟨ε, ε0, -, h1⟩ := small_finite hp d
    obtain ⟨ε', ε0', h2⟩ := exists_small (p := p) (d := d) (l := (if 0 < A.cross B then [A] else []) ++ (if 0 < B.cross C then [C] else [])) (by
      intro g hg
      rw [List.mem_append] at hg
      rcases hg with hg | hg
      · by_cases h0 : 0 < A.cross B
        · rw [if_pos h0, List.mem_singleton] at hg; rw [hg]; exact hA h0
        · rw [if_neg h0] at hg; cases hg
      · by_cases h0 : 0 < B.cross C
        · rw [if_pos h0, List.mem_singleton] at hg; rw [hg]; exact hC h0
        · rw [if_neg h0] at hg; cases hg)
    have hm : 0 < min ε ε' := lt_min ε0 ε0'
    have h2' := h2 _ hm.le (min_le_right _ _)
    have := only (shift p d (min ε ε')) (h1 _ hm.le (min_le_left _ _)) (by rw [val_shift, p0, hd0]; ring)
      (fun h0 => h2' A (by rw [if_pos h0]; simp)) (fun h0 => h2' C (by rw [if_pos h0]; simp))
    have g1 : p.1 + min ε ε' * d.1 = p.1 := congrArg Prod.fst this
    have g2 : p.2 + min ε ε' * d.2 = p.2 := congrArg Prod.snd this
    rcases hd with hd | hd
    · exact hd ((mul_eq_zero.mp (show min ε ε' * d.1 = 0 by linarith)).resolve_left hm.ne')
    · exact hd ((mul_eq_zero.mp (show min ε ε' * d.2 = 0 by linarith)).resolve_left hm.ne')
  have hdir : B.c ≠ 0 ∨ B.b ≠ 0 := vB.proper.symm
  have cA : 0 < A.cross B ∧ A.val p = 0 := by
    by_contra hc
    refine step (-B.c, B.b) (by ring) (by simpa using hdir) (fun h0 => ?_) (fun h0 => ?_)
    · exact .inl (lt_of_le_of_ne pA fun h => hc ⟨h0, h.symm⟩)
    · rcases pC.lt_or_eq with h | h
      · exact .inl h
      · refine .inr ⟨h.symm, ?_⟩
        have : C.b * -B.c + C.c * B.b = B.cross C := by simp only [Geo.cross]; ring
        rw [this]; exact h0.le
  have cC : 0 < B.cross C ∧ C.val p = 0 := by
    by_contra hc
    refine step (B.c, -B.b) (by ring) (by simpa using hdir) (fun h0 => ?_) (fun h0 => ?_)
    · rcases pA.lt_or_eq with h | h
      · exact .inl h
      · refine .inr ⟨h.symm, ?_⟩
        have : A.b * B.c + A.c * -B.b = A.cross B := by simp only [Geo.cross]; ring
        rw [this]; exact h0.le
    · exact .inl (lt_of_le_of_ne pC fun h => hc ⟨h0, h.symm⟩)
  refine (hloc cA.1 cC.1).resolve_left fun h0 => ?_
  have := det3_val A B C p
  rw [cA.2, p0, cC.2] at this
  simp only [zero_mul, add_zero] at this
  linarith

theorem on_line (h : DiskEdges L E) {i j : ℕ} (ho : Opposite (seqOf L i) (seqOf L j)) {z : K × K} (hz : ∀ g ∈ L, 0 ≤ g.val z) : (seqOf L i).val z = 0 := by
  have hn := h.cyc.pos
  obtain ⟨s, hs, hv⟩ := ho.val
  have h1 := hz _ (seqOf_mem hn i)
  have h2 := hz _ (seqOf_mem hn j)
  rw [hv] at h2
  nlinarith

/-- If there are half planes with the same boundary, then there is an edge unless everything is outside of the open disk. -/
theorem isEdge_of_opposite (h : DiskEdges L E) {i j : ℕ} (ho : Opposite (seqOf L i) (seqOf L j)) {q : K × K} (hq : ∀ g ∈ L, 0 ≤ g.val q) (hf : q.1 * q.1 + q.2 * q.2 < 1) : (E i).IsEdge (seqOf L i) := by
  obtain ⟨a, ha, haq⟩ : ∃ a, (∀ g ∈ L, 0 ≤ g.val a) ∧ a ≠ q := by
    obtain ⟨a, b, hab, ha, hb⟩ := h.pts
    by_cases haq : a = q
    · exact ⟨b, hb, fun hbq => hab (haq.trans hbq.symm)⟩
    · exact ⟨a, ha, haq⟩
  obtain ⟨ε, ε0, ε1, h1⟩ := small_finite hf (a.1 - q.1, a.2 - q.2)
  have hin : ∀ g ∈ L, 0 ≤ g.val (shift q (a.1 - q.1, a.2 - q.2) ε) := by
    intro g hg
    have : g.val (shift q (a.1 - q.1, a.2 - q.2) ε) = (1 - ε) * g.val q + ε * g.val a := by simp only [Geo.val, shift]; ring
    rw [this]
    exact add_nonneg (mul_nonneg (by linarith) (hq g hg)) (mul_nonneg ε0.le (ha g hg))
  refine h.isEdge_of_two i (z := q) (w := shift q (a.1 - q.1, a.2 - q.2) ε) (fun he => haq ?_) ((h.memK i q).2 ⟨hf.le, h.on_line ho hq, hq⟩)
    ((h.memK i _).2 ⟨(h1 ε ε0.le le_rfl).le, h.on_line ho hin, hin⟩)
  have g1 : q.1 = q.1 + ε * (a.1 - q.1) := congrArg Prod.fst he
  have g2 : q.2 = q.2 + ε * (a.2 - q.2) := congrArg Prod.snd he
  ext
  · linarith [(mul_eq_zero.mp (show ε * (a.1 - q.1) = 0 by linarith)).resolve_left ε0.ne']
  · linarith [(mul_eq_zero.mp (show ε * (a.2 - q.2) = 0 by linarith)).resolve_left ε0.ne']

/-- An edge that is a point in the open disk has neighbours that are not. -/
theorem neighbours (h : DiskEdges L E) {i : ℕ} {p : K × K} (hi : E i = .point p) (hp : p.1 * p.1 + p.2 * p.2 < 1) :
    (E (i + 1)).IsEdge (seqOf L (i + 1)) ∧ (E (i + (L.length - 1))).IsEdge (seqOf L (i + (L.length - 1))) := by
  have ho := h.opposite_of_finite hi hp
  have hm := (h.memK i p).1 (by rw [hi]; rfl)
  exact ⟨h.isEdge_of_opposite ho.symm hm.2.2 hp, h.isEdge_of_opposite ho hm.2.2 hp⟩

/-- If there is a point in the open disk, then there is an edge. -/
theorem exists_isEdge (h : DiskEdges L E) {f : K →+* F} (hf : StrictMono f) {y : F × F} (hy : InAll f L y) (yf : y.1 * y.1 + y.2 * y.2 < 1) : ∃ i, (E i).IsEdge (seqOf L i) := by
  have hn := h.cyc.pos
  obtain ⟨w, wd, w0⟩ := exists_outside (h.cyc.valid 0)
  have wd' : InDisk (mapPt f w) := by
    have := hf.monotone wd
    simpa [InDisk, mapPt] using this
  rcases exists_exit (y := y) (x := mapPt f w) (L.map (Geo.map f)) (by simpa [InAll] using hy) with hx | ⟨t, t0, t1, ht, g, hg, hg0, -⟩
  · have := hx ((seqOf L 0).map f) (List.mem_map_of_mem (seqOf_mem hn 0))
    rw [val_mapPt, nonneg_map hf] at this
    linarith
  · obtain ⟨g, hgL, rfl⟩ := List.mem_map.mp hg
    clear hg
    obtain ⟨j, -, rfl⟩ := exists_seqOf hgL
    have zf := shift_finite yf wd' t0 t1
    generalize shift y ((mapPt f w).1 - y.1, (mapPt f w).2 - y.2) t = z at *
    have hz : (E j).Mem f z := (h.mem j F f hf z).2 ⟨zf.le, hg0, by simpa [InAll] using ht⟩
    rcases h.kind j with he | ⟨p, he⟩ | he
    · rw [he] at hz; exact absurd hz id
    · rw [he] at hz
      have hz : z = mapPt f p := hz
      rw [hz] at zf
      have hpf : f (p.1 * p.1 + p.2 * p.2) < f 1 := by simpa [mapPt] using zf
      exact ⟨j + 1, (h.neighbours he (hf.lt_iff_lt.mp hpf)).1⟩
    · exact ⟨j, he⟩

/-- A point that is in all half planes is on an edge, unless there is an edge that is not a point. -/
theorem mem_edge (h : DiskEdges L E) {f : K →+* F} (hf : StrictMono f) {z : F × F} (hz : InAll f L z) (hd : InDisk z) (hno : ∀ i, ¬(E i).IsEdge (seqOf L i)) : ∃ i, (E i).Mem f z := by
  by_contra hc
  push Not at hc
  have hpos : ∀ g ∈ L, 0 < (g.map f).val z := by
    intro g hg
    refine lt_of_le_of_ne (hz g hg) fun h0 => ?_
    obtain ⟨i, -, rfl⟩ := exists_seqOf hg
    exact hc i ((h.mem i F f hf z).2 ⟨hd, h0.symm, hz⟩)
  obtain ⟨ε, ε0, hε⟩ := exists_small (p := z) (d := (-z.1, -z.2)) (l := L.map (Geo.map f)) (by
    intro g hg
    obtain ⟨g, hgL, rfl⟩ := List.mem_map.mp hg
    exact .inl (hpos g hgL))
  have hm : 0 < min ε 1 := lt_min ε0 one_pos
  have hin := hε (min ε 1) hm.le (min_le_left _ _)
  obtain ⟨i, hi⟩ := h.exists_isEdge hf (y := shift z (-z.1, -z.2) (min ε 1)) (by simpa [InAll] using hin) (by
    simp only [shift]
    unfold InDisk at hd
    have h1 : min ε 1 ≤ 1 := min_le_right _ _
    have e : (z.1 + min ε 1 * -z.1) * (z.1 + min ε 1 * -z.1) + (z.2 + min ε 1 * -z.2) * (z.2 + min ε 1 * -z.2) = (1 - min ε 1) * (1 - min ε 1) * (z.1 * z.1 + z.2 * z.2) := by ring
    rw [e]
    generalize min ε 1 = t at *
    have h2 : (1 - t) * (1 - t) < 1 := by nlinarith
    have h3 : 0 ≤ (1 - t) * (1 - t) := mul_self_nonneg _
    nlinarith)
  exact hno i hi

theorem distinct_of_ne (h : DiskEdges L E) {m k : ℕ} (hkm : seqOf L k ≠ seqOf L m) : Distinct (seqOf L m) (seqOf L k) := by
  obtain ⟨m', h1, h2, h3⟩ := h.cyc.index k m
  rcases eq_or_lt_of_le h1 with h4 | h4
  · exact absurd (h4 ▸ h3) hkm
  · have := h.cyc.dist k m' h4 h2
    rw [h3] at this
    exact this.symm

/-- Half planes with the same boundary and an edge: these are the only edges. -/
theorem opposite_edges (h : DiskEdges L E) {i j : ℕ} (ho : Opposite (seqOf L i) (seqOf L j)) (hi : (E i).IsEdge (seqOf L i)) :
    (E j).IsEdge (seqOf L j) ∧ eqNeg (E i) (E j) = true ∧ ∀ k, (E k).IsEdge (seqOf L k) → seqOf L k = seqOf L i ∨ seqOf L k = seqOf L j := by
  have hn := h.cyc.pos
  have hsame : ∀ z, (E i).Mem (RingHom.id K) z ↔ (E j).Mem (RingHom.id K) z := by
    intro z
    rw [h.memK, h.memK]
    exact ⟨fun ⟨a, _, b⟩ => ⟨a, h.on_line ho.symm b, b⟩, fun ⟨a, _, b⟩ => ⟨a, h.on_line ho b, b⟩⟩
  obtain ⟨y, w, hyw, hy, hw, -, -⟩ := two_points (h.cyc.valid i) hi
  have hj := h.isEdge_of_two j hyw ((hsame y).1 hy) ((hsame w).1 hw)
  refine ⟨hj, ?_, fun k hk => ?_⟩
  · obtain ⟨s, e, hN, hR⟩ := hi
    obtain ⟨s', e', hN', hR'⟩ := hj
    have m1 := mem_segmentFinal (RingHom.id K) (g := seqOf L i) (fun p hp q hq h => absurd (congrArg (seqOf L i).pos h) (hN.order p hp q hq).ne)
    have m2 := mem_segmentFinal (RingHom.id K) (g := seqOf L j) (fun p hp q hq h => absurd (congrArg (seqOf L j).pos h) (hN'.order p hp q hq).ne)
    rw [← hR] at m1
    rw [← hR'] at m2
    have hb : ∀ z, InDisk z → (Between (RingHom.id K) (seqOf L i) s e z ↔ Between (RingHom.id K) (seqOf L j) s' e' z) := by
      intro z hz
      have := hsame z
      rw [m1, m2] at this
      exact ⟨fun hb => (this.1 ⟨hz, hb⟩).2, fun hb => (this.2 ⟨hz, hb⟩).2⟩
    have u1 : s = e' := normal_unique (h.cyc.valid i) hN (reverse_normal ho hN') (fun z hz => (hb z hz).trans (reverse_between ho s' e' z))
    have u2 : e = s' := normal_unique (h.cyc.valid j) (reverse_normal ho.symm hN) hN' (fun z hz => (reverse_between ho e s z).trans (hb z hz))
    subst u1 u2
    have heq := (eq_neg_iff (h.cyc.valid i) (h.cyc.valid j)).2 ho
    rw [hR, hR']
    rcases s with _ | p <;> rcases e with _ | q
    · simpa [segmentFinal, eqNeg] using heq
    · simpa [segmentFinal, eqNeg] using heq
    · simpa [segmentFinal, eqNeg] using heq
    · have hpq : p ≠ q := fun h' => absurd (congrArg (seqOf L i).pos h') (hN.order p rfl q rfl).ne
      simp only [segmentFinal]
      rw [if_neg hpq, if_neg (Ne.symm hpq)]
      simp [eqNeg, heq]
  · by_contra hc
    push Not at hc
    obtain ⟨hki, hkj⟩ := hc
    obtain ⟨y, w, hyw, hy, hw, -, -⟩ := two_points (h.cyc.valid k) hk
    obtain ⟨-, y0, hyin⟩ := (h.memK k y).1 hy
    obtain ⟨-, w0, hwin⟩ := (h.memK k w).1 hw
    have par : ∀ {m m' : ℕ}, Opposite (seqOf L m) (seqOf L m') → (seqOf L m).cross (seqOf L k) = 0 := by
      intro m m' ho
      by_contra hc
      exact hyw (inter_eq hc (h.on_line ho hyin) y0 (h.on_line ho hwin) w0)
    have d1 := h.distinct_of_ne hki (par ho)
    have d2 := h.distinct_of_ne hkj (par ho.symm)
    obtain ⟨s, hs, hji⟩ := ho
    have : (seqOf L j).ndot (seqOf L k) = -(s * (seqOf L i).ndot (seqOf L k)) := by
      rw [hji]; simp only [Geo.ndot, Geo.smul, Geo.neg]; ring
    rw [this] at d2
    nlinarith

end DiskEdges

end Hyp
end Flat
