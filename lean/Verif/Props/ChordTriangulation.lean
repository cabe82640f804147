import Verif.Lemmas.ChordSplit

/-!
# C75: `triangulation()` of a polygon
-/

namespace Flat
namespace Poly
variable {K : Type} [Field K] [LinearOrder K] [IsStrictOrderedRing K]

theorem simple_relabel {f g : ℕ → Vec K} {h : ℕ → ℕ} {u : List ℕ} (hs : Simple f (u.map h)) (hg : ∀ k ∈ u, g k = f (h k)) : Simple g u where
  nodup := hs.nodup.of_map h
  len := by simpa using hs.len
  inj := fun a ha b hb e => by
    rw [hg a ha, hg b hb] at e
    exact List.inj_on_of_nodup_map hs.nodup ha hb (hs.inj _ (List.mem_map_of_mem ha) _ (List.mem_map_of_mem hb) e)
  meet := fun x hx y hy hne q hqx hqy => by
    obtain ⟨x1, x2⟩ := mem_cyc hx
    obtain ⟨y1, y2⟩ := mem_cyc hy
    have hinj : ∀ a ∈ u, ∀ b ∈ u, h a = h b → a = b := fun a ha b hb e => List.inj_on_of_nodup_map hs.nodup ha hb e
    have hne' : Prod.map h h x ≠ Prod.map h h y := by
      intro e
      apply hne
      exact Prod.ext (hinj _ x1 _ y1 (congrArg Prod.fst e)) (hinj _ x2 _ y2 (congrArg Prod.snd e))
    rw [hg _ x1, hg _ x2] at hqx
    rw [hg _ y1, hg _ y2] at hqy
    have hm : ∀ z ∈ cyc u, Prod.map h h z ∈ cyc (u.map h) := fun z hz => by
      rw [cyc_map]; exact List.mem_map_of_mem hz
    obtain ⟨a, h1, h2, h3⟩ := hs.meet _ (hm x hx) _ (hm y hy) hne' q hqx hqy
    simp only [Prod.map_fst, Prod.map_snd] at h1 h2
    obtain ⟨b, hb, rfl⟩ : ∃ b, (b = x.1 ∨ b = x.2) ∧ h b = a := by
      rcases h1 with h1 | h1
      · exact ⟨_, .inl rfl, h1.symm⟩
      · exact ⟨_, .inr rfl, h1.symm⟩
    have hbu : b ∈ u := by rcases hb with rfl | rfl <;> assumption
    refine ⟨b, hb, ?_, by rw [hg b hbu]; exact h3⟩
    rcases h2 with h2 | h2
    · exact .inl (hinj _ hbu _ y1 h2)
    · exact .inr (hinj _ hbu _ y2 h2)

/-- The data of a polygon cut along a chord. -/
structure Cut (p q r : Poly K) (g h : ℕ → ℕ) (v w : ℕ) (A B : List ℕ) : Prop where
  rot : List.range p.length ~r (v :: A ++ w :: B)
  neA : A ≠ []
  neB : B ≠ []
  mapq : (List.range q.length).map g = v :: A ++ [w]
  mapr : (List.range r.length).map h = w :: B ++ [v]
  vq : ∀ k < q.length, q.vertex k = p.vertex (g k)
  vr : ∀ k < r.length, r.vertex k = p.vertex (h k)

omit [IsStrictOrderedRing K] in
theorem Cut.symm {p q r : Poly K} {g h : ℕ → ℕ} {v w : ℕ} {A B : List ℕ} (c : Cut p q r g h v w A B) : Cut p r q h g w v B A :=
  ⟨c.rot.trans (split_rotated v w A B), c.neB, c.neA, c.mapr, c.mapq, c.vr, c.vq⟩

omit [IsStrictOrderedRing K] in
theorem Cut.length {p q r : Poly K} {g h : ℕ → ℕ} {v w : ℕ} {A B : List ℕ} (c : Cut p q r g h v w A B) :
    q.length = A.length + 2 ∧ r.length = B.length + 2 ∧ p.length = A.length + B.length + 2 := by
  have h1 := congrArg List.length c.mapq
  have h2 := congrArg List.length c.mapr
  have h3 := c.rot.perm.length_eq
  simp only [List.length_map, List.length_range, List.length_append, List.length_cons, List.length_nil] at h1 h2 h3
  omega

theorem Cut.winding {p q r : Poly K} {g h : ℕ → ℕ} {v w : ℕ} {A B : List ℕ} (c : Cut p q r g h v w A B) (x : Vec K) :
    p.winding x = q.winding x + r.winding x := by
  have e : ∀ (s : Poly K) (f : ℕ → ℕ), (∀ k < s.length, s.vertex k = p.vertex (f k)) →
      s.winding x = ((cyc ((List.range s.length).map f)).map (fun y => wind x (p.vertex y.1) (p.vertex y.2))).sum := by
    intro s f hf
    rw [winding_cyc, cyc_map, List.map_map]
    congr 1
    refine List.map_congr_left fun y hy => ?_
    obtain ⟨h1, h2⟩ := mem_cyc hy
    rw [Function.comp_apply, hf _ (List.mem_range.1 h1), hf _ (List.mem_range.1 h2)]
    rfl
  rw [e q g c.vq, e r h c.vr, c.mapq, c.mapr, winding_cyc, ((cyc_perm c.rot).map _).sum_eq, cyc_split, cyc_snoc, cyc_snoc]
  simp only [List.map_append, List.sum_append, List.map_cons, List.map_nil, List.sum_cons, List.sum_nil, add_zero]
  have := wind_swap x (p.vertex v) (p.vertex w)
  omega

theorem Cut.simple {p q r : Poly K} {g h : ℕ → ℕ} {v w : ℕ} {A B : List ℕ} (c : Cut p q r g h v w A B) (hv : p.Valid)
    (hc : Chord p.vertex (List.range p.length) v w) : Simple q.vertex (List.range q.length) := by
  refine simple_relabel (h := g) ?_ fun k hk => c.vq k (List.mem_range.1 hk)
  rw [c.mapq]
  exact (hv.isSimplePoly.rotated c.rot).split c.neA (hc.rotated c.rot)

/-- The chord is a side of the part. -/
theorem Cut.side {p q r : Poly K} {g h : ℕ → ℕ} {v w : ℕ} {A B : List ℕ} (c : Cut p q r g h v w A B) :
    q.vertex (q.length - 1) = p.vertex w ∧ q.vertex (q.length - 1 + 1) = p.vertex v := by
  have hl := c.length.1
  have hget : ∀ k (hk : k < q.length), g k = (v :: A ++ [w])[k]'(by simp; omega) := by
    intro k hk
    have : ((List.range q.length).map g)[k]? = (v :: A ++ [w])[k]? := by rw [c.mapq]
    rw [List.getElem?_eq_getElem (by simpa using hk), List.getElem?_eq_getElem (by simp; omega)] at this
    simpa using this
  constructor
  · rw [c.vq _ (by omega), hget _ (by omega)]
    congr 1
    simp [List.getElem_append, hl]
  · rw [← vertex_mod, Nat.sub_add_cancel (by omega), Nat.mod_self, c.vq 0 (by omega), hget 0 (by omega)]
    rfl

theorem Cut.valid {p q r : Poly K} {g h : ℕ → ℕ} {v w : ℕ} {A B : List ℕ} (c : Cut p q r g h v w A B) (hv : p.Valid)
    (hc : Chord p.vertex (List.range p.length) v w) {t : K} (t0 : 0 < t) (t1 : t < 1)
    (hin : p.pointPosition (p.vertex v + t • (p.vertex w - p.vertex v)) = .interior) : q.Valid := by
  refine part_valid hv (c.simple hv hc) (c.symm.simple hv hc.symm) c.winding (k := q.length - 1) ?_ hin
  refine ⟨1 - t, by linarith, by linarith, ?_⟩
  unfold edge
  rw [c.side.1, c.side.2]
  ext <;> simp <;> ring

theorem Cut.boundary {p q r : Poly K} {g h : ℕ → ℕ} {v w : ℕ} {A B : List ℕ} (c : Cut p q r g h v w A B) (hv : p.Valid) (hq : q.Valid)
    (hr : r.Valid) {x : Vec K} (hx : ∃ i, x ∈ p.side i) : (∃ i, x ∈ q.side i) ∨ ∃ i, x ∈ r.side i := by
  have e : ∀ (s : Poly K) (f : ℕ → ℕ), s.Valid → (∀ k < s.length, s.vertex k = p.vertex (f k)) → ∀ y ∈ cyc ((List.range s.length).map f),
      x ∈ segPts (p.vertex y.1, p.vertex y.2) → ∃ i, x ∈ s.side i := by
    intro s f hs hf y hy hxy
    rw [cyc_map] at hy
    obtain ⟨z, hz, rfl⟩ := List.mem_map.1 hy
    obtain ⟨h1, h2⟩ := mem_cyc hz
    refine (onBd_range hs).1 ⟨z, hz, ?_⟩
    rw [hf _ (List.mem_range.1 h1), hf _ (List.mem_range.1 h2)]
    exact hxy
  obtain ⟨y, hy, hxy⟩ := (onBd_range hv).2 hx
  have hy' := (cyc_perm c.rot).mem_iff.1 hy
  rw [cyc_split, List.mem_append] at hy'
  rcases hy' with hy' | hy'
  · refine .inl (e q g hq c.vq y ?_ hxy)
    rw [c.mapq, cyc_snoc]
    exact List.mem_append_left _ hy'
  · refine .inr (e r h hr c.vr y ?_ hxy)
    rw [c.mapr, cyc_snoc]
    exact List.mem_append_left _ hy'

omit [IsStrictOrderedRing K] in
/-- The parts that `triangulation()` cuts a polygon into. -/
theorem cut_chord (p : Poly K) {x : ℕ × ℕ} (h1 : x.1 + 2 ≤ x.2) (h2 : x.2 < p.length) (h3 : ¬ (x.1 = 0 ∧ x.2 + 1 = p.length)) :
    Cut p (p.chordPart x) (p.chordRest x) (fun k => k + x.1) (restIndex p.length x.2) x.1 x.2
      (List.range' (x.1 + 1) (x.2 - x.1 - 1)) (List.range' (x.2 + 1) (p.length - x.2 - 1) ++ List.range x.1) := by
  obtain ⟨i, j⟩ := x
  dsimp only at h1 h2 h3 ⊢
  have lq : List.length (p.chordPart (i, j)) = j + 1 - i := by
    simp only [chordPart, List.length_drop, List.length_take]; omega
  have lr : List.length (p.chordRest (i, j)) = p.length - j + (i + 1) := by
    simp only [chordRest, List.length_append, List.length_drop, List.length_take]; omega
  have e0 : i :: List.range' (i + 1) (j - i - 1) = List.range' i (j - i) := by
    rw [show j - i = (j - i - 1) + 1 by omega, List.range'_succ]; rfl
  have e1 : j :: List.range' (j + 1) (p.length - j - 1) = List.range' j (p.length - j) := by
    rw [show p.length - j = (p.length - j - 1) + 1 by omega, List.range'_succ]; rfl
  have vlt : ∀ (s : Poly K) k (hk : k < s.length), s.vertex k = s[k] := by
    intro s k hk
    unfold vertex
    rw [Nat.mod_eq_of_lt hk]
    simp [List.getD, List.getElem?_eq_getElem hk]
  refine ⟨?_, ?_, ?_, ?_, ?_, ?_, ?_⟩
  · have ha : List.range p.length = List.range i ++ List.range' i (p.length - i) := by
      have := List.range'_append (s := 0) (m := i) (n := p.length - i) (step := 1)
      rw [zero_add, one_mul, show i + (p.length - i) = p.length by omega] at this
      rw [List.range_eq_range', List.range_eq_range', this]
    have hb : i :: List.range' (i + 1) (j - i - 1) ++ j :: (List.range' (j + 1) (p.length - j - 1) ++ List.range i) =
        List.range' i (p.length - i) ++ List.range i := by
      rw [e0, ← List.cons_append, e1, ← List.append_assoc]
      congr 1
      have := List.range'_append (s := i) (m := j - i) (n := p.length - j) (step := 1)
      rwa [one_mul, show i + (j - i) = j by omega, show j - i + (p.length - j) = p.length - i by omega] at this
    rw [ha, hb]
    exact List.isRotated_append
  · intro h
    have := congrArg List.length h
    simp at this
    omega
  · intro h
    have := congrArg List.length h
    simp at this
    omega
  · rw [lq, e0]
    refine List.ext_getElem (by simp; omega) fun k k1 k2 => ?_
    simp only [List.length_map, List.length_range] at k1
    rw [List.getElem_map, List.getElem_range, List.getElem_append]
    split_ifs with hk
    · simp; omega
    · simp at hk ⊢; omega
  · rw [lr, ← List.cons_append, e1]
    refine List.ext_getElem (by simp) fun k k1 k2 => ?_
    simp only [List.length_map, List.length_range] at k1
    rw [List.getElem_map, List.getElem_range, List.getElem_append, restIndex]
    split_ifs with hk hk' hk'
    · rw [List.getElem_append_left (by simpa using hk)]
      simp; omega
    · simp at hk'; omega
    · rw [List.getElem_append_right (by simp; omega)]
      simp
    · simp at hk' ⊢; omega
  · intro k hk
    rw [vlt _ _ hk, vlt p (k + i) (by omega)]
    simp only [chordPart, List.getElem_drop, List.getElem_take]
    congr 1; omega
  · intro k hk
    rw [vlt _ _ hk]
    simp only [chordRest, List.getElem_append, List.length_drop, restIndex]
    split_ifs with hk'
    · rw [vlt p (k + j) (by omega), List.getElem_drop]
      congr 1; omega
    · rw [vlt p (k - (p.length - j)) (by omega), List.getElem_take]

/-- A point on a chord. -/
def chordPt (p : Poly K) (x : ℕ × ℕ) (t : K) : Vec K := p.vertex x.1 + t • (p.vertex x.2 - p.vertex x.1)

theorem Cut.perm {p q r : Poly K} {g h : ℕ → ℕ} {v w : ℕ} {A B : List ℕ} (c : Cut p q r g h v w A B) {Tq Tr : List Triple}
    {dq dr : List (ℕ × ℕ)} (hq : List.Perm (Tq.flatMap tEdges) (cyc (List.range q.length) ++ dq ++ dq.map Prod.swap))
    (hr : List.Perm (Tr.flatMap tEdges) (cyc (List.range r.length) ++ dr ++ dr.map Prod.swap)) :
    List.Perm ((Tq.map (fun t => (g t.1, g t.2.1, g t.2.2)) ++ Tr.map (fun t => (h t.1, h t.2.1, h t.2.2))).flatMap tEdges)
      (cyc (List.range p.length) ++ ((v, w) :: (dq.map (Prod.map g g) ++ dr.map (Prod.map h h))) ++
        ((v, w) :: (dq.map (Prod.map g g) ++ dr.map (Prod.map h h))).map Prod.swap) := by
  have e : ∀ (T : List Triple) (f : ℕ → ℕ), (T.map (fun t => (f t.1, f t.2.1, f t.2.2))).flatMap tEdges = (T.flatMap tEdges).map (Prod.map f f) := by
    intro T f
    rw [List.flatMap_map, List.map_flatMap]
    rfl
  have es : ∀ (d : List (ℕ × ℕ)) (f : ℕ → ℕ), (d.map Prod.swap).map (Prod.map f f) = (d.map (Prod.map f f)).map Prod.swap := by
    intro d f
    rw [List.map_map, List.map_map]
    rfl
  have h1 := hq.map (Prod.map g g)
  have h2 := hr.map (Prod.map h h)
  rw [List.map_append, List.map_append, ← cyc_map, c.mapq, cyc_snoc, es] at h1
  rw [List.map_append, List.map_append, ← cyc_map, c.mapr, cyc_snoc, es] at h2
  have h3 := cyc_perm c.rot
  rw [cyc_split] at h3
  rw [List.flatMap_append, e, e]
  refine (h1.append h2).trans (List.Perm.symm ?_)
  refine ((h3.append_right _).append_right _).trans ?_
  rw [← Multiset.coe_eq_coe]
  simp only [← Multiset.coe_add, List.map_cons, List.map_append, ← Multiset.cons_coe, Prod.swap_prod_mk, ← Multiset.singleton_add,
    Multiset.coe_nil, add_zero]
  abel

/-- What is shown about the chords by induction. -/
structure Chords (p : Poly K) (ds : List (ℕ × ℕ)) (T : List Triple) : Prop where
  run : p.triangulation = .ok ds
  len : ds.length + 3 = p.length
  lenT : T.length + 2 = p.length
  lt : ∀ x ∈ ds, x.1 < p.length ∧ x.2 < p.length
  inside : ∀ x ∈ ds, ∀ t : K, 0 < t → t < 1 → p.pointPosition (p.chordPt x t) = .interior
  apart : ds.Pairwise (fun x y => ∀ s t : K, 0 < s → s < 1 → 0 < t → t < 1 → p.chordPt x s ≠ p.chordPt y t)
  perm : List.Perm (T.flatMap tEdges) (cyc (List.range p.length) ++ ds ++ ds.map Prod.swap)
  pos : ∀ t ∈ T, 0 < ori 1 (p.vertex t.1) (p.vertex t.2.1) (p.vertex t.2.2)

omit [IsStrictOrderedRing K] in
theorem triangulation_step {p : Poly K} (h3 : 3 < p.length) {x : ℕ × ℕ} (hx : p.findChord (chordPairs p.length) = .ok (some x)) {s t : List (ℕ × ℕ)}
    (hs : (p.chordPart x).triangulation = .ok s) (ht : (p.chordRest x).triangulation = .ok t) :
    p.triangulation = .ok (x :: (s.map (fun y => (y.1 + x.1, y.2 + x.1)) ++
      t.map (fun y => (restIndex p.length x.2 y.1, restIndex p.length x.2 y.2)))) := by
  unfold triangulation
  rw [if_neg (by omega), if_neg (by omega)]
  split
  · rename_i e he
    rw [hx] at he; cases he
  · rename_i he
    rw [hx] at he; cases he
  · rename_i y he
    rw [hx] at he
    cases he
    simp only [hs, ht, bind, Except.bind, pure, Except.pure]

omit [IsStrictOrderedRing K] in
theorem triangulation_three {p : Poly K} (h3 : p.length = 3) : p.triangulation = .ok [] := by
  unfold triangulation
  rw [if_neg (by omega), if_pos h3]

theorem exists_chords {p : Poly K} (hv : p.Valid) : ∃ ds T, Chords p ds T := by
  obtain ⟨n, hn⟩ : ∃ n, p.length = n := ⟨_, rfl⟩
  induction n using Nat.strong_induction_on generalizing p with
  | _ n ih =>
  have h3 := hv.len3
  by_cases hn3 : p.length = 3
  · -- a triangle
    obtain ⟨T, hT⟩ := hv.exists_tri
    have hl := hT.len
    rw [List.length_range, hn3] at hl
    refine ⟨[], [(0, 1, 2)], ?_, by simp [hn3], by simp [hn3], by simp, by simp, by simp, ?_, ?_⟩
    · exact triangulation_three hn3
    · rw [hn3]; decide
    · intro t ht
      rw [List.mem_singleton.1 ht]
      match p, hn3 with
      | [a, b, c], _ =>
        have := hv.area_pos
        have e := area_sum (K := K) [a, b, c]
        simp [List.range_succ, vertex] at e
        simp [vertex, ori]
        simp only [ccw, Prod.fst_sub, Prod.snd_sub] at e ⊢
        linarith
  -- a chord
  obtain ⟨x, hx, x1, x2, x3, hang, hch⟩ := findChord_total hv (by omega)
  have c := cut_chord p x1 x2 x3
  obtain ⟨ε, h0, h1⟩ := angleAt_interior hv (show x.1 < p.length by omega) hang
  obtain ⟨m, m0, m1, m2⟩ : ∃ m : K, 0 < m ∧ m < 1 ∧ m ≤ ε :=
    ⟨min ε (1 / 2), lt_min h0 one_half_pos, (min_le_right _ _).trans_lt one_half_lt_one, min_le_left _ _⟩
  have hin := h1 m m0 m2
  have hin' : p.pointPosition (p.vertex x.2 + (1 - m) • (p.vertex x.1 - p.vertex x.2)) = .interior := by
    rw [← hin]
    congr 1
    ext <;> simp <;> ring
  have hq := c.valid hv hch m0 m1 hin
  have hr := c.symm.valid hv hch.symm (by linarith) (by linarith) hin'
  obtain ⟨l1, l2, l3⟩ := c.length
  have hA : 0 < (List.range' (x.1 + 1) (x.2 - x.1 - 1)).length := List.length_pos_iff.2 c.neA
  have hB : 0 < (List.range' (x.2 + 1) (p.length - x.2 - 1) ++ List.range x.1).length := List.length_pos_iff.2 c.neB
  obtain ⟨dq, Tq, cq⟩ := ih _ (by omega) hq rfl
  obtain ⟨dr, Tr, cr⟩ := ih _ (by omega) hr rfl
  have eq : ∀ y ∈ dq, ∀ t : K, p.chordPt (y.1 + x.1, y.2 + x.1) t = (p.chordPart x).chordPt y t := by
    intro y hy t
    obtain ⟨y1, y2⟩ := cq.lt y hy
    unfold chordPt
    rw [c.vq _ y1, c.vq _ y2]
  have er : ∀ y ∈ dr, ∀ t : K, p.chordPt (restIndex p.length x.2 y.1, restIndex p.length x.2 y.2) t = (p.chordRest x).chordPt y t := by
    intro y hy t
    obtain ⟨y1, y2⟩ := cr.lt y hy
    unfold chordPt
    rw [c.vr _ y1, c.vr _ y2]
  have inq : ∀ y, (p.chordPart x).pointPosition y = .interior → p.pointPosition y = .interior := fun y hy =>
    part_interior hv hq hr c.winding (fun z hz => c.boundary hv hq hr hz) hy
  have inr : ∀ y, (p.chordRest x).pointPosition y = .interior → p.pointPosition y = .interior := fun y hy =>
    part_interior hv hr hq c.symm.winding (fun z hz => c.symm.boundary hv hr hq hz) hy
  have sq : ∀ t : K, 0 < t → t < 1 → p.chordPt x t ∈ (p.chordPart x).side ((p.chordPart x).length - 1) := by
    intro t t0 t1
    refine ⟨1 - t, by linarith, by linarith, ?_⟩
    rw [c.side.1, c.side.2]
    unfold chordPt
    ext <;> simp <;> ring
  have sr : ∀ t : K, 0 < t → t < 1 → p.chordPt x t ∈ (p.chordRest x).side ((p.chordRest x).length - 1) := by
    intro t t0 t1
    refine ⟨t, by linarith, by linarith, ?_⟩
    rw [c.symm.side.1, c.symm.side.2]
    rfl
  -- points on the chord
  have hoff : ∀ t : K, 0 < t → t < 1 → ∀ i, p.chordPt x t ∉ p.side i := by
    intro t t0 t1 i hi
    have hne : p.vertex x.2 - p.vertex x.1 ≠ 0 := by
      intro h
      have := hv.vertex_lt_inj x2 (by omega) (sub_eq_zero.1 h)
      omega
    have hmem : (i % p.length, (i % p.length + 1) % p.length) ∈ cyc (List.range p.length) := mem_cyc_range.2 ⟨Nat.mod_lt _ (by omega), rfl⟩
    rcases hch _ hmem (p.chordPt x t) ⟨t, t0.le, t1.le, rfl⟩ (by
      dsimp only
      rw [vertex_mod (p := p) (i := i % p.length + 1)]
      rw [← side_mod] at hi
      exact hi) with ⟨h, -⟩ | ⟨h, -⟩
    · have : t • (p.vertex x.2 - p.vertex x.1) = 0 := by
        unfold chordPt at h
        simpa using h
      exact t0.ne' (smul_vec_zero this hne)
    · have : (1 - t) • (p.vertex x.2 - p.vertex x.1) = 0 := by
        unfold chordPt at h
        rw [sub_smul, one_smul, sub_eq_zero]
        exact (eq_sub_of_add_eq' h).symm
      have := smul_vec_zero this hne
      linarith
  have inx : ∀ t : K, 0 < t → t < 1 → p.pointPosition (p.chordPt x t) = .interior := by
    intro t t0 t1
    rw [← hin]
    refine C61_path hv ?_
    rintro y ⟨a, a0, a1, rfl⟩ i
    have e : p.chordPt x t + a • (p.vertex x.1 + m • (p.vertex x.2 - p.vertex x.1) - p.chordPt x t) = p.chordPt x ((1 - a) * t + a * m) := by
      unfold chordPt
      ext <;> simp <;> ring
    dsimp only
    rw [e]
    rcases a0.eq_or_lt with rfl | a0
    · simpa using hoff t t0 t1 i
    · have q1 := mul_nonneg (sub_nonneg.2 a1) t0.le
      have q2 := mul_pos a0 m0
      have q3 := mul_nonneg (sub_nonneg.2 a1) (sub_nonneg.2 t1.le)
      have q4 := mul_pos a0 (sub_pos.2 m1)
      exact hoff _ (by linarith) (by nlinarith) i
  refine ⟨x :: (dq.map (fun y => (y.1 + x.1, y.2 + x.1)) ++ dr.map (fun y => (restIndex p.length x.2 y.1, restIndex p.length x.2 y.2))),
    Tq.map (fun t => (t.1 + x.1, t.2.1 + x.1, t.2.2 + x.1)) ++
      Tr.map (fun t => (restIndex p.length x.2 t.1, restIndex p.length x.2 t.2.1, restIndex p.length x.2 t.2.2)), ?_, ?_, ?_, ?_, ?_, ?_, ?_, ?_⟩
  · exact triangulation_step (by omega) hx cq.run cr.run
  · have a1 := cq.len
    have a2 := cr.len
    simp only [List.length_cons, List.length_append, List.length_map] at a1 a2 ⊢
    omega
  · have a1 := cq.lenT
    have a2 := cr.lenT
    simp only [List.length_append, List.length_map] at a1 a2 ⊢
    omega
  · intro y hy
    rcases List.mem_cons.1 hy with rfl | hy
    · exact ⟨by omega, x2⟩
    have hlt : ∀ k < List.length (p.chordPart x), k + x.1 < p.length := by
      intro k hk
      have : k + x.1 ∈ x.1 :: List.range' (x.1 + 1) (x.2 - x.1 - 1) ++ [x.2] := by
        rw [← c.mapq]; exact List.mem_map.2 ⟨k, List.mem_range.2 hk, rfl⟩
      exact List.mem_range.1 (c.rot.mem_iff.2 (mem_part1 this))
    have hlt' : ∀ k < List.length (p.chordRest x), restIndex p.length x.2 k < p.length := by
      intro k hk
      have : restIndex p.length x.2 k ∈ x.2 :: (List.range' (x.2 + 1) (p.length - x.2 - 1) ++ List.range x.1) ++ [x.1] := by
        rw [← c.mapr]; exact List.mem_map.2 ⟨k, List.mem_range.2 hk, rfl⟩
      exact List.mem_range.1 (c.rot.mem_iff.2 (mem_part2 this))
    rcases List.mem_append.1 hy with hy | hy <;> obtain ⟨z, hz, rfl⟩ := List.mem_map.1 hy
    · exact ⟨hlt _ (cq.lt z hz).1, hlt _ (cq.lt z hz).2⟩
    · exact ⟨hlt' _ (cr.lt z hz).1, hlt' _ (cr.lt z hz).2⟩
  · intro y hy t t0 t1
    rcases List.mem_cons.1 hy with rfl | hy
    · exact inx t t0 t1
    rcases List.mem_append.1 hy with hy | hy <;> obtain ⟨z, hz, rfl⟩ := List.mem_map.1 hy
    · rw [eq z hz]
      exact inq _ (cq.inside z hz t t0 t1)
    · rw [er z hz]
      exact inr _ (cr.inside z hz t t0 t1)
  · rw [List.pairwise_cons, List.pairwise_append, List.pairwise_map, List.pairwise_map]
    refine ⟨?_, ?_, ?_, ?_⟩
    · intro y hy s t s0 s1 t0 t1 he
      rcases List.mem_append.1 hy with hy | hy <;> obtain ⟨z, hz, rfl⟩ := List.mem_map.1 hy
      · rw [eq z hz] at he
        exact interior_off hq (cq.inside z hz t t0 t1) _ (he ▸ sq s s0 s1)
      · rw [er z hz] at he
        exact interior_off hr (cr.inside z hz t t0 t1) _ (he ▸ sr s s0 s1)
    · refine List.Pairwise.imp_of_mem ?_ cq.apart
      intro y z hy hz h s t s0 s1 t0 t1
      rw [eq y hy, eq z hz]
      exact h s t s0 s1 t0 t1
    · refine List.Pairwise.imp_of_mem ?_ cr.apart
      intro y z hy hz h s t s0 s1 t0 t1
      rw [er y hy, er z hz]
      exact h s t s0 s1 t0 t1
    · intro y hy z hz s t s0 s1 t0 t1 he
      obtain ⟨y', hy', rfl⟩ := List.mem_map.1 hy
      obtain ⟨z', hz', rfl⟩ := List.mem_map.1 hz
      rw [eq y' hy', er z' hz'] at he
      have h5 := parts_apart hv hq hr c.winding (cq.inside y' hy' s s0 s1)
      rw [he, cr.inside z' hz' t t0 t1] at h5
      cases h5
  · exact c.perm cq.perm cr.perm
  · have hmem : ∀ {q : Poly K} {ds T}, Chords q ds T → ∀ t ∈ T, t.1 < q.length ∧ t.2.1 < q.length ∧ t.2.2 < q.length := by
      intro q ds T hc t ht
      have hl : 0 < q.length := by have := hc.len; omega
      have key : ∀ y ∈ T.flatMap tEdges, y.1 < q.length := by
        intro y hy
        have := hc.perm.mem_iff.1 hy
        simp only [List.mem_append, List.mem_map] at this
        rcases this with (h | h) | ⟨z, h, rfl⟩
        · exact (mem_cyc_range.1 h).1
        · exact (hc.lt y h).1
        · exact (hc.lt z h).2
      exact ⟨key (t.1, t.2.1) (List.mem_flatMap.2 ⟨t, ht, by simp [tEdges]⟩), key (t.2.1, t.2.2) (List.mem_flatMap.2 ⟨t, ht, by simp [tEdges]⟩),
        key (t.2.2, t.1) (List.mem_flatMap.2 ⟨t, ht, by simp [tEdges]⟩)⟩
    intro t ht
    rcases List.mem_append.1 ht with ht | ht <;> obtain ⟨z, hz, rfl⟩ := List.mem_map.1 ht
    · obtain ⟨a1, a2, a3⟩ := hmem cq z hz
      have := cq.pos z hz
      rwa [c.vq _ a1, c.vq _ a2, c.vq _ a3] at this
    · obtain ⟨a1, a2, a3⟩ := hmem cr z hz
      have := cr.pos z hz
      rwa [c.vr _ a1, c.vr _ a2, c.vr _ a3] at this

/-- **C75.** `triangulation()` of a polygon with `n` vertices does not fail.  It returns `n - 3` pairs of vertices such that the
segments between them are inside of the polygon and do not meet.  Together with the sides of the polygon they are the sides of
`n - 2` triangles with counterclockwise vertices: each of the segments is a side of two of them, each side of the polygon is a side of one of them.
A point is in the polygon if it is in one of the triangles, and no point is inside of two of them. -/
theorem C75_triangulation {p : Poly K} (hv : p.Valid) : ∃ (ds : List (ℕ × ℕ)) (T : List (ℕ × ℕ × ℕ)),
    p.triangulation = .ok ds ∧ ds.length = p.length - 3 ∧ T.length = p.length - 2 ∧
    (∀ x ∈ ds, x.1 < p.length ∧ x.2 < p.length ∧ ∀ t : K, 0 < t → t < 1 →
      p.pointPosition (p.vertex x.1 + t • (p.vertex x.2 - p.vertex x.1)) = .interior) ∧
    ds.Pairwise (fun x y => ∀ s t : K, 0 < s → s < 1 → 0 < t → t < 1 →
      p.vertex x.1 + s • (p.vertex x.2 - p.vertex x.1) ≠ p.vertex y.1 + t • (p.vertex y.2 - p.vertex y.1)) ∧
    List.Perm (T.flatMap (fun t => [(t.1, t.2.1), (t.2.1, t.2.2), (t.2.2, t.1)]))
      ((List.range p.length).map (fun i => (i, (i + 1) % p.length)) ++ ds ++ ds.map (fun x => (x.2, x.1))) ∧
    (∀ t ∈ T, 0 < ccw (p.vertex t.2.1 - p.vertex t.1) (p.vertex t.2.2 - p.vertex t.1)) ∧
    (∀ q, p.pointPosition q = .outside ↔
      ∀ t ∈ T, pointPosition [p.vertex t.1, p.vertex t.2.1, p.vertex t.2.2] q = .outside) ∧
    T.Pairwise (fun t t' => ∀ q, pointPosition [p.vertex t.1, p.vertex t.2.1, p.vertex t.2.2] q = .interior →
      pointPosition [p.vertex t'.1, p.vertex t'.2.1, p.vertex t'.2.2] q = .outside) := by
  obtain ⟨ds, T, c⟩ := exists_chords hv
  have h3 := hv.len3
  have hI : IsTri p T := ⟨⟨ds, c.perm⟩, c.pos, fun y hy => by
    have := c.perm.mem_iff.1 hy
    simp only [List.mem_append, List.mem_map] at this
    rcases this with (h | h) | ⟨z, h, rfl⟩
    · exact (mem_cyc_range.1 h).1
    · exact (c.lt y h).1
    · exact (c.lt z h).2⟩
  have h1 := c.len
  have h2 := c.lenT
  refine ⟨ds, T, c.run, by omega, by omega, fun x hx => ⟨(c.lt x hx).1, (c.lt x hx).2, c.inside x hx⟩, c.apart, ?_,
    fun t ht => by simpa [ori] using c.pos t ht, fun q => ?_, ?_⟩
  · have := c.perm
    rw [cyc_range] at this
    exact this
  · rw [position_outside_iff hv hI, region_iff]
    push Not
    exact forall₂_congr fun t ht => (triangle_position (c.pos t ht) q).2.symm
  · refine List.Pairwise.imp_of_mem ?_ (hI.disj hv)
    intro t t' ht ht' h q hq
    have ho := (triangle_position (c.pos t ht) q).1.1 hq
    rw [(triangle_position (c.pos t' ht') q).2]
    intro hi
    obtain ⟨x, hx, hx'⟩ := open_of_closed (c.pos t' ht') ho hi
    exact h x hx hx'

/-- **C75.** There is no triangulation of fewer than three vertices. -/
theorem C75_small {p : Poly K} (h : p.length < 3) : p.triangulation = .error .valueError := by
  unfold triangulation
  rw [if_pos h]

/-- An L-shaped polygon with straight angles. -/
def exElbow : Poly ℚ := [(0, 0), (1, 0), (2, 0), (2, 1), (1, 1), (1, 2), (0, 2), (0, 1)]

theorem exElbow_valid : exElbow.Valid := ((ofVertices_iff exElbow exElbow).1 (by decide +kernel)).2

/-- The L-shaped polygon is cut along five chords. -/
example : exElbow.Valid ∧ exElbow.triangulation = .ok [(0, 3), (1, 3), (4, 6), (7, 4), (0, 4)] :=
  ⟨exElbow_valid, triangulation_step (x := (0, 3)) (by decide) (by decide +kernel)
    (triangulation_step (x := (1, 3)) (by decide) (by decide +kernel) (triangulation_three rfl) (triangulation_three rfl))
    (triangulation_step (x := (1, 3)) (by decide) (by decide +kernel) (triangulation_three rfl)
      (triangulation_step (x := (1, 4)) (by decide) (by decide +kernel)
        (triangulation_step (x := (1, 3)) (by decide) (by decide +kernel) (triangulation_three rfl) (triangulation_three rfl))
        (triangulation_three rfl)))⟩

end Poly
end Flat
