import Verif.Lemmas.HalfSpaceSets

/-!
# Canonical descriptions of convex sets

Helper lemmas about `Verif.Model.HyperbolicPolygon`: sets with the same points have the same description up to positive multiples of the equations.
-/

namespace Flat
namespace Hyp

variable {K F : Type} [Field K] [LinearOrder K] [IsStrictOrderedRing K] [Field F] [LinearOrder F] [IsStrictOrderedRing F]

/-- The same half space with a possibly different equation. -/
def SameHalf (g h : Geo K) : Prop := ∃ t, 0 < t ∧ h = g.smul t

theorem SameHalf.symm {g h : Geo K} (hs : SameHalf g h) : SameHalf h g := by
  obtain ⟨t, ht, rfl⟩ := hs
  refine ⟨t⁻¹, inv_pos.mpr ht, ?_⟩
  have := ht.ne'
  ext <;> simp [Geo.smul, inv_mul_cancel_left₀ this]

theorem halfSpaceLt_congr {g h k : Geo K} (ph : h.Proper) (pg : g.Proper) (hs : SameHalf g k) (hl : halfSpaceLt h g = true) : halfSpaceLt h k = true := by
  obtain ⟨t, ht, rfl⟩ := hs
  have pk : (g.smul t).Proper := by
    rcases pg with h | h
    · exact .inl (mul_ne_zero ht.ne' h)
    · exact .inr (mul_ne_zero ht.ne' h)
  rw [halfSpaceLt_iff ph pg] at hl
  rw [halfSpaceLt_iff ph pk]
  have hL : (g.smul t).Left ↔ g.Left := by
    simp only [Geo.Left, Geo.smul, mul_neg_iff, ht, ht.not_gt, true_and, false_and, or_false, mul_eq_zero, ht.ne', false_or]
  have hc : h.cross (g.smul t) = t * h.cross g := by simp only [Geo.cross, Geo.smul]; ring
  rw [DirLt, hL, hc]
  rcases hl with (h1 | ⟨h1, h2⟩) | ⟨h1, s, s0, hb, hc', ha⟩
  · exact .inl (.inl h1)
  · exact .inl (.inr ⟨h1, mul_pos ht h2⟩)
  · refine .inr ⟨h1, t * s, mul_pos ht s0, ?_, ?_, ?_⟩
    · simp only [Geo.smul, hb]; ring
    · simp only [Geo.smul, hc']; ring
    · simp only [Geo.smul]; nlinarith

/-- Sorted lists with the same half spaces agree. -/
theorem forall₂_of_sorted : ∀ {l m : List (Geo K)}, (∀ g ∈ l, g.Proper) → (∀ g ∈ m, g.Proper) → l.Pairwise (fun g h => halfSpaceLt g h = true) → m.Pairwise (fun g h => halfSpaceLt g h = true) →
    (∀ g ∈ l, ∃ h ∈ m, SameHalf g h) → (∀ h ∈ m, ∃ g ∈ l, SameHalf h g) → List.Forall₂ SameHalf l m := by
  intro l
  induction l with
  | nil =>
    intro m _ _ _ _ _ h2
    match m with
    | [] => exact .nil
    | b :: m => obtain ⟨_, h, -⟩ := h2 b (by simp); cases h
  | cons a l ih =>
    intro m pl pm sl sm h1 h2
    match m with
    | [] => obtain ⟨_, h, -⟩ := h1 a (by simp); cases h
    | b :: m =>
      rw [List.pairwise_cons] at sl sm
      have pa := pl a (by simp)
      have pb := pm b (by simp)
      have ia := halfSpaceLt_irrefl pa
      have ib := halfSpaceLt_irrefl pb
      have hab : SameHalf a b := by
        obtain ⟨b', hb', e1⟩ := h1 a (by simp)
        rcases List.mem_cons.mp hb' with rfl | hb'
        · exact e1
        exfalso
        have l1 := halfSpaceLt_congr pb (pm b' (List.mem_cons_of_mem _ hb')) e1.symm (sm.1 b' hb')
        obtain ⟨a', ha', e2⟩ := h2 b (by simp)
        rcases List.mem_cons.mp ha' with rfl | ha'
        · have := halfSpaceLt_congr pb pa e2.symm l1
          rw [ib] at this; cases this
        · have l2 := halfSpaceLt_congr pa (pl a' (List.mem_cons_of_mem _ ha')) e2.symm (sl.1 a' ha')
          have := halfSpaceLt_trans pa pb pa l2 l1
          rw [ia] at this; cases this
      refine .cons hab (ih (fun g hg => pl g (List.mem_cons_of_mem _ hg)) (fun g hg => pm g (List.mem_cons_of_mem _ hg)) sl.2 sm.2 (fun g hg => ?_) (fun h hh => ?_))
      · obtain ⟨h, hh, e⟩ := h1 g (List.mem_cons_of_mem _ hg)
        rcases List.mem_cons.mp hh with rfl | hh
        · have l1 := halfSpaceLt_congr pa (pl g (List.mem_cons_of_mem _ hg)) e (sl.1 g hg)
          have := halfSpaceLt_congr pa pb hab.symm l1
          rw [ia] at this; cases this
        · exact ⟨h, hh, e⟩
      · obtain ⟨g, hg, e⟩ := h2 h (List.mem_cons_of_mem _ hh)
        rcases List.mem_cons.mp hg with rfl | hg
        · have l1 := halfSpaceLt_congr pb (pm h (List.mem_cons_of_mem _ hh)) e (sm.1 h hh)
          have := halfSpaceLt_congr pb pa hab l1
          rw [ib] at this; cases this
        · exact ⟨g, hg, e⟩

/-- A list of half spaces that describes a set with an interior without redundancies. -/
structure FullList (l : List (Geo K)) : Prop where
  ne : l ≠ []
  sorted : l.Pairwise fun g h => halfSpaceLt g h = true
  inner : ∃ x : K × K, x.1 * x.1 + x.2 * x.2 < 1 ∧ ∀ g ∈ l, 0 < g.val x
  valid : ∀ g ∈ l, g.Valid
  need : ∀ g ∈ l, ∃ x : K × K, InDisk x ∧ g.val x < 0 ∧ ∀ h ∈ l, h ≠ g → 0 ≤ h.val x

theorem exists_inside {g : Geo K} (hg : g.Valid) : ∃ w : K × K, w.1 * w.1 + w.2 * w.2 < 1 ∧ 0 < g.val w := by
  obtain ⟨y, -, y0, -, yf⟩ := anElement_ok hg
  obtain ⟨ε, h1, -, h2⟩ := small_finite yf (g.b, g.c)
  refine ⟨shift y (g.b, g.c) ε, h2 ε h1.le le_rfl, ?_⟩
  have hn := hg.proper.norm
  have y0' : g.val y = 0 := y0
  rw [val_shift, y0', zero_add]
  exact mul_pos h1 hn

/-- Every half space of a description without redundancies appears in any other such description. -/
theorem FullList.match {l m : List (Geo K)} (hl : FullList l) (hm : FullList m) (same : ∀ z : K × K, InDisk z → ((∀ g ∈ l, 0 ≤ g.val z) ↔ ∀ g ∈ m, 0 ≤ g.val z)) : ∀ g ∈ l, ∃ h ∈ m, SameHalf g h := by
  intro g hg
  obtain ⟨x, xf, xin⟩ := hl.inner
  obtain ⟨y, yd, yg, yo⟩ := hl.need g hg
  have hx := xin g hg
  have hab : 0 < g.val x - g.val y := by linarith
  set t := g.val x / (g.val x - g.val y) with ht
  have t0 : 0 < t := div_pos hx hab
  have t1 : t < 1 := by rw [ht, div_lt_one hab]; linarith
  have hv : ∀ h : Geo K, h.val (shift x (y.1 - x.1, y.2 - x.2) t) = (1 - t) * h.val x + t * h.val y := fun h => by simp only [Geo.val, shift]; ring
  have mf := shift_finite xf yd t0.le t1
  have mg : g.val (shift x (y.1 - x.1, y.2 - x.2) t) = 0 := by
    rw [hv, ht]
    field_simp
    ring
  have mo : ∀ h ∈ l, h ≠ g → 0 < h.val (shift x (y.1 - x.1, y.2 - x.2) t) := by
    intro h hh hne
    rw [hv]
    have h1 := mul_pos (sub_pos.mpr t1) (xin h hh)
    have h2 := mul_nonneg t0.le (yo h hh hne)
    linarith
  generalize shift x (y.1 - x.1, y.2 - x.2) t = p at *
  have pl : ∀ h ∈ l, 0 ≤ h.val p := fun h hh => by
    by_cases he : h = g
    · rw [he, mg]
    · exact (mo h hh he).le
  have pm := (same p mf.le).1 pl
  -- some half space of the other list has the point on its boundary
  obtain ⟨h, hh, h0⟩ : ∃ h ∈ m, h.val p = 0 := by
    by_contra hno
    push Not at hno
    obtain ⟨ε, e0, he⟩ := exists_small (p := p) (d := (y.1 - x.1, y.2 - x.2)) (l := m) (fun h hh => .inl (lt_of_le_of_ne (pm h hh) (hno h hh).symm))
    obtain ⟨δ, d0, -, hd⟩ := small_finite mf (y.1 - x.1, y.2 - x.2)
    have k0 : 0 < min ε δ := lt_min e0 d0
    have := (same _ (hd _ k0.le (min_le_right _ _)).le).2 (he _ k0.le (min_le_left _ _)) g hg
    rw [val_shift, mg, show g.b * (y.1 - x.1, y.2 - x.2).1 + g.c * (y.1 - x.1, y.2 - x.2).2 = g.val y - g.val x by simp only [Geo.val]; ring] at this
    nlinarith
  refine ⟨h, hh, ?_⟩
  -- the boundaries are parallel
  have hcross : h.b * g.c - h.c * g.b = 0 := by
    by_contra hc
    set k := h.b * g.c - h.c * g.b with hk
    obtain ⟨ε, e0, he⟩ := exists_small (p := p) (d := (-k * g.c, k * g.b)) (l := l) (fun h' hh' => by
      by_cases e : h' = g
      · rw [e]
        exact .inr ⟨mg, le_of_eq (by ring)⟩
      · exact .inl (mo h' hh' e))
    obtain ⟨δ, d0, -, hd⟩ := small_finite mf (-k * g.c, k * g.b)
    have k0 : 0 < min ε δ := lt_min e0 d0
    have := (same _ (hd _ k0.le (min_le_right _ _)).le).1 (he _ k0.le (min_le_left _ _)) h hh
    rw [val_shift, h0, show h.b * (-k * g.c, k * g.b).1 + h.c * (-k * g.c, k * g.b).2 = -(k * k) by rw [hk]; ring] at this
    nlinarith [mul_pos k0 (mul_self_pos.mpr hc)]
  -- the equations are multiples of each other
  have hn := (hl.valid g hg).proper.norm
  set n := g.b * g.b + g.c * g.c with hnn
  set s := (h.b * g.b + h.c * g.c) / n with hs
  have sn : s * n = h.b * g.b + h.c * g.c := by rw [hs]; field_simp
  have eb : h.b = s * g.b := by
    have : n * h.b = n * (s * g.b) := by linear_combination g.c * hcross - g.b * sn + h.b * hnn
    exact mul_left_cancel₀ hn.ne' this
  have ec : h.c = s * g.c := by
    have : n * h.c = n * (s * g.c) := by linear_combination -g.b * hcross - g.c * sn + h.c * hnn
    exact mul_left_cancel₀ hn.ne' this
  have ea : h.a = s * g.a := by
    simp only [Geo.val] at h0 mg
    rw [eb, ec] at h0
    linear_combination h0 - s * mg
  have he : h = g.smul s := by ext <;> simp only [Geo.smul] <;> assumption
  refine ⟨s, ?_, he⟩
  have h1 := (same x xf.le).1 (fun k hk => (xin k hk).le) h hh
  have h2 : h.val x = s * g.val x := by rw [he]; simp only [Geo.val, Geo.smul]; ring
  rw [h2] at h1
  rcases lt_trichotomy s 0 with hs0 | hs0 | hs0
  · nlinarith
  · have := (hm.valid h hh).proper
    rw [he, hs0] at this
    simp [Geo.Proper, Geo.smul] at this
  · exact hs0

/-- The kinds of convex sets. -/
theorem reduced_cases {R : ConvexSet K} (hR : R.Reduced) : R = .empty ∨ (∃ p, R = .point p ∧ InDisk p) ∨ (R.dimension = 1 ∧ ∃ g, g.Valid ∧ R.IsEdge g) ∨ (R.dimension = 2 ∧ FullList R.halfSpaces) := by
  cases R with
  | empty => exact .inl rfl
  | point p => exact .inr (.inl ⟨p, rfl, hR⟩)
  | geodesic g => exact .inr (.inr (.inl ⟨rfl, g, hR, none, none, ⟨by simp, by simp, by simp⟩, rfl⟩))
  | segment g s e =>
    obtain ⟨h1, h2, h3⟩ := hR
    refine .inr (.inr (.inl ⟨rfl, g, h1, s, e, h2, ?_⟩))
    rcases s with _ | p <;> rcases e with _ | q
    · simp at h3
    · rfl
    · rfl
    · simp only [segmentFinal]
      rw [if_neg (fun he => absurd (congrArg g.pos he) (h2.order p rfl q rfl).ne)]
  | halfSpace g =>
    have hg : g.Valid := hR
    obtain ⟨w, wd, w0⟩ := exists_outside hg
    obtain ⟨x, xf, x0⟩ := exists_inside hg
    exact .inr (.inr (.inr ⟨rfl, by simp [ConvexSet.halfSpaces], by simp [ConvexSet.halfSpaces], ⟨x, xf, by simpa [ConvexSet.halfSpaces] using x0⟩, by simpa [ConvexSet.halfSpaces] using hg, by
      intro k hk
      simp only [ConvexSet.halfSpaces, List.mem_singleton] at hk
      subst hk
      refine ⟨w, wd, w0, fun h hh hne => absurd ?_ hne⟩
      simpa [ConvexSet.halfSpaces] using hh⟩))
  | polygon l =>
    obtain ⟨h1, h2, h3, h4⟩ := hR
    exact .inr (.inr (.inr ⟨rfl, by rintro h; simp only [ConvexSet.halfSpaces] at h; rw [h] at h1; simp at h1, h2, h3, fun g hg => (h4 g hg).1, fun g hg => (h4 g hg).2⟩))

/-- The points of a set on a geodesic. -/
theorem IsEdge.line {g : Geo K} {s e : Option (K × K)} (hN : Normal g s e) (f : K →+* F) (z : F × F) : (segmentFinal g s e).Mem f z ↔ InDisk z ∧ Between f g s e z :=
  mem_segmentFinal f (fun p hp q hq h => absurd (congrArg g.pos h) (hN.order p hp q hq).ne) z

/-- Two lines with two common points are the same. -/
theorem smul_of_two {g h : Geo K} (hg : g.Valid) (hh : h.Valid) {y w : K × K} (hne : y ≠ w) (gy : g.val y = 0) (gw : g.val w = 0) (hy : h.val y = 0) (hw : h.val w = 0) : ∃ t, t ≠ 0 ∧ h = g.smul t := by
  simp only [Geo.val] at gy gw hy hw
  have hcross : h.b * g.c - h.c * g.b = 0 := by
    by_contra hc
    apply hne
    ext
    · have : (h.b * g.c - h.c * g.b) * (y.1 - w.1) = 0 := by linear_combination g.c * (hy - hw) - h.c * (gy - gw)
      rcases mul_eq_zero.mp this with h | h
      · exact absurd h hc
      · linarith
    · have : (h.b * g.c - h.c * g.b) * (y.2 - w.2) = 0 := by linear_combination -g.b * (hy - hw) + h.b * (gy - gw)
      rcases mul_eq_zero.mp this with h | h
      · exact absurd h hc
      · linarith
  have hn := hg.proper.norm
  set n := g.b * g.b + g.c * g.c with hnn
  set s := (h.b * g.b + h.c * g.c) / n with hs
  have sn : s * n = h.b * g.b + h.c * g.c := by rw [hs]; field_simp
  have eb : h.b = s * g.b := by
    have : n * h.b = n * (s * g.b) := by linear_combination g.c * hcross - g.b * sn + h.b * hnn
    exact mul_left_cancel₀ hn.ne' this
  have ec : h.c = s * g.c := by
    have : n * h.c = n * (s * g.c) := by linear_combination -g.b * hcross - g.c * sn + h.c * hnn
    exact mul_left_cancel₀ hn.ne' this
  have ea : h.a = s * g.a := by
    rw [eb, ec] at hy
    linear_combination hy - s * gy
  refine ⟨s, fun h0 => ?_, by ext <;> simp only [Geo.smul] <;> assumption⟩
  have := hh.proper
  simp [Geo.Proper, eb, ec, h0] at this

theorem dimension_segmentFinal {g : Geo K} {s e : Option (K × K)} (hN : Normal g s e) : (segmentFinal g s e).dimension = 1 := by
  obtain ⟨h1, h2⟩ := segmentFinal_ne hN
  rcases s with _ | p <;> rcases e with _ | q <;> simp only [segmentFinal]
  · rfl
  · rfl
  · rfl
  · rw [if_neg (fun he => absurd (congrArg g.pos he) (hN.order p rfl q rfl).ne)]; rfl

theorem FullList.points {R : ConvexSet K} (hR : R.Reduced) (hl : FullList R.halfSpaces) : ∃ (x : K × K) (ε : K), 0 < ε ∧ R.Mem (RingHom.id K) x ∧ R.Mem (RingHom.id K) (x.1 + ε, x.2) ∧ R.Mem (RingHom.id K) (x.1, x.2 + ε) := by
  obtain ⟨x, xf, xin⟩ := hl.inner
  have mem := fun z => (halfSpaces_spec hR).2.2.2 K (RingHom.id K) strictMono_ringHom_id z
  obtain ⟨ε1, e1, h1⟩ := exists_small (p := x) (d := (1, 0)) (l := R.halfSpaces) (fun g hg => .inl (xin g hg))
  obtain ⟨ε2, e2, h2⟩ := exists_small (p := x) (d := (0, 1)) (l := R.halfSpaces) (fun g hg => .inl (xin g hg))
  obtain ⟨δ1, d1, -, k1⟩ := small_finite xf (1, 0)
  obtain ⟨δ2, d2, -, k2⟩ := small_finite xf (0, 1)
  have e0 : 0 < min (min ε1 ε2) (min δ1 δ2) := lt_min (lt_min e1 e2) (lt_min d1 d2)
  set ε := min (min ε1 ε2) (min δ1 δ2)
  refine ⟨x, ε, e0, (mem x).2 ⟨xf.le, fun g hg => (xin g hg).le⟩, (mem _).2 ⟨?_, fun g hg => ?_⟩, (mem _).2 ⟨?_, fun g hg => ?_⟩⟩
  · have := (k1 ε e0.le ((min_le_right _ _).trans (min_le_left _ _))).le
    simpa [InDisk, shift] using this
  · have := h1 ε e0.le ((min_le_left _ _).trans (min_le_left _ _)) g hg
    simpa [shift, map_id_geo] using this
  · have := (k2 ε e0.le ((min_le_right _ _).trans (min_le_right _ _))).le
    simpa [InDisk, shift] using this
  · have := h2 ε e0.le ((min_le_left _ _).trans (min_le_right _ _)) g hg
    simpa [shift, map_id_geo] using this

/-- Subsets do not have a larger dimension. -/
theorem dimension_mono {R S : ConvexSet K} (hR : R.Reduced) (hS : S.Reduced) (h : ∀ z, R.Mem (RingHom.id K) z → S.Mem (RingHom.id K) z) : R.dimension ≤ S.dimension := by
  have line : ∀ {T : ConvexSet K} {g : Geo K}, T.IsEdge g → ∀ z, T.Mem (RingHom.id K) z → g.val z = 0 := by
    rintro T g ⟨s, e, hN, rfl⟩ z hz
    exact ((IsEdge.line hN _ z).1 hz).2.1
  have pt : ∀ p z : K × K, (ConvexSet.point p).Mem (RingHom.id K) z → z = p := fun p z hz => hz
  rcases reduced_cases hR with rfl | ⟨p, rfl, -⟩ | ⟨dR, g, vg, hg⟩ | ⟨dR, fR⟩ <;> rcases reduced_cases hS with rfl | ⟨q, rfl, -⟩ | ⟨dS, k, vk, hk⟩ | ⟨dS, fS⟩
  · simp [ConvexSet.dimension]
  · simp [ConvexSet.dimension]
  · rw [dS]; simp [ConvexSet.dimension]
  · rw [dS]; simp [ConvexSet.dimension]
  · exact absurd (h p rfl) id
  · simp [ConvexSet.dimension]
  · rw [dS]; simp [ConvexSet.dimension]
  · rw [dS]; simp [ConvexSet.dimension]
  · obtain ⟨y, w, -, hy, -⟩ := two_points vg hg
    exact absurd (h y hy) id
  · obtain ⟨y, w, hne, hy, hw, -⟩ := two_points vg hg
    exact absurd ((pt q y (h y hy)).trans (pt q w (h w hw)).symm) hne
  · rw [dR, dS]
  · rw [dR, dS]; simp
  · obtain ⟨x, ε, -, hx, -⟩ := fR.points hR
    exact absurd (h x hx) id
  · obtain ⟨x, ε, e0, hx, hy, -⟩ := fR.points hR
    have := (pt q _ (h _ hx)).trans (pt q _ (h _ hy)).symm
    have := congrArg Prod.fst this
    simp only at this
    linarith
  · obtain ⟨x, ε, e0, hx, hy, hz⟩ := fR.points hR
    have h1 := line hk _ (h _ hx)
    have h2 := line hk _ (h _ hy)
    have h3 := line hk _ (h _ hz)
    simp only [Geo.val] at h1 h2 h3
    have hb : k.b * ε = 0 := by linear_combination h2 - h1
    have hc : k.c * ε = 0 := by linear_combination h3 - h1
    have hb := (mul_eq_zero.mp hb).resolve_right e0.ne'
    have hc := (mul_eq_zero.mp hc).resolve_right e0.ne'
    exact absurd vk.proper (by simp [Geo.Proper, hb, hc])
  · rw [dR, dS]

theorem between_smul {g : Geo K} {t : K} (ht : 0 < t) (s e : Option (K × K)) (z : K × K) : Between (RingHom.id K) (g.smul t) s e z ↔ Between (RingHom.id K) g s e z := by
  have e1 : ∀ z : K × K, (Geo.smul t g).val z = t * g.val z := fun z => by simp only [Geo.val, Geo.smul]; ring
  have e2 : ∀ z : K × K, (Geo.smul t g).pos z = t * g.pos z := fun z => by simp only [Geo.pos, Geo.smul]; ring
  simp only [Between, map_id_geo, RingHom.id_apply, e1, e2, mul_le_mul_iff_of_pos_left ht, mul_eq_zero, ht.ne', false_or]

theorem normal_smul {g : Geo K} {t : K} (ht : 0 < t) {s e : Option (K × K)} (hN : Normal (g.smul t) s e) : Normal g s e := by
  have e1 : ∀ z : K × K, (Geo.smul t g).val z = t * g.val z := fun z => by simp only [Geo.val, Geo.smul]; ring
  have e2 : ∀ z : K × K, (Geo.smul t g).pos z = t * g.pos z := fun z => by simp only [Geo.pos, Geo.smul]; ring
  obtain ⟨h1, h2, h3⟩ := hN
  simp only [e1, e2, mul_eq_zero, ht.ne', false_or, mul_lt_mul_iff_of_pos_left ht] at h1 h2 h3
  exact ⟨h1, h2, h3⟩

theorem opposite_neg (g : Geo K) : Opposite g g.neg := ⟨1, one_pos, by ext <;> simp [Geo.smul]⟩

theorem valid_neg {g : Geo K} (hg : g.Valid) : g.neg.Valid := by simpa [Geo.Valid, Geo.neg] using hg

theorem normal_unique_stop {g : Geo K} (hg : g.Valid) {s e s' e' : Option (K × K)} (h : Normal g s e) (h' : Normal g s' e')
    (hb : ∀ z, InDisk z → (Between (RingHom.id K) g s e z ↔ Between (RingHom.id K) g s' e' z)) : e = e' := by
  have ho : Opposite g.neg g := ⟨1, one_pos, by ext <;> simp [Geo.smul, Geo.neg]⟩
  exact normal_unique (valid_neg hg) (reverse_normal ho h) (reverse_normal ho h') (fun z hz => by rw [← reverse_between ho, ← reverse_between ho]; exact hb z hz)

/-- Sets with the same points are recognized as the same. -/
theorem eqSet_of_same {R S : ConvexSet K} (hR : R.Reduced) (hS : S.Reduced) (h : ∀ z, R.Mem (RingHom.id K) z ↔ S.Mem (RingHom.id K) z) : R.eqSet S = true := by
  have hd : R.dimension = S.dimension := le_antisymm (dimension_mono hR hS fun z => (h z).1) (dimension_mono hS hR fun z => (h z).2)
  rcases reduced_cases hR with rfl | ⟨p, rfl, -⟩ | ⟨dR, g, vg, s, e, hN, rfl⟩ | ⟨dR, fR⟩ <;> rcases reduced_cases hS with rfl | ⟨q, rfl, -⟩ | ⟨dS, k, vk, s', e', hN', rfl⟩ | ⟨dS, fS⟩ <;>
    first
    | (exfalso; rw [dR, dS] at hd; omega)
    | (exfalso; rw [dR] at hd; simp [ConvexSet.dimension] at hd; done)
    | (exfalso; rw [dS] at hd; simp [ConvexSet.dimension] at hd; done)
    | (exfalso; simp [ConvexSet.dimension] at hd; done)
    | skip
  · rfl
  · have : p = q := (h p).1 rfl
    simp [ConvexSet.eqSet, this]
  · obtain ⟨y, w, hne, hy, hw, -⟩ := two_points vg ⟨s, e, hN, rfl⟩
    have line : ∀ {g : Geo K} {s e : Option (K × K)}, Normal g s e → ∀ z, (segmentFinal g s e).Mem (RingHom.id K) z → g.val z = 0 := fun hN z hz => ((IsEdge.line hN _ z).1 hz).2.1
    obtain ⟨t, t0, rfl⟩ := smul_of_two vg vk hne (line hN y hy) (line hN w hw) (line hN' y ((h y).1 hy)) (line hN' w ((h w).1 hw))
    have hb : ∀ z, InDisk z → (Between (RingHom.id K) g s e z ↔ Between (RingHom.id K) (g.smul t) s' e' z) := fun z hz => by
      have := h z
      rw [IsEdge.line hN, IsEdge.line hN'] at this
      simpa [hz] using this
    have heq : g.eq (g.smul t) false = true := (C51_geodesic_eq vg vk false).2 ⟨t, t0, by simp, rfl⟩
    have hcase : (g.eq (g.smul t) true = true ∧ s = s' ∧ e = e') ∨ (g.eq (g.smul t) true = false ∧ s = e' ∧ e = s') := by
      rcases lt_or_gt_of_ne t0 with ht | ht
      · have ho : Opposite g (g.smul t) := ⟨-t, by linarith, by ext <;> simp [Geo.smul, Geo.neg]⟩
        have hN2 := reverse_normal ho hN'
        have hb2 : ∀ z, InDisk z → (Between (RingHom.id K) g s e z ↔ Between (RingHom.id K) g e' s' z) := fun z hz => by rw [hb z hz, reverse_between ho]
        refine .inr ⟨?_, normal_unique vg hN hN2 hb2, normal_unique_stop vg hN hN2 hb2⟩
        rw [← Bool.not_eq_true, geo_eq_iff vg vk]
        rintro ⟨u, u0, he⟩
        have b1 : t * g.b = u * g.b := congrArg Geo.b he
        have c1 : t * g.c = u * g.c := congrArg Geo.c he
        rcases vg.proper with h | h
        · have := mul_right_cancel₀ h b1; linarith
        · have := mul_right_cancel₀ h c1; linarith
      · have hN2 := normal_smul ht hN'
        have hb2 : ∀ z, InDisk z → (Between (RingHom.id K) g s e z ↔ Between (RingHom.id K) g s' e' z) := fun z hz => by rw [hb z hz, between_smul ht]
        exact .inl ⟨(geo_eq_iff vg vk).2 ⟨t, ht, rfl⟩, normal_unique vg hN hN2 hb2, normal_unique_stop vg hN hN2 hb2⟩
    rcases hcase with ⟨c1, rfl, rfl⟩ | ⟨c1, rfl, rfl⟩
    · rcases s with _ | p <;> rcases e with _ | q <;> simp only [segmentFinal]
      · simpa [ConvexSet.eqSet] using heq
      · simp [ConvexSet.eqSet, heq, c1]
      · simp [ConvexSet.eqSet, heq, c1]
      · have hpq : p ≠ q := fun he => absurd (congrArg g.pos he) (hN.order p rfl q rfl).ne
        simp only [if_neg hpq]
        simp [ConvexSet.eqSet, heq, c1]
    · rcases s with _ | p <;> rcases e with _ | q <;> simp only [segmentFinal]
      · simpa [ConvexSet.eqSet] using heq
      · simp [ConvexSet.eqSet, heq, c1]
      · simp [ConvexSet.eqSet, heq, c1]
      · have hpq : p ≠ q := fun he => absurd (congrArg g.pos he) (hN.order p rfl q rfl).ne
        rw [if_neg hpq, if_neg hpq.symm]
        simp [ConvexSet.eqSet, heq, c1]
  · have memR := fun z => (halfSpaces_spec hR).2.2.2 K (RingHom.id K) strictMono_ringHom_id z
    have memS := fun z => (halfSpaces_spec hS).2.2.2 K (RingHom.id K) strictMono_ringHom_id z
    have same : ∀ z : K × K, InDisk z → ((∀ g ∈ R.halfSpaces, 0 ≤ g.val z) ↔ ∀ g ∈ S.halfSpaces, 0 ≤ g.val z) := by
      intro z hz
      have := h z
      rw [memR, memS] at this
      simp only [hz, true_and] at this
      exact this
    have hF := forall₂_of_sorted (fun g hg => (fR.valid g hg).proper) (fun g hg => (fS.valid g hg).proper) fR.sorted fS.sorted (fR.match fS same) (fS.match fR fun z hz => (same z hz).symm)
    have heqs : ∀ {l m : List (Geo K)}, List.Forall₂ SameHalf l m → (∀ g ∈ l, g.Valid) → (∀ g ∈ m, g.Valid) → (l.zip m).all (fun x => x.1.eq x.2 true) = true := by
      intro l m hf
      induction hf with
      | nil => simp
      | cons h hf ih =>
        intro v1 v2
        simp only [List.zip_cons_cons, List.all_cons, Bool.and_eq_true]
        exact ⟨(geo_eq_iff (v1 _ (by simp)) (v2 _ (by simp))).2 h, ih (fun g hg => v1 g (List.mem_cons_of_mem _ hg)) (fun g hg => v2 g (List.mem_cons_of_mem _ hg))⟩
    have hz := heqs hF fR.valid fS.valid
    have hlen := hF.length_eq
    cases R with
    | halfSpace g =>
      cases S with
      | halfSpace k => simpa [ConvexSet.halfSpaces, ConvexSet.eqSet] using hz
      | polygon l => have := hS.1; simp only [ConvexSet.halfSpaces, List.length_singleton] at hlen; omega
      | _ => simp [ConvexSet.dimension] at dS
    | polygon l =>
      cases S with
      | halfSpace k => have := hR.1; simp only [ConvexSet.halfSpaces, List.length_singleton] at hlen; omega
      | polygon m => simpa [ConvexSet.halfSpaces, ConvexSet.eqSet] using ⟨hlen, by simpa [ConvexSet.halfSpaces] using hz⟩
      | _ => simp [ConvexSet.dimension] at dS
    | _ => simp [ConvexSet.dimension] at dR

theorem val_smul_map (f : K →+* F) (g : Geo K) (t : K) (z : F × F) : ((g.smul t).map f).val z = f t * (g.map f).val z := by
  simp only [Geo.val, Geo.smul, Geo.map, map_mul]; ring

theorem between_smul_map {f : K →+* F} (hf : StrictMono f) {g : Geo K} {t : K} (t0 : t ≠ 0) (s e : Option (K × K)) (z : F × F) :
    Between f (g.smul t) s e z ↔ if 0 < t then Between f g s e z else Between f g e s z := by
  have e1 : ((g.smul t).map f).pos z = f t * (g.map f).pos z := by simp only [Geo.pos, Geo.smul, Geo.map, map_mul]; ring
  have e2 : ∀ p : K × K, f ((g.smul t).pos p) = f t * f (g.pos p) := fun p => by rw [← map_mul]; congr 1; simp only [Geo.pos, Geo.smul]; ring
  have ft0 : f t ≠ 0 := (map_ne_zero f).mpr t0
  simp only [Between, val_smul_map, e1, e2, mul_eq_zero, ft0, false_or]
  by_cases ht : 0 < t
  · have := (pos_map hf).2 ht
    rw [if_pos ht]
    simp only [mul_le_mul_iff_of_pos_left this]
  · have := (neg_map_iff hf).2 (lt_of_le_of_ne (not_lt.mp ht) t0)
    rw [if_neg ht]
    simp only [mul_le_mul_left_of_neg this]
    exact and_congr_right fun _ => and_comm

/-- Sets that are recognized as the same have the same points. -/
theorem mem_of_eqSet {R S : ConvexSet K} (hR : R.Reduced) (hS : S.Reduced) (h : R.eqSet S = true) {f : K →+* F} (hf : StrictMono f) (z : F × F) : R.Mem f z ↔ S.Mem f z := by
  have hneg : ∀ {g k : Geo K}, g.Valid → k.Valid → g.eq k false = true → ∃ t, t ≠ 0 ∧ k = g.smul t := fun v1 v2 h => by
    obtain ⟨t, t0, -, he⟩ := (C51_geodesic_eq v1 v2 false).1 h
    exact ⟨t, t0, he⟩
  cases R <;> cases S <;> simp only [ConvexSet.eqSet, Bool.false_eq_true] at h
  · rfl
  · simp only [Bool.and_eq_true, decide_eq_true_eq] at h
    rw [Prod.ext h.1 h.2]
  · obtain ⟨t, t0, rfl⟩ := hneg hR hS h
    simp only [ConvexSet.Mem, val_smul_map, mul_eq_zero, (map_ne_zero f).mpr t0, false_or]
  · next g s e k s' e' =>
    rw [Bool.and_eq_true] at h
    obtain ⟨t, t0, rfl⟩ := hneg hR.1 hS.1 h.1
    have h2 := h.2
    simp only [ConvexSet.Mem]
    rw [between_smul_map hf t0]
    by_cases ht : 0 < t
    · rw [if_pos ((geo_eq_iff hR.1 hS.1).2 ⟨t, ht, rfl⟩)] at h2
      simp only [Bool.and_eq_true, decide_eq_true_eq] at h2
      rw [if_pos ht, h2.1, h2.2]
    · rw [if_neg (fun he => ?_)] at h2
      · simp only [Bool.and_eq_true, decide_eq_true_eq] at h2
        rw [if_neg ht, h2.1, h2.2]
      · obtain ⟨u, u0, he⟩ := (geo_eq_iff hR.1 hS.1).1 he
        have b1 : t * g.b = u * g.b := congrArg Geo.b he
        have c1 : t * g.c = u * g.c := congrArg Geo.c he
        rcases hR.1.proper with h | h
        · have := mul_right_cancel₀ h b1; exact ht (this ▸ u0)
        · have := mul_right_cancel₀ h c1; exact ht (this ▸ u0)
  · have := (geo_eq_iff hR hS).1 h
    simp only [ConvexSet.Mem, smul_mem hf this]
  · next l m =>
    simp only [Bool.and_eq_true, decide_eq_true_eq] at h
    obtain ⟨hlen, hall⟩ := h
    have key : ∀ (l m : List (Geo K)), l.length = m.length → (l.zip m).all (fun x => x.1.eq x.2 true) = true → (∀ g ∈ l, g.Valid) → (∀ g ∈ m, g.Valid) → (InAll f l z ↔ InAll f m z) := by
      intro l
      induction l with
      | nil => intro m hl _ _ _; rw [List.length_nil] at hl; rw [List.length_eq_zero_iff.mp hl.symm]
      | cons a l ih =>
        intro m hl ha v1 v2
        match m with
        | [] => simp at hl
        | b :: m =>
          simp only [List.zip_cons_cons, List.all_cons, Bool.and_eq_true] at ha
          have h1 := smul_mem hf ((geo_eq_iff (v1 a (by simp)) (v2 b (by simp))).1 ha.1) (z := z)
          have h2 := ih m (by simpa using hl) ha.2 (fun g hg => v1 g (List.mem_cons_of_mem _ hg)) (fun g hg => v2 g (List.mem_cons_of_mem _ hg))
          simp only [InAll, List.mem_cons, forall_eq_or_imp] at h2 ⊢
          rw [h1, h2]
    simp only [ConvexSet.Mem]
    rw [key l m hlen hall (fun g hg => (hR.2.2.2 g hg).1) (fun g hg => (hS.2.2.2 g hg).1)]

/-- `is_subset` decides inclusion. -/
theorem isSubset_spec {pick : Interval K → K} (hpick : PickOk pick) {shuffle : List (Geo K) → List (Geo K)} (hsh : ∀ l, (shuffle l).Perm l) {R S : ConvexSet K} (hR : R.Reduced) (hS : S.Reduced) :
    ∃ b, isSubset pick shuffle R S = .ok b ∧
      (b = true → ∀ (F : Type) [Field F] [LinearOrder F] [IsStrictOrderedRing F] (f : K →+* F), StrictMono f → ∀ z : F × F, R.Mem f z → S.Mem f z) ∧
      (b = false → ∃ z : K × K, R.Mem (RingHom.id K) z ∧ ¬S.Mem (RingHom.id K) z) := by
  by_cases hd : R.dimension < 0
  · refine ⟨true, by simp only [isSubset, if_pos hd], fun _ F _ _ _ f hf z hz => ?_, by simp⟩
    cases R <;> simp [ConvexSet.dimension] at hd
    exact absurd hz id
  by_cases hd2 : R.dimension > S.dimension
  · refine ⟨false, by simp only [isSubset, if_neg hd, if_pos hd2], by simp, fun _ => ?_⟩
    by_contra hno
    push Not at hno
    exact absurd (dimension_mono hR hS hno) (not_le.mpr hd2)
  have general : ∃ b, (do
      let self ← intersectSets pick shuffle (R.halfSpaces.map .halfSpace)
      let both ← intersectSets pick shuffle [self, S]
      pure (both.eqSet self) : Except Err Bool) = .ok b ∧
      (b = true → ∀ (F : Type) [Field F] [LinearOrder F] [IsStrictOrderedRing F] (f : K →+* F), StrictMono f → ∀ z : F × F, R.Mem f z → S.Mem f z) ∧
      (b = false → ∃ z : K × K, R.Mem (RingHom.id K) z ∧ ¬S.Mem (RingHom.id K) z) := by
    obtain ⟨h1, h2, h3, h4⟩ := halfSpaces_spec hR
    obtain ⟨R', r1, r2, r3⟩ := intersectSets_spec hpick hsh (sets := R.halfSpaces.map .halfSpace) (by
      intro T hT
      obtain ⟨g, hg, rfl⟩ := List.mem_map.mp hT
      exact h2 g hg) (by simpa using h1)
    have hRR : ∀ (F : Type) [Field F] [LinearOrder F] [IsStrictOrderedRing F] (f : K →+* F), StrictMono f → ∀ z : F × F, R'.Mem f z ↔ R.Mem f z := by
      intro F _ _ _ f hf z
      rw [r3 F f hf z, h4 F f hf z]
      constructor
      · intro hz
        obtain ⟨g, hg⟩ := List.exists_mem_of_ne_nil _ h1
        exact ⟨(hz _ (List.mem_map_of_mem hg)).1, fun g hg => (hz _ (List.mem_map_of_mem hg)).2⟩
      · rintro ⟨hd, hz⟩ T hT
        obtain ⟨g, hg, rfl⟩ := List.mem_map.mp hT
        exact ⟨hd, hz g hg⟩
    obtain ⟨T, t1, t2, t3⟩ := intersectSets_spec hpick hsh (sets := [R', S]) (by
      intro T hT
      simp only [List.mem_cons, List.not_mem_nil, or_false] at hT
      rcases hT with rfl | rfl
      · exact r2
      · exact hS) (by simp)
    refine ⟨T.eqSet R', by simp only [r1, t1, bind, Except.bind, pure, Except.pure], fun hb F _ _ _ f hf z hz => ?_, fun hb => ?_⟩
    · have := (mem_of_eqSet t2 r2 hb hf z).2 ((hRR F f hf z).2 hz)
      exact (t3 F f hf z).1 this S (by simp)
    · by_contra hno
      push Not at hno
      have : T.eqSet R' = true := eqSet_of_same t2 r2 (fun z => by
        rw [t3 K (RingHom.id K) strictMono_ringHom_id z]
        constructor
        · exact fun hz => hz R' (by simp)
        · intro hz U hU
          simp only [List.mem_cons, List.not_mem_nil, or_false] at hU
          rcases hU with rfl | rfl
          · exact hz
          · exact hno z ((hRR K (RingHom.id K) strictMono_ringHom_id z).1 hz))
      rw [this] at hb
      cases hb
  cases R with
  | empty => simp [ConvexSet.dimension] at hd
  | point p =>
    have hS4 := (halfSpaces_spec hS).2.2.2
    have hpv : ∀ g : Geo K, g.leftCoords p.1 p.2 = true ↔ 0 ≤ g.val p := fun g => by
      simp only [Geo.leftCoords, decide_eq_true_eq, Geo.val]
      generalize g.a + g.b * p.1 + g.c * p.2 = x
      rcases lt_trichotomy x 0 with h | h | h
      · simp [sgn, h, h.not_ge, h.ne]
      · simp [sgn, h]
      · simp [sgn, h, h.le, h.not_gt, h.ne']
    refine ⟨S.containsPoint p, by simp only [isSubset, if_neg hd, if_neg hd2], fun hb F _ _ _ f hf z hz => ?_, fun hb => ⟨p, rfl, fun hm => ?_⟩⟩
    · have hz : z = mapPt f p := hz
      rw [hz, hS4 F f hf]
      have hp : p.1 * p.1 + p.2 * p.2 ≤ 1 := hR
      refine ⟨?_, fun g hg => ?_⟩
      · have := hf.monotone hp
        simpa [InDisk, mapPt] using this
      · rw [val_mapPt, nonneg_map hf]
        exact (hpv g).1 (List.all_eq_true.mp hb g hg)
    · have := (hS4 K (RingHom.id K) strictMono_ringHom_id p).1 hm
      have hc : S.containsPoint p = true := List.all_eq_true.mpr fun g hg => (hpv g).2 (this.2 g hg)
      rw [hc] at hb
      cases hb
  | geodesic g => simpa only [isSubset, if_neg hd, if_neg hd2] using general
  | segment g s e => simpa only [isSubset, if_neg hd, if_neg hd2] using general
  | halfSpace g => simpa only [isSubset, if_neg hd, if_neg hd2] using general
  | polygon l => simpa only [isSubset, if_neg hd, if_neg hd2] using general

end Hyp
end Flat
