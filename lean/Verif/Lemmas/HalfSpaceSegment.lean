import Verif.Lemmas.HalfSpaceRedundant

/-!
# Segments in the unit disk

Helper lemmas about `Verif.Model.HyperbolicPolygon`: the normalization of segments.
-/

namespace Flat
namespace Hyp

variable {K F : Type} [Field K] [LinearOrder K] [IsStrictOrderedRing K] [Field F] [LinearOrder F] [IsStrictOrderedRing F]

/-- The position of a point along a line. -/
def Geo.pos (g : Geo K) (z : K × K) : K := g.c * z.1 - g.b * z.2
/-- The closed unit disk. -/
def InDisk (z : K × K) : Prop := z.1 * z.1 + z.2 * z.2 ≤ 1
/-- The part of a line between two points. -/
def Between (f : K →+* F) (g : Geo K) (s e : Option (K × K)) (z : F × F) : Prop :=
  (g.map f).val z = 0 ∧ (∀ p ∈ s, f (g.pos p) ≤ (g.map f).pos z) ∧ ∀ p ∈ e, (g.map f).pos z ≤ f (g.pos p)

/-- The points of a convex set in the closed unit disk, with coordinates in a possibly larger field. -/
def ConvexSet.Mem (f : K →+* F) (z : F × F) : ConvexSet K → Prop
  | .empty => False
  | .point p => z = mapPt f p
  | .geodesic g => InDisk z ∧ (g.map f).val z = 0
  | .segment g s e => InDisk z ∧ Between f g s e z
  | .halfSpace g => InDisk z ∧ 0 ≤ (g.map f).val z
  | .polygon l => InDisk z ∧ InAll f l z

omit [LinearOrder K] [IsStrictOrderedRing K] [LinearOrder F] [IsStrictOrderedRing F] in
theorem pos_mapPt (f : K →+* F) (g : Geo K) (p : K × K) : (g.map f).pos (mapPt f p) = f (g.pos p) := by
  simp only [Geo.pos, Geo.map, mapPt, map_sub, map_mul]

omit [LinearOrder K] [IsStrictOrderedRing K] in
theorem norm_on_line {g : Geo K} {z : K × K} (hz : g.val z = 0) : (g.b * g.b + g.c * g.c) * (z.1 * z.1 + z.2 * z.2) = g.a * g.a + g.pos z * g.pos z := by
  simp only [Geo.val] at hz
  simp only [Geo.pos]
  linear_combination (g.b * z.1 + g.c * z.2 - g.a) * hz

theorem inDisk_iff {g : Geo K} (hg : g.Valid) {z : K × K} (hz : g.val z = 0) : InDisk z ↔ g.pos z * g.pos z ≤ g.b * g.b + g.c * g.c - g.a * g.a := by
  have h := norm_on_line hz
  have hn := hg.proper.norm
  unfold InDisk
  rw [← mul_le_mul_iff_of_pos_left hn, h, mul_one]
  constructor <;> intro <;> linarith

theorem finite_iff {g : Geo K} (hg : g.Valid) {z : K × K} (hz : g.val z = 0) : z.1 * z.1 + z.2 * z.2 < 1 ↔ g.pos z * g.pos z < g.b * g.b + g.c * g.c - g.a * g.a := by
  have h := norm_on_line hz
  have hn := hg.proper.norm
  rw [← mul_lt_mul_iff_of_pos_left hn, h, mul_one]
  constructor <;> intro <;> linarith

theorem parametrize_pos {g : Geo K} (hg : g.Valid) {z : K × K} (hz : g.val z = 0) : g.parametrize z = .ok (g.pos z / (g.b * g.b + g.c * g.c)) := by
  obtain ⟨e, h1, h2, h3, -⟩ := anElement_ok hg
  obtain ⟨t, rfl⟩ := exists_along hg.proper h2 hz
  rw [parametrize_along hg h1]
  congr 1
  rw [eq_div_iff hg.proper.norm.ne']
  simp only [Geo.pos, along]
  linear_combination -h3

theorem eq_of_pos {g : Geo K} (hg : g.Proper) {z w : K × K} (hz : g.val z = 0) (hw : g.val w = 0) (h : g.pos z = g.pos w) : z = w := by
  have hn := hg.norm.ne'
  simp only [Geo.val] at hz hw
  simp only [Geo.pos] at h
  ext
  · refine mul_left_cancel₀ hn ?_
    linear_combination g.b * hz - g.b * hw + g.c * h
  · refine mul_left_cancel₀ hn ?_
    linear_combination g.c * hz - g.c * hw - g.b * h

/-- A normalized segment: the end points are finite and different. -/
structure Normal (g : Geo K) (s e : Option (K × K)) : Prop where
  start : ∀ p ∈ s, g.val p = 0 ∧ finitePoint p = true
  stop : ∀ p ∈ e, g.val p = 0 ∧ finitePoint p = true
  order : ∀ p ∈ s, ∀ q ∈ e, g.pos p < g.pos q

/-- A set that is not empty and not a point. -/
def ConvexSet.IsEdge (g : Geo K) (R : ConvexSet K) : Prop := ∃ s e, Normal g s e ∧ R = segmentFinal g s e

theorem valid_map {f : K →+* F} (hf : StrictMono f) {g : Geo K} (hg : g.Valid) : (g.map f).Valid := by
  have := hf (show g.a * g.a < g.b * g.b + g.c * g.c from hg)
  simpa [Geo.Valid, Geo.map] using this

theorem mem_segmentFinal (f : K →+* F) {g : Geo K} {s e : Option (K × K)} (hne : ∀ p ∈ s, ∀ q ∈ e, p ≠ q) (z : F × F) :
    (segmentFinal g s e).Mem f z ↔ InDisk z ∧ Between f g s e z := by
  rcases s with _ | s <;> rcases e with _ | e
  · simp [segmentFinal, ConvexSet.Mem, Between]
  · simp [segmentFinal, ConvexSet.Mem]
  · simp [segmentFinal, ConvexSet.Mem]
  · simp only [segmentFinal]
    rw [if_neg (hne s rfl e rfl)]
    rfl

theorem sgn_div_pos {x n : K} (hn : 0 < n) : sgn (x / n) > 0 ↔ 0 < x := by
  unfold sgn
  simp only [div_eq_zero_iff, div_lt_iff₀ hn, zero_mul, hn.ne', or_false]
  split_ifs with h1 h2
  · simp [h1]
  · simp [h2.le]
  · simp only [gt_iff_lt, zero_lt_one, true_iff]
    exact lt_of_le_of_ne (not_lt.mp h2) (Ne.symm h1)

theorem sgn_div_neg {x n : K} (hn : 0 < n) : sgn (x / n) < 0 ↔ x < 0 := by
  unfold sgn
  simp only [div_eq_zero_iff, div_lt_iff₀ hn, zero_mul, hn.ne', or_false]
  split_ifs with h1 h2
  · simp [h1]
  · simp [h2]
  · simp [not_lt.mp h2]

/-- What `segment` returns. -/
theorem segment_spec {g : Geo K} (hg : g.Valid) {s e : Option (K × K)} (hs : ∀ p ∈ s, g.val p = 0) (he : ∀ p ∈ e, g.val p = 0) (hse : ∀ p ∈ s, ∀ q ∈ e, g.pos p ≤ g.pos q) :
    ∃ R, segment g s e = .ok R ∧ (R = .empty ∨ (∃ p, R = .point p) ∨ R.IsEdge g) ∧
      ∀ (F : Type) [Field F] [LinearOrder F] [IsStrictOrderedRing F] (f : K →+* F), StrictMono f → ∀ z : F × F, R.Mem f z ↔ InDisk z ∧ Between f g s e z := by
  have hn := hg.proper.norm
  have hM : 0 < g.b * g.b + g.c * g.c - g.a * g.a := sub_pos.mpr hg
  have hu : g.isUltraIdeal = false := by
    simp only [Geo.isUltraIdeal, decide_eq_false_iff_not, not_lt]
    exact le_of_lt hg
  have hfin : ∀ p, g.val p = 0 → (finitePoint p = true ↔ g.pos p * g.pos p < g.b * g.b + g.c * g.c - g.a * g.a) := fun p hp => by
    rw [finitePoint, decide_eq_true_iff, finite_iff hg hp]
  have hult : ∀ p, g.val p = 0 → (ultraIdealPoint p = true ↔ ¬InDisk p) := fun p _ => by
    simp only [ultraIdealPoint, InDisk, decide_eq_true_iff, not_le, gt_iff_lt]
  -- the disk over a larger field
  have hdF : ∀ (F : Type) [Field F] [LinearOrder F] [IsStrictOrderedRing F] (f : K →+* F), StrictMono f → ∀ z : F × F, (g.map f).val z = 0 → ∀ p, g.val p = 0 → finitePoint p = false → InDisk z →
      (g.map f).pos z * (g.map f).pos z ≤ f (g.pos p) * f (g.pos p) := by
    intro F _ _ _ f hf z hz p hp hpf hd
    have h1 := (inDisk_iff (valid_map hf hg) hz).1 hd
    have h2 : g.b * g.b + g.c * g.c - g.a * g.a ≤ g.pos p * g.pos p := by
      by_contra hc
      rw [not_le, ← hfin p hp] at hc
      simp [hc] at hpf
    have h3 := hf.monotone h2
    simp only [map_sub, map_add, map_mul] at h3
    exact h1.trans h3
  have hposK : ∀ p, g.val p = 0 → finitePoint p = false → g.b * g.b + g.c * g.c - g.a * g.a ≤ g.pos p * g.pos p := by
    intro p hp hpf
    by_contra hc
    rw [not_le, ← hfin p hp] at hc
    simp [hc] at hpf
  -- a point at which the line leaves the disk
  have hpt : ∀ p, g.val p = 0 → finitePoint p = false → ∀ (F : Type) [Field F] [LinearOrder F] [IsStrictOrderedRing F] (f : K →+* F), StrictMono f → ∀ z : F × F,
      (if ultraIdealPoint p then ConvexSet.empty else .point p : ConvexSet K).Mem f z ↔ InDisk z ∧ (g.map f).val z = 0 ∧ (g.map f).pos z = f (g.pos p) := by
    intro p hp hpf F _ _ _ f hf z
    by_cases hup : ultraIdealPoint p = true
    · rw [if_pos hup]
      simp only [ConvexSet.Mem, false_iff]
      rintro ⟨h1, h2, h3⟩
      have : z = mapPt f p := eq_of_pos (valid_map hf hg).proper h2 (by rw [val_mapPt, hp, map_zero]) (by rw [h3, pos_mapPt])
      rw [this] at h1
      apply (hult p hp).1 hup
      have h1' : f (p.1 * p.1 + p.2 * p.2) ≤ f 1 := by simpa [InDisk, mapPt] using h1
      exact hf.le_iff_le.mp h1'
    · rw [if_neg hup]
      have hd : InDisk p := by
        by_contra hc
        exact hup ((hult p hp).2 hc)
      simp only [ConvexSet.Mem]
      constructor
      · rintro rfl
        refine ⟨?_, by rw [val_mapPt, hp, map_zero], by rw [pos_mapPt]⟩
        have := hf.monotone hd
        simpa [InDisk, mapPt] using this
      · rintro ⟨-, h2, h3⟩
        exact eq_of_pos (valid_map hf hg).proper h2 (by rw [val_mapPt, hp, map_zero]) (by rw [h3, pos_mapPt])
  have hkind : ∀ p : K × K, (if ultraIdealPoint p then ConvexSet.empty else .point p : ConvexSet K) = .empty ∨ ∃ q, (if ultraIdealPoint p then ConvexSet.empty else .point p : ConvexSet K) = .point q := by
    intro p
    split_ifs
    · exact .inl rfl
    · exact .inr ⟨p, rfl⟩
  -- the last step
  have final : ∀ s e : Option (K × K), (∀ p ∈ s, g.val p = 0 ∧ finitePoint p = true) → (∀ p ∈ e, g.val p = 0 ∧ finitePoint p = true) → (∀ p ∈ s, ∀ q ∈ e, g.pos p ≤ g.pos q) →
      (segmentFinal g s e = .empty ∨ (∃ p, segmentFinal g s e = .point p) ∨ (segmentFinal g s e).IsEdge g) ∧
      ∀ (F : Type) [Field F] [LinearOrder F] [IsStrictOrderedRing F] (f : K →+* F), StrictMono f → ∀ z : F × F, (segmentFinal g s e).Mem f z ↔ InDisk z ∧ Between f g s e z := by
    intro s e h1 h2 h3
    by_cases hne : ∀ p ∈ s, ∀ q ∈ e, p ≠ q
    · refine ⟨.inr (.inr ⟨s, e, ⟨h1, h2, fun p hp q hq => lt_of_le_of_ne (h3 p hp q hq) fun h => hne p hp q hq (eq_of_pos hg.proper (h1 p hp).1 (h2 q hq).1 h)⟩, rfl⟩), fun F _ _ _ f hf z => mem_segmentFinal f hne z⟩
    · push Not at hne
      obtain ⟨p, hp, q, hq, rfl⟩ := hne
      rw [Option.mem_def] at hp hq
      subst hp hq
      have hsf : segmentFinal g (some p) (some p) = .point p := by simp [segmentFinal]
      rw [hsf]
      refine ⟨.inr (.inl ⟨p, rfl⟩), fun F _ _ _ f hf z => ?_⟩
      obtain ⟨v, fi⟩ := h1 p rfl
      simp only [ConvexSet.Mem, Between, Option.mem_def, Option.some.injEq, forall_eq']
      constructor
      · rintro rfl
        refine ⟨?_, by rw [val_mapPt, v, map_zero], by rw [pos_mapPt], by rw [pos_mapPt]⟩
        have hd : p.1 * p.1 + p.2 * p.2 ≤ 1 := (of_decide_eq_true fi).le
        have := hf.monotone hd
        simpa [InDisk, mapPt] using this
      · rintro ⟨-, h4, h5, h6⟩
        exact eq_of_pos (valid_map hf hg).proper h4 (by rw [val_mapPt, v, map_zero]) (by rw [pos_mapPt]; exact le_antisymm h6 h5)
  -- the end point
  have hstop : ∀ s e : Option (K × K), (∀ p ∈ s, g.val p = 0 ∧ finitePoint p = true) → (∀ p ∈ e, g.val p = 0) → (∀ p ∈ s, ∀ q ∈ e, g.pos p ≤ g.pos q) →
      ∃ R, segmentStop g s e = .ok R ∧ (R = .empty ∨ (∃ p, R = .point p) ∨ R.IsEdge g) ∧
      ∀ (F : Type) [Field F] [LinearOrder F] [IsStrictOrderedRing F] (f : K →+* F), StrictMono f → ∀ z : F × F, R.Mem f z ↔ InDisk z ∧ Between f g s e z := by
    intro s e h1 h2 h3
    rcases e with _ | e
    · exact ⟨_, rfl, final s none h1 (by simp) (by simp)⟩
    · have ve := h2 e rfl
      by_cases hfe : finitePoint e = true
      · refine ⟨segmentFinal g s (some e), by rw [segmentStop, if_pos hfe], final s (some e) h1 (fun p hp => ?_) h3⟩
        cases hp
        exact ⟨ve, hfe⟩
      · have hfe' : finitePoint e = false := by simpa using hfe
        by_cases hneg : g.pos e < 0
        · refine ⟨if ultraIdealPoint e then .empty else .point e, ?_, ?_, fun F _ _ _ f hf z => ?_⟩
          · rw [segmentStop, if_neg hfe, parametrize_pos hg ve]
            simp only [bind, Except.bind, if_pos ((sgn_div_neg hn).2 hneg), pure, Except.pure]
          · rcases hkind e with h | h
            · exact .inl h
            · exact .inr (.inl h)
          · rw [hpt e ve hfe' F f hf z]
            constructor
            · rintro ⟨a1, a2, a3⟩
              refine ⟨a1, a2, fun p hp => ?_, fun p hp => ?_⟩
              · rw [a3]; exact hf.monotone (h3 p hp e rfl)
              · cases hp; exact a3.le
            · rintro ⟨a1, a2, -, a4⟩
              refine ⟨a1, a2, ?_⟩
              have b1 := a4 e rfl
              have b2 := hdF F f hf z a2 e ve hfe' a1
              have b3 := (neg_map_iff hf).2 hneg
              refine le_antisymm b1 ?_
              by_contra hc
              rw [not_le] at hc
              nlinarith
        · refine ⟨segmentFinal g s none, ?_, (final s none h1 (by simp) (by simp)).1, fun F _ _ _ f hf z => ?_⟩
          · rw [segmentStop, if_neg hfe, parametrize_pos hg ve]
            simp only [bind, Except.bind, if_neg (mt (sgn_div_neg hn).1 hneg), pure, Except.pure]
          · rw [(final s none h1 (by simp) (by simp)).2 F f hf z]
            refine and_congr_right fun a1 => ⟨fun ⟨a2, a3, _⟩ => ⟨a2, a3, fun p hp => ?_⟩, fun ⟨a2, a3, _⟩ => ⟨a2, a3, by simp⟩⟩
            cases hp
            have b2 := hdF F f hf z a2 e ve hfe' a1
            have b3 : 0 ≤ f (g.pos e) := (nonneg_map hf).2 (not_lt.mp hneg)
            exact le_of_not_gt fun hc => by nlinarith
  -- the starting point
  have hstart : ∃ R, segmentStart g s e = .ok R ∧ (R = .empty ∨ (∃ p, R = .point p) ∨ R.IsEdge g) ∧
      ∀ (F : Type) [Field F] [LinearOrder F] [IsStrictOrderedRing F] (f : K →+* F), StrictMono f → ∀ z : F × F, R.Mem f z ↔ InDisk z ∧ Between f g s e z := by
    rcases s with _ | s
    · exact hstop none e (by simp) he (by simp)
    · have vs := hs s rfl
      by_cases hfs : finitePoint s = true
      · obtain ⟨R, h1, h2⟩ := hstop (some s) e (fun p hp => by cases hp; exact ⟨vs, hfs⟩) he hse
        exact ⟨R, by rw [← h1, segmentStart, if_pos hfs], h2⟩
      · have hfs' : finitePoint s = false := by simpa using hfs
        by_cases hpos : 0 < g.pos s
        · refine ⟨if ultraIdealPoint s then .empty else .point s, ?_, ?_, fun F _ _ _ f hf z => ?_⟩
          · rw [segmentStart, if_neg hfs, parametrize_pos hg vs]
            simp only [bind, Except.bind, if_pos ((sgn_div_pos hn).2 hpos), pure, Except.pure]
          · rcases hkind s with h | h
            · exact .inl h
            · exact .inr (.inl h)
          · rw [hpt s vs hfs' F f hf z]
            constructor
            · rintro ⟨a1, a2, a3⟩
              refine ⟨a1, a2, fun p hp => ?_, fun p hp => ?_⟩
              · cases hp; exact a3.ge
              · rw [a3]; exact hf.monotone (hse s rfl p hp)
            · rintro ⟨a1, a2, a4, -⟩
              refine ⟨a1, a2, ?_⟩
              have b1 := a4 s rfl
              have b2 := hdF F f hf z a2 s vs hfs' a1
              have b3 := (pos_map hf).2 hpos
              refine le_antisymm ?_ b1
              by_contra hc
              rw [not_le] at hc
              nlinarith
        · obtain ⟨R, h1, h2, h3⟩ := hstop none e (by simp) he (by simp)
          refine ⟨R, ?_, h2, fun F _ _ _ f hf z => ?_⟩
          · rw [segmentStart, if_neg hfs, parametrize_pos hg vs]
            simp only [bind, Except.bind, if_neg (mt (sgn_div_pos hn).1 hpos)]
            exact h1
          · rw [h3 F f hf z]
            refine and_congr_right fun a1 => ⟨fun ⟨a2, _, a3⟩ => ⟨a2, fun p hp => ?_, a3⟩, fun ⟨a2, _, a3⟩ => ⟨a2, by simp, a3⟩⟩
            cases hp
            have b2 := hdF F f hf z a2 s vs hfs' a1
            have b3 : f (g.pos s) ≤ 0 := by
              rw [← map_zero f]; exact hf.monotone (not_lt.mp hpos)
            exact le_of_not_gt fun hc => by nlinarith
  have hseg : segment g s e = segmentStart g s e := by
    clear hstart
    rcases s with _ | s <;> rcases e with _ | e
    · simp [segment, hu]
    · simp [segment, hu]
    · simp [segment, hu]
    · simp only [segment, hu, Bool.false_eq_true, if_false, parametrize_pos hg (hs s rfl), parametrize_pos hg (he e rfl), bind, Except.bind]
      rw [if_neg]
      rw [gt_iff_lt, not_lt]
      exact (div_le_div_iff_of_pos_right hn).2 (hse s rfl e rfl)
  rw [hseg]
  exact hstart

end Hyp
end Flat
