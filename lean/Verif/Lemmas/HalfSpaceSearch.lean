import Verif.Lemmas.HalfPlanes

/-!
# Searching for a point in an intersection of half spaces

Helper lemmas about `Verif.Model.HyperbolicPolygon`: the randomized search for a point on the boundary of an intersection of half planes.
-/

namespace Flat
namespace Hyp

variable {K F : Type} [Field K] [LinearOrder K] [IsStrictOrderedRing K] [Field F] [LinearOrder F] [IsStrictOrderedRing F]

/-- A point with coordinates in a larger field. -/
def mapPt (f : K →+* F) (p : K × K) : F × F := (f p.1, f p.2)

omit [LinearOrder K] [IsStrictOrderedRing K] [LinearOrder F] [IsStrictOrderedRing F] in
theorem val_mapPt (f : K →+* F) (g : Geo K) (p : K × K) : (g.map f).val (mapPt f p) = f (g.val p) := by
  simp only [Geo.val, Geo.map, mapPt, map_add, map_mul]

omit [LinearOrder K] [IsStrictOrderedRing K] [LinearOrder F] [IsStrictOrderedRing F] in
theorem cross_map (f : K →+* F) (g h : Geo K) : (g.map f).cross (h.map f) = f (g.cross h) := by
  simp only [Geo.cross, Geo.map, map_sub, map_mul]

theorem nonneg_map {f : K →+* F} (hf : StrictMono f) {x : K} : 0 ≤ f x ↔ 0 ≤ x := by
  rw [← map_zero f, hf.le_iff_le]
theorem pos_map {f : K →+* F} (hf : StrictMono f) {x : K} : 0 < f x ↔ 0 < x := by
  rw [← map_zero f, hf.lt_iff_lt]
theorem neg_map_iff {f : K →+* F} (hf : StrictMono f) {x : K} : f x < 0 ↔ x < 0 := by
  rw [← map_zero f, hf.lt_iff_lt]
theorem zero_map {f : K →+* F} (hf : StrictMono f) {x : K} : f x = 0 ↔ x = 0 := by
  rw [← map_zero f, hf.injective.eq_iff]

theorem leftCoords_iff (g : Geo K) (p : K × K) : g.leftCoords p.1 p.2 = true ↔ 0 ≤ g.val p := by
  rw [leftCoords_eq, decide_eq_true_iff]; rfl

omit [LinearOrder K] [IsStrictOrderedRing K] in
theorem containsCoords_iff [DecidableEq K] (g : Geo K) (p : K × K) : (decide (g.a + g.b * p.1 + g.c * p.2 = 0)) = true ↔ g.val p = 0 := by
  rw [decide_eq_true_iff]; rfl

/-- The point of a geodesic with a given parameter. -/
def along (g : Geo K) (e : K × K) (t : K) : K × K := (e.1 + t * g.c, e.2 + t * -g.b)

omit [LinearOrder K] [IsStrictOrderedRing K] in
theorem val_along (g h : Geo K) (e : K × K) (t : K) : h.val (along g e t) = h.val e + t * h.cross g := by
  simp only [Geo.val, along, Geo.cross]; ring

theorem exists_base {g : Geo K} (hg : g.Valid) : ∃ e : K × K, g.anElement = .ok e ∧ g.val e = 0 ∧ g.c * e.1 - g.b * e.2 = 0 ∧ e.1 * e.1 + e.2 * e.2 < 1 ∧ ∀ t, g.pointAt t = .ok (along g e t) := by
  obtain ⟨e, h1, h2, h3, h4⟩ := anElement_ok hg
  exact ⟨e, h1, h2, h3, h4, fun t => by simp only [Geo.pointAt, h1, bind, Except.bind, pure, Except.pure, along]⟩

/-- Every point of a line has a parameter. -/
theorem exists_along {g : Geo K} (hg : g.Proper) {e z : K × K} (he : g.val e = 0) (hz : g.val z = 0) : ∃ t, z = along g e t := by
  have hn := hg.norm
  refine ⟨((z.1 - e.1) * g.c - (z.2 - e.2) * g.b) / (g.b * g.b + g.c * g.c), ?_⟩
  simp only [Geo.val] at he hz
  have h1 : g.b * (z.1 - e.1) + g.c * (z.2 - e.2) = 0 := by linear_combination hz - he
  have hd : g.b * g.b + g.c * g.c ≠ 0 := hn.ne'
  ext
  · simp only [along]
    rw [← sub_eq_iff_eq_add', div_mul_eq_mul_div, eq_div_iff hd]
    linear_combination g.b * h1
  · simp only [along]
    rw [← sub_eq_iff_eq_add', div_mul_eq_mul_div, eq_div_iff hd]
    linear_combination g.c * h1

theorem parametrize_along {g : Geo K} (hg : g.Valid) {e : K × K} (he : g.anElement = .ok e) (t : K) : g.parametrize (along g e t) = .ok t := by
  simp only [Geo.parametrize, he, bind, Except.bind, pure, Except.pure]
  by_cases hc : g.c = 0
  · have hb : g.b ≠ 0 := hg.proper.elim id (fun h => absurd hc h)
    rw [if_neg (by simp [hc])]
    simp only [along]
    congr 1
    field_simp
    ring
  · rw [if_pos hc]
    simp only [along]
    congr 1
    field_simp
    ring

/-- Membership in an interval. -/
def Interval.Mem (f : K →+* F) (i : Interval K) (t : F) : Prop := (∀ lo ∈ i.1, f lo ≤ t) ∧ (∀ hi ∈ i.2, t ≤ f hi)

/-- What is assumed about `an_element`: it is an element of the interval unless the interval is empty. -/
def PickOk (pick : Interval K → K) : Prop := ∀ i : Interval K, i.isEmpty = false → Interval.Mem (RingHom.id K) i (pick i)

theorem mem_above {f : K →+* F} (hf : StrictMono f) (i : Interval K) (s : K) (t : F) : (i.above s).Mem f t ↔ i.Mem f t ∧ f s ≤ t := by
  rcases i with ⟨_ | lo, hi⟩
  · simp [Interval.above, Interval.Mem, and_comm]
  · simp only [Interval.above, Interval.Mem, Option.mem_def, Option.some.injEq, forall_eq', hf.monotone.map_max, max_le_iff]
    tauto

theorem mem_below {f : K →+* F} (hf : StrictMono f) (i : Interval K) (s : K) (t : F) : (i.below s).Mem f t ↔ i.Mem f t ∧ t ≤ f s := by
  rcases i with ⟨lo, _ | hi⟩
  · simp [Interval.below, Interval.Mem]
  · simp only [Interval.below, Interval.Mem, Option.mem_def, Option.some.injEq, forall_eq', hf.monotone.map_min, le_min_iff]
    tauto

theorem not_mem_empty {f : K →+* F} (hf : StrictMono f) {i : Interval K} (h : i.isEmpty = true) (t : F) : ¬i.Mem f t := by
  rcases i with ⟨_ | lo, _ | hi⟩ <;> simp only [Interval.isEmpty, decide_eq_true_iff, Bool.false_eq_true] at h
  rintro ⟨h1, h2⟩
  have := (h1 lo rfl).trans (h2 hi rfl)
  exact absurd (hf.lt_iff_lt.mpr h) this.not_gt

omit [IsStrictOrderedRing K] [LinearOrder F] [IsStrictOrderedRing F] in
theorem along_map (f : K →+* F) (g : Geo K) (e : K × K) (t : K) : mapPt f (along g e t) = along (g.map f) (mapPt f e) (f t) := by
  simp only [mapPt, along, Geo.map, map_add, map_mul, map_neg]

/-- The constraints on a point of a line: they describe the points of the line in all the half planes. -/
theorem constrain_spec {g : Geo K} (hg : g.Valid) {e : K × K} (he : g.anElement = .ok e) (he0 : g.val e = 0) : ∀ (hs : List (Geo K)) (i : Interval K), i.isEmpty = false →
    ∃ r, constrain g hs i = .ok r ∧
      (r = none → ∀ (F : Type) [Field F] [LinearOrder F] [IsStrictOrderedRing F] (f : K →+* F), StrictMono f → ∀ t : F, i.Mem f t → ¬∀ h ∈ hs, 0 ≤ (h.map f).val (along (g.map f) (mapPt f e) t)) ∧
      (∀ j, r = some j → j.isEmpty = false ∧ ∀ t : K, j.Mem (RingHom.id K) t → i.Mem (RingHom.id K) t ∧ ∀ h ∈ hs, 0 ≤ h.val (along g e t)) := by
  intro hs
  induction hs with
  | nil =>
    intro i hi
    refine ⟨some i, rfl, by simp, ?_⟩
    rintro j hj
    cases hj
    exact ⟨hi, fun t ht => ⟨ht, by simp⟩⟩
  | cons h hs ih =>
    intro i hi
    have hpt : ∀ t, g.pointAt t = .ok (along g e t) := fun t => by simp only [Geo.pointAt, he, bind, Except.bind, pure, Except.pure, along]
    unfold constrain
    by_cases hc : g.cross h = 0
    · have hin : g.inter h = none := by
        simp only [Geo.inter]; rw [if_pos (by simpa [Geo.cross] using hc)]
      have hc' : h.cross g = 0 := by rw [cross_swap, hc, neg_zero]
      simp only [hin, hpt, bind, Except.bind, pure, Except.pure]
      by_cases hl : h.leftCoords (along g e 0).1 (along g e 0).2 = true
      · rw [hl]
        simp only [Bool.not_true, Bool.false_eq_true, if_false]
        rw [leftCoords_iff, val_along, hc', mul_zero, add_zero] at hl
        obtain ⟨r, hr, h1, h2⟩ := ih i hi
        refine ⟨r, hr, fun hn F _ _ _ f hf t ht hall => h1 hn F f hf t ht (fun k hk => hall k (List.mem_cons_of_mem _ hk)), fun j hj => ⟨(h2 j hj).1, fun t ht => ⟨((h2 j hj).2 t ht).1, fun k hk => ?_⟩⟩⟩
        rcases List.mem_cons.mp hk with rfl | hk
        · rw [val_along, hc', mul_zero, add_zero]; exact hl
        · exact ((h2 j hj).2 t ht).2 k hk
      · have hl' := hl
        rw [Bool.not_eq_true] at hl'
        rw [hl']
        simp only [Bool.not_false, if_true]
        rw [leftCoords_iff, val_along, hc', mul_zero, add_zero] at hl
        refine ⟨none, rfl, fun _ F _ _ _ f hf t ht hall => ?_, by simp⟩
        have := hall h (by simp)
        rw [val_along, cross_map, hc', map_zero, mul_zero, add_zero, val_mapPt, nonneg_map hf] at this
        exact hl this
    · obtain ⟨v, hv, v0, v1⟩ := exists_inter hc
      have hc' : h.cross g ≠ 0 := by rw [cross_swap]; simpa using hc
      obtain ⟨t, rfl⟩ := exists_along hg.proper he0 v0
      rw [hv]
      simp only [parametrize_along hg he, hpt, bind, Except.bind, pure, Except.pure]
      rw [val_along] at v1
      have eF : ∀ (F : Type) [Field F] [LinearOrder F] [IsStrictOrderedRing F] (f : K →+* F) (s : F), (h.map f).val (along (g.map f) (mapPt f e) s) = (s - f t) * f (h.cross g) := by
        intro F _ _ _ f s
        rw [val_along, cross_map, val_mapPt]
        have : f (h.val e) = - (f t * f (h.cross g)) := by
          have h5 : h.val e = -(t * h.cross g) := by linear_combination v1
          rw [h5, map_neg, map_mul]
        rw [this]; ring
      have eK : ∀ s : K, h.val (along g e s) = (s - t) * h.cross g := by
        intro s; rw [val_along]; linear_combination v1
      have hleft : h.leftCoords (along g e (t + 1)).1 (along g e (t + 1)).2 = true ↔ 0 < h.cross g := by
        rw [leftCoords_iff, eK]
        have : (t + 1 - t) * h.cross g = h.cross g := by ring
        rw [this]
        exact ⟨fun h => lt_of_le_of_ne h hc'.symm, le_of_lt⟩
      set j := if h.leftCoords (along g e (t + 1)).1 (along g e (t + 1)).2 = true then i.above t else i.below t with hj
      have hjF : ∀ (F : Type) [Field F] [LinearOrder F] [IsStrictOrderedRing F] (f : K →+* F), StrictMono f → ∀ s : F, j.Mem f s ↔ i.Mem f s ∧ 0 ≤ (h.map f).val (along (g.map f) (mapPt f e) s) := by
        intro F _ _ _ f hf s
        rw [eF]
        by_cases hp : 0 < h.cross g
        · rw [hj, if_pos (hleft.2 hp), mem_above hf]
          have hp' := (pos_map hf).2 hp
          rw [mul_nonneg_iff_of_pos_right hp', sub_nonneg]
        · rw [hj, if_neg (fun h => hp (hleft.1 h)), mem_below hf]
          have hp' : f (h.cross g) < 0 := (neg_map_iff hf).2 (lt_of_le_of_ne (not_lt.mp hp) hc')
          have : 0 ≤ (s - f t) * f (h.cross g) ↔ s ≤ f t := by
            constructor
            · intro h; by_contra hn; push Not at hn; nlinarith
            · intro h; nlinarith
          rw [this]
      by_cases hje : j.isEmpty = true
      · rw [if_pos hje]
        refine ⟨none, rfl, fun _ F _ _ _ f hf s hs hall => ?_, by simp⟩
        exact not_mem_empty hf hje s ((hjF F f hf s).2 ⟨hs, hall h (by simp)⟩)
      · rw [if_neg hje]
        rw [Bool.not_eq_true] at hje
        obtain ⟨r, hr, h1, h2⟩ := ih j hje
        refine ⟨r, hr, fun hn F _ _ _ f hf s hs hall => ?_, fun k hk => ⟨(h2 k hk).1, fun s hs => ?_⟩⟩
        · exact h1 hn F f hf s ((hjF F f hf s).2 ⟨hs, hall h (by simp)⟩) (fun k hk => hall k (List.mem_cons_of_mem _ hk))
        · obtain ⟨a, b⟩ := (h2 k hk).2 s hs
          have hid : ∀ x : Geo K, x.map (RingHom.id K) = x := fun x => rfl
          obtain ⟨c, d⟩ := (hjF K (RingHom.id K) strictMono_id s).1 a
          refine ⟨c, fun x hx => ?_⟩
          rcases List.mem_cons.mp hx with rfl | hx
          · exact d
          · exact b x hx

/-- The points of an intersection of half planes, seen over a larger field. -/
def InAll (f : K →+* F) (l : List (Geo K)) (z : F × F) : Prop := ∀ g ∈ l, 0 ≤ (g.map f).val z

/-- The search finds a point in all half planes that is on one of their boundaries, unless there is no such point in any larger field. -/
theorem findPoint_spec {pick : Interval K → K} (hpick : PickOk pick) : ∀ (rest seen : List (Geo K)) (p : K × K), (∀ g ∈ rest, g.Valid) → (∀ g ∈ seen, 0 ≤ g.val p) →
    (∃ g ∈ seen ++ rest, g.val p = 0) →
    ∃ r, findPoint pick seen rest p = .ok r ∧
      (r = none → ∀ (F : Type) [Field F] [LinearOrder F] [IsStrictOrderedRing F] (f : K →+* F), StrictMono f → ∀ z : F × F, ¬InAll f (seen ++ rest) z) ∧
      (∀ q, r = some q → (∀ g ∈ seen ++ rest, 0 ≤ g.val q) ∧ ∃ g ∈ seen ++ rest, g.val q = 0) := by
  intro rest
  induction rest with
  | nil =>
    intro seen p _ h1 h2
    refine ⟨some p, rfl, by simp, ?_⟩
    rintro q hq
    cases hq
    simp only [List.append_nil] at h2 ⊢
    exact ⟨h1, h2⟩
  | cons g rest ih =>
    intro seen p hv h1 h2
    have hg : g.Valid := hv g (by simp)
    have hv' : ∀ g ∈ rest, g.Valid := fun x hx => hv x (List.mem_cons_of_mem _ hx)
    have happ : seen ++ g :: rest = (seen ++ [g]) ++ rest := by simp
    unfold findPoint
    by_cases hl : g.leftCoords p.1 p.2 = true
    · rw [if_pos hl]
      rw [leftCoords_iff] at hl
      rw [happ] at h2 ⊢
      refine ih (seen ++ [g]) p hv' (fun x hx => ?_) h2
      rcases List.mem_append.mp hx with h | h
      · exact h1 x h
      · rw [List.mem_singleton.mp h]; exact hl
    · rw [if_neg hl]
      rw [leftCoords_iff] at hl
      push Not at hl
      obtain ⟨e, he, he0, -, -, hpt⟩ := exists_base hg
      obtain ⟨r, hr, hn, hs⟩ := constrain_spec hg he he0 seen (none, none) rfl
      simp only [hr, bind, Except.bind]
      cases r with
      | none =>
        refine ⟨none, rfl, fun _ F _ _ _ f hf z hz => ?_, by simp⟩
        -- the segment from p to z meets the boundary
        have a1 : (g.map f).val (mapPt f p) < 0 := by rw [val_mapPt]; exact (neg_map_iff hf).2 hl
        have a2 : 0 ≤ (g.map f).val z := hz g (by simp)
        set u := (g.map f).val (mapPt f p) with hu
        set v := (g.map f).val z with hv2
        have hd : 0 < v - u := by linarith
        set w : F × F := ((v * (mapPt f p).1 - u * z.1) / (v - u), (v * (mapPt f p).2 - u * z.2) / (v - u)) with hw
        have hval : ∀ k : Geo F, k.val w = (v * k.val (mapPt f p) - u * k.val z) / (v - u) := by
          intro k
          rw [eq_div_iff hd.ne']
          simp only [Geo.val, hw]
          field_simp
          ring
        have hw0 : (g.map f).val w = 0 := by rw [hval, ← hu, ← hv2]; rw [div_eq_zero_iff]; left; ring
        obtain ⟨t, ht⟩ := exists_along (hg.map hf).proper (e := mapPt f e) (by rw [val_mapPt, he0, map_zero]) hw0
        refine hn rfl F f hf t ⟨by simp, by simp⟩ (fun k hk => ?_)
        rw [← ht, hval]
        have b1 : 0 ≤ (k.map f).val (mapPt f p) := by rw [val_mapPt]; exact (nonneg_map hf).2 (h1 k hk)
        have b2 : 0 ≤ (k.map f).val z := hz k (by simp [hk])
        exact div_nonneg (by nlinarith [mul_nonneg a2 b1, mul_nonneg (neg_nonneg.mpr a1.le) b2]) hd.le
      | some i =>
        simp only [hpt]
        obtain ⟨hi, hmem⟩ := hs i rfl
        obtain ⟨-, hall⟩ := hmem (pick i) (hpick i hi)
        have hg0 : g.val (along g e (pick i)) = 0 := by
          rw [val_along, he0]; simp only [Geo.cross]; ring
        rw [happ]
        refine ih (seen ++ [g]) _ hv' (fun x hx => ?_) ⟨g, by simp, hg0⟩
        rcases List.mem_append.mp hx with h | h
        · exact hall x h
        · rw [List.mem_singleton.mp h, hg0]

end Hyp
end Flat
