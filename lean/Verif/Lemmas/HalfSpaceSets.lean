import Verif.Lemmas.HalfSpaceLoop

/-!
# Intersections of convex sets

Helper lemmas about `Verif.Model.HyperbolicPolygon`: the half spaces of a convex set and the normalization of polygons.
-/

namespace Flat
namespace Hyp

variable {K F : Type} [Field K] [LinearOrder K] [IsStrictOrderedRing K] [Field F] [LinearOrder F] [IsStrictOrderedRing F]

theorem sub_mem {f : K →+* F} (hf : StrictMono f) {g h : Geo K} (hs : g.Sub h) {z : F × F} (hz : 0 ≤ (g.map f).val z) : 0 ≤ (h.map f).val z := by
  obtain ⟨s, s0, hb, hc, ha⟩ := hs
  have h1 := hf.monotone ha
  have h2 := (pos_map hf).2 s0
  simp only [Geo.val, Geo.map] at hz ⊢
  rw [hb, hc]
  simp only [map_mul] at h1 ⊢
  nlinarith [mul_nonneg h2.le hz]

theorem smul_mem {f : K →+* F} (hf : StrictMono f) {g h : Geo K} (hs : ∃ s, 0 < s ∧ h = g.smul s) {z : F × F} : 0 ≤ (h.map f).val z ↔ 0 ≤ (g.map f).val z := by
  obtain ⟨s, s0, rfl⟩ := hs
  have : ((g.smul s).map f).val z = f s * (g.map f).val z := by simp only [Geo.val, Geo.map, Geo.smul, map_mul]; ring
  rw [this, mul_nonneg_iff_of_pos_left ((pos_map hf).2 s0)]

theorem sortedOf_inAll {f : K →+* F} (hf : StrictMono f) {r l : List (Geo K)} (h : SortedOf halfSpaceLt (fun g h => ∃ s, 0 < s ∧ h = g.smul s) r l) (z : F × F) : InAll f r z ↔ InAll f l z := by
  constructor
  · intro hz g hg
    obtain ⟨k, hk, hs⟩ := h.all g hg
    exact (smul_mem hf hs).1 (hz k hk)
  · exact fun hz g hg => hz g (h.sub g hg)

/-- What the normalization of a polygon returns. -/
theorem normalizePolygon_spec {pick : Interval K → K} (hpick : PickOk pick) {shuffle : List (Geo K) → List (Geo K)} (hsh : ∀ l, (shuffle l).Perm l) {l : List (Geo K)} (hl : ∀ g ∈ l, g.Valid)
    (hs : l.Pairwise fun g h => halfSpaceLt g h = true) (hne : l ≠ []) :
    ∃ R, normalizePolygon pick shuffle l = .ok R ∧ R.Reduced ∧
      ∀ (F : Type) [Field F] [LinearOrder F] [IsStrictOrderedRing F] (f : K →+* F), StrictMono f → ∀ z : F × F, R.Mem f z ↔ InDisk z ∧ InAll f l z := by
  obtain ⟨t1, t2, t3⟩ := dropTrivial_spec (fun g hg => (hl g hg).proper) hs
  set m := dropTrivial l with hm
  have hmne : m ≠ [] := by
    intro h
    obtain ⟨g, l', rfl⟩ := List.exists_cons_of_ne_nil hne
    obtain ⟨k, hk, -⟩ := t3 g (by simp)
    rw [h] at hk
    cases hk
  have hml : ∀ (F : Type) [Field F] [LinearOrder F] [IsStrictOrderedRing F] (f : K →+* F), StrictMono f → ∀ z : F × F, InAll f m z ↔ InAll f l z := by
    intro F _ _ _ f hf z
    constructor
    · intro hz g hg
      obtain ⟨k, hk, hs⟩ := t3 g hg
      exact sub_mem hf hs (hz k hk)
    · exact fun hz g hg => hz g (t1.subset hg)
  have hc : CycList m := cycList_of_sorted (fun g hg => hl g (t1.subset hg)) t2
  have hval : normalizePolygon pick shuffle l = (do
      match ← euclideanBoundary pick (shuffle m) m with
      | .halfSpace boundary => do
        let l ← dropEuclidean boundary m
        dropUnitDisk l
      | other => pure other) := by
    unfold normalizePolygon
    rw [← hm]
    obtain ⟨a, m', hm'⟩ := List.exists_cons_of_ne_nil hmne
    simp only [hm']
    rfl
  rw [hval]
  obtain ⟨r, hr, ⟨g, hg, rfl, he⟩ | ⟨p, rfl, hp1, hp2, hp3⟩ | ⟨rfl, hno⟩⟩ := euclideanBoundary_spec hpick hc hmne (hsh m)
  · obtain ⟨L, d1, d2, -, d4, -, d6⟩ := dropEuclidean_spec hc (hs.sublist t1) hg he
    obtain ⟨p, q, hpq, -, -, hp, hq⟩ := he
    obtain ⟨E, hE⟩ := exists_diskEdges d4 hpq (fun k hk => hp k (d2.subset hk)) (fun k hk => hq k (d2.subset hk))
    obtain ⟨R, r1, r2, r3⟩ := hE.spec ((hs.sublist t1).sublist d2)
    refine ⟨R, by simp only [hr, bind, Except.bind, d1, r1], r2, fun F _ _ _ f hf z => ?_⟩
    rw [r3 F f hf z, ← hml F f hf z]
    exact and_congr_right fun _ => ⟨d6 F f hf z, fun hz k hk => hz k (d2.subset hk)⟩
  · refine ⟨.point p, by simp only [hr, bind, Except.bind, pure, Except.pure], hp1, fun F _ _ _ f hf z => ?_⟩
    rw [← hml F f hf z]
    constructor
    · intro hz
      have hz : z = mapPt f p := hz
      rw [hz]
      refine ⟨?_, fun k hk => ?_⟩
      · have := hf.monotone hp1
        simpa [InDisk, mapPt] using this
      · rw [val_mapPt, nonneg_map hf]; exact hp2 k hk
    · exact fun ⟨_, hz⟩ => hp3 F f hf z hz
  · refine ⟨.empty, by simp only [hr, bind, Except.bind, pure, Except.pure], trivial, fun F _ _ _ f hf z => ?_⟩
    rw [← hml F f hf z]
    exact iff_of_false id fun ⟨hd, hz⟩ => hno F f hf z hd hz

theorem inAll_append (f : K →+* F) (l m : List (Geo K)) (z : F × F) : InAll f (l ++ m) z ↔ InAll f l z ∧ InAll f m z := by
  simp only [InAll, List.mem_append]
  exact ⟨fun h => ⟨fun g hg => h g (.inl hg), fun g hg => h g (.inr hg)⟩, fun ⟨h1, h2⟩ g hg => hg.elim (h1 g) (h2 g)⟩

/-- The half spaces of a set. -/
theorem halfSpaces_spec {R : ConvexSet K} (hR : R.Reduced) : R.halfSpaces ≠ [] ∧ (∀ g ∈ R.halfSpaces, g.Valid) ∧ R.halfSpaces.Pairwise (fun g h => halfSpaceLt g h = true) ∧
    ∀ (F : Type) [Field F] [LinearOrder F] [IsStrictOrderedRing F] (f : K →+* F), StrictMono f → ∀ z : F × F, R.Mem f z ↔ InDisk z ∧ InAll f R.halfSpaces z := by
  -- sorting does not change anything
  have ord : ∀ l : List (Geo K), l ≠ [] → (∀ g ∈ l, g.Valid) → orderedSet halfSpaceLt l ≠ [] ∧ (∀ g ∈ orderedSet halfSpaceLt l, g.Valid) ∧ (orderedSet halfSpaceLt l).Pairwise (fun g h => halfSpaceLt g h = true) ∧
      ∀ (F : Type) [Field F] [LinearOrder F] [IsStrictOrderedRing F] (f : K →+* F), StrictMono f → ∀ z : F × F, InAll f (orderedSet halfSpaceLt l) z ↔ InAll f l z := by
    intro l hne hl
    have hs := orderedSet_spec halfSpaceOrder (fun g hg => (hl g hg).proper)
    refine ⟨fun h => ?_, fun g hg => hl g (hs.sub g hg), hs.sorted, fun F _ _ _ f hf z => sortedOf_inAll hf hs z⟩
    obtain ⟨a, l', rfl⟩ := List.exists_cons_of_ne_nil hne
    obtain ⟨k, hk, -⟩ := hs.all a (by simp)
    rw [h] at hk
    cases hk
  cases R with
  | empty =>
    obtain ⟨h1, h2, h3, h4⟩ := ord [⟨-4, -4, 2⟩, ⟨-4, 4, 2⟩] (by simp) (by
      intro g hg
      simp only [List.mem_cons, List.not_mem_nil, or_false] at hg
      rcases hg with rfl | rfl <;> (simp only [Geo.Valid]; norm_num))
    refine ⟨h1, h2, h3, fun F _ _ _ f hf z => ?_⟩
    refine iff_of_false id fun ⟨hd, hz⟩ => ?_
    have hz := (h4 F f hf z).1 hz
    have z1 := hz ⟨-4, -4, 2⟩ (by simp)
    have z2 := hz ⟨-4, 4, 2⟩ (by simp)
    simp only [Geo.val, Geo.map, map_neg, map_ofNat] at z1 z2
    unfold InDisk at hd
    nlinarith [mul_self_nonneg z.1]
  | point p =>
    have hp : p.1 * p.1 + p.2 * p.2 ≤ 1 := hR
    by_cases hfin : finitePoint p = true
    · have hp' : p.1 * p.1 + p.2 * p.2 < 1 := of_decide_eq_true hfin
      have he : (ConvexSet.point p).halfSpaces = orderedSet halfSpaceLt [⟨-p.1, 1, 0⟩, ⟨-p.2, 0, 1⟩, ⟨p.1 + p.2, -1, -1⟩] := by
        simp only [ConvexSet.halfSpaces, pointHalfSpaces, hfin, if_true]
      rw [he]
      obtain ⟨h1, h2, h3, h4⟩ := ord [⟨-p.1, 1, 0⟩, ⟨-p.2, 0, 1⟩, ⟨p.1 + p.2, -1, -1⟩] (by simp) (by
        intro g hg
        simp only [List.mem_cons, List.not_mem_nil, or_false] at hg
        rcases hg with rfl | rfl | rfl <;> simp only [Geo.Valid]
        · nlinarith [mul_self_nonneg p.2]
        · nlinarith [mul_self_nonneg p.1]
        · nlinarith [mul_self_nonneg (p.1 - p.2)])
      refine ⟨h1, h2, h3, fun F _ _ _ f hf z => ?_⟩
      rw [h4 F f hf z]
      simp only [ConvexSet.Mem, InAll, List.mem_cons, List.not_mem_nil, or_false, forall_eq_or_imp, forall_eq, Geo.val, Geo.map, map_neg, map_add, map_one, map_zero]
      constructor
      · rintro rfl
        refine ⟨?_, by simp [mapPt], by simp [mapPt], by simp [mapPt]⟩
        have := hf.monotone hp
        simpa [InDisk, mapPt] using this
      · rintro ⟨-, z1, z2, z3⟩
        ext
        · simp only [mapPt]; linarith
        · simp only [mapPt]; linarith
    · have hp' : p.1 * p.1 + p.2 * p.2 = 1 := le_antisymm hp (not_lt.mp fun h => hfin (decide_eq_true h))
      have he : (ConvexSet.point p).halfSpaces = orderedSet halfSpaceLt [⟨0, -p.2, p.1⟩, ⟨-p.1 * p.1 - p.2 * p.2, p.2 + p.1, p.2 - p.1⟩] := by
        simp only [ConvexSet.halfSpaces, pointHalfSpaces, hfin, Bool.false_eq_true, if_false]
      rw [he]
      have ha : -p.1 * p.1 - p.2 * p.2 = -1 := by linarith
      rw [ha]
      obtain ⟨h1, h2, h3, h4⟩ := ord [⟨0, -p.2, p.1⟩, ⟨-1, p.2 + p.1, p.2 - p.1⟩] (by simp) (by
        intro g hg
        simp only [List.mem_cons, List.not_mem_nil, or_false] at hg
        rcases hg with rfl | rfl <;> simp only [Geo.Valid] <;> nlinarith)
      refine ⟨h1, h2, h3, fun F _ _ _ f hf z => ?_⟩
      rw [h4 F f hf z]
      have hpF : f p.1 * f p.1 + f p.2 * f p.2 = 1 := by rw [← map_mul, ← map_mul, ← map_add, hp', map_one]
      simp only [ConvexSet.Mem, InAll, List.mem_cons, List.not_mem_nil, or_false, forall_eq_or_imp, forall_eq, Geo.val, Geo.map, map_neg, map_add, map_sub, map_one, map_zero]
      constructor
      · rintro rfl
        refine ⟨by simp only [InDisk, mapPt]; linarith, ?_, ?_⟩
        · simp only [mapPt]; nlinarith
        · simp only [mapPt]; nlinarith
      · rintro ⟨hd, z1, z2⟩
        unfold InDisk at hd
        generalize hx : f p.1 = x at *
        generalize hy : f p.2 = y at *
        have hsq : (z.1 - x) * (z.1 - x) + (z.2 - y) * (z.2 - y) ≤ 0 := by nlinarith
        have s1 := mul_self_nonneg (z.1 - x)
        have s2 := mul_self_nonneg (z.2 - y)
        have e1 : z.1 - x = 0 := mul_self_eq_zero.mp (by linarith)
        have e2 : z.2 - y = 0 := mul_self_eq_zero.mp (by linarith)
        ext
        · simp only [mapPt, hx]; linarith
        · simp only [mapPt, hy]; linarith
  | geodesic g =>
    have hg : g.Valid := hR
    obtain ⟨h1, h2, h3, h4⟩ := ord [g, g.neg] (by simp) (by
      intro k hk
      simp only [List.mem_cons, List.not_mem_nil, or_false] at hk
      rcases hk with rfl | rfl
      · exact hg
      · simpa [Geo.Valid, Geo.neg] using hg)
    refine ⟨h1, h2, h3, fun F _ _ _ f hf z => ?_⟩
    show _ ↔ InDisk z ∧ InAll f (orderedSet halfSpaceLt [g, g.neg]) z
    rw [h4 F f hf z]
    refine and_congr_right fun _ => ?_
    have hv : ((Geo.neg g).map f).val z = -(g.map f).val z := by simp only [Geo.val, Geo.map, Geo.neg, map_neg]; ring
    simp only [InAll, List.mem_cons, List.not_mem_nil, or_false, forall_eq_or_imp, forall_eq, hv]
    constructor
    · intro h; rw [h]; simp
    · rintro ⟨z1, z2⟩; linarith
  | segment g s e =>
    obtain ⟨hg, hN, -⟩ := hR
    have hM := fun p (hp : g.val p = 0 ∧ finitePoint p = true) => (finite_iff hg hp.1).1 (of_decide_eq_true hp.2)
    have hsv : ∀ k ∈ endpointHalfSpaces g s e, k.Valid := by
      intro k hk
      simp only [endpointHalfSpaces, List.mem_append] at hk
      rcases hk with hk | hk
      · rcases s with _ | p
        · cases hk
        · simp only [List.mem_singleton] at hk
          subst hk
          have := hM p (hN.start p rfl)
          simp only [Geo.pos] at this
          simp only [Geo.Valid]
          nlinarith [mul_self_nonneg g.a]
      · rcases e with _ | p
        · cases hk
        · simp only [List.mem_singleton] at hk
          subst hk
          have := hM p (hN.stop p rfl)
          simp only [Geo.pos] at this
          simp only [Geo.Valid]
          nlinarith [mul_self_nonneg g.a]
    have hgv : ∀ k ∈ [g, g.neg], k.Valid := by
      intro k hk
      simp only [List.mem_cons, List.not_mem_nil, or_false] at hk
      rcases hk with rfl | rfl
      · exact hg
      · simpa [Geo.Valid, Geo.neg] using hg
    obtain ⟨h1, h2, h3, h4⟩ := ord [g, g.neg] (by simp) hgv
    have o := orderedSet_spec halfSpaceOrder (fun k hk => (hsv k hk).proper)
    have m := merge2_spec halfSpaceOrder (A := orderedSet halfSpaceLt [g, g.neg]) (B := orderedSet halfSpaceLt (endpointHalfSpaces g s e)) (fun k hk => by
      rcases List.mem_append.mp hk with hk | hk
      · exact (h2 k hk).proper
      · exact (hsv k (o.sub k hk)).proper) h3 o.sorted
    have hmem : ∀ k ∈ (ConvexSet.segment g s e).halfSpaces, k ∈ orderedSet halfSpaceLt [g, g.neg] ∨ k ∈ endpointHalfSpaces g s e := by
      intro k hk
      rcases List.mem_append.mp (m.sub k hk) with hk | hk
      · exact .inl hk
      · exact .inr (o.sub k hk)
    refine ⟨fun h => ?_, fun k hk => (hmem k hk).elim (h2 k) (hsv k), m.sorted, fun F _ _ _ f hf z => ?_⟩
    · obtain ⟨k, hk⟩ := List.exists_mem_of_ne_nil _ h1
      obtain ⟨k', hk', -⟩ := m.all k (List.mem_append_left _ hk)
      have h' : merge2 halfSpaceLt (orderedSet halfSpaceLt [g, g.neg]) (orderedSet halfSpaceLt (endpointHalfSpaces g s e)) = [] := h
      rw [h'] at hk'
      cases hk'
    · show _ ↔ InDisk z ∧ InAll f (merge2 halfSpaceLt (orderedSet halfSpaceLt [g, g.neg]) (orderedSet halfSpaceLt (endpointHalfSpaces g s e))) z
      rw [sortedOf_inAll hf m z, inAll_append, h4 F f hf z, sortedOf_inAll hf o z]
      refine and_congr_right fun _ => and_congr ?_ ?_
      · have hv : ((Geo.neg g).map f).val z = -(g.map f).val z := by simp only [Geo.val, Geo.map, Geo.neg, map_neg]; ring
        simp only [InAll, List.mem_cons, List.not_mem_nil, or_false, forall_eq_or_imp, forall_eq, hv]
        constructor
        · intro h; rw [h]; simp
        · rintro ⟨z1, z2⟩; linarith
      · unfold endpointHalfSpaces
        rw [inAll_append]
        refine and_congr ?_ ?_
        · rcases s with _ | p
          · simp [InAll]
          · simp only [Option.mem_def, Option.some.injEq, forall_eq', InAll, List.mem_singleton, forall_eq, Geo.val, Geo.map, Geo.pos, map_add, map_mul, map_neg, map_sub]
            constructor <;> intro h <;> linarith
        · rcases e with _ | p
          · simp [InAll]
          · simp only [Option.mem_def, Option.some.injEq, forall_eq', InAll, List.mem_singleton, forall_eq, Geo.val, Geo.map, Geo.pos, map_add, map_mul, map_neg, map_sub]
            constructor <;> intro h <;> linarith
  | halfSpace g =>
    refine ⟨by simp [ConvexSet.halfSpaces], fun k hk => ?_, by simp [ConvexSet.halfSpaces], fun F _ _ _ f hf z => by simp [ConvexSet.Mem, ConvexSet.halfSpaces, InAll]⟩
    simp only [ConvexSet.halfSpaces, List.mem_singleton] at hk
    rw [hk]; exact hR
  | polygon l =>
    obtain ⟨h1, h2, -, h3⟩ := hR
    exact ⟨by rintro rfl; simp at h1, fun k hk => (h3 k hk).1, h2, fun F _ _ _ f hf z => Iff.rfl⟩

/-- What the intersection of convex sets returns. -/
theorem intersectSets_spec {pick : Interval K → K} (hpick : PickOk pick) {shuffle : List (Geo K) → List (Geo K)} (hsh : ∀ l, (shuffle l).Perm l) {sets : List (ConvexSet K)} (hR : ∀ S ∈ sets, S.Reduced) (hne : sets ≠ []) :
    ∃ R, intersectSets pick shuffle sets = .ok R ∧ R.Reduced ∧
      ∀ (F : Type) [Field F] [LinearOrder F] [IsStrictOrderedRing F] (f : K →+* F), StrictMono f → ∀ z : F × F, R.Mem f z ↔ ∀ S ∈ sets, S.Mem f z := by
  have key : ∀ (sets : List (ConvexSet K)) (acc : List (Geo K)), (∀ S ∈ sets, S.Reduced) → (∀ g ∈ acc, g.Valid) → acc.Pairwise (fun g h => halfSpaceLt g h = true) → (sets ≠ [] ∨ acc ≠ []) →
      sets.foldl (fun acc x => merge2 halfSpaceLt acc x.halfSpaces) acc ≠ [] ∧
      (∀ g ∈ sets.foldl (fun acc x => merge2 halfSpaceLt acc x.halfSpaces) acc, g.Valid) ∧ (sets.foldl (fun acc x => merge2 halfSpaceLt acc x.halfSpaces) acc).Pairwise (fun g h => halfSpaceLt g h = true) ∧
      ∀ (F : Type) [Field F] [LinearOrder F] [IsStrictOrderedRing F] (f : K →+* F), StrictMono f → ∀ z : F × F,
        InDisk z → (InAll f (sets.foldl (fun acc x => merge2 halfSpaceLt acc x.halfSpaces) acc) z ↔ InAll f acc z ∧ ∀ S ∈ sets, S.Mem f z) := by
    intro sets
    induction sets with
    | nil => intro acc _ hv hs hne; exact ⟨hne.resolve_left (by simp), hv, hs, fun F _ _ _ f hf z hd => by simp⟩
    | cons S sets ih =>
      intro acc hR hv hs _
      obtain ⟨s1, s2, s3, s4⟩ := halfSpaces_spec (hR S (by simp))
      have m := merge2_spec halfSpaceOrder (A := acc) (B := S.halfSpaces) (fun k hk => (List.mem_append.mp hk).elim (fun h => (hv k h).proper) (fun h => (s2 k h).proper)) hs s3
      have mne : merge2 halfSpaceLt acc S.halfSpaces ≠ [] := by
        intro h
        obtain ⟨k, hk⟩ := List.exists_mem_of_ne_nil _ s1
        obtain ⟨k', hk', -⟩ := m.all k (List.mem_append_right _ hk)
        rw [h] at hk'
        cases hk'
      obtain ⟨i1, i2, i3, i4⟩ := ih (merge2 halfSpaceLt acc S.halfSpaces) (fun T hT => hR T (List.mem_cons_of_mem _ hT)) (fun k hk => (List.mem_append.mp (m.sub k hk)).elim (hv k) (s2 k)) m.sorted (.inr mne)
      refine ⟨i1, i2, i3, fun F _ _ _ f hf z hd => ?_⟩
      rw [List.foldl_cons, i4 F f hf z hd, sortedOf_inAll hf m z, inAll_append]
      have := s4 F f hf z
      simp only [hd, true_and] at this
      rw [← this, and_assoc]
      simp
  match sets, hne, hR with
  | [S], _, hR => exact ⟨S, rfl, hR S (by simp), fun F _ _ _ f hf z => by simp⟩
  | S :: T :: sets, _, hR =>
    obtain ⟨k1, k2, k3, k4⟩ := key (S :: T :: sets) [] hR (by simp) (by simp) (.inl (by simp))
    obtain ⟨R, r1, r2, r3⟩ := normalizePolygon_spec hpick hsh k2 k3 k1
    refine ⟨R, r1, r2, fun F _ _ _ f hf z => ?_⟩
    rw [r3 F f hf z]
    constructor
    · rintro ⟨hd, hz⟩
      exact ((k4 F f hf z hd).1 hz).2
    · intro hz
      have hd : InDisk z := ((halfSpaces_spec (hR S (by simp))).2.2.2 F f hf z).1 (hz S (by simp)) |>.1
      exact ⟨hd, (k4 F f hf z hd).2 ⟨(by intro g hg; cases hg), hz⟩⟩

end Hyp
end Flat
