import Verif.Lemmas.HullEdges

/-!
# Convex hulls of convex sets

Helper lemmas about `Verif.Model.HyperbolicHull`: vertices of convex sets, and half spaces.
-/

namespace Flat
namespace Hyp

variable {K F : Type} [Field K] [LinearOrder K] [IsStrictOrderedRing K] [Field F] [LinearOrder F] [IsStrictOrderedRing F]

theorem inDisk_mapPt {f : K →+* F} (hf : StrictMono f) {p : K × K} (hp : InDisk p) : InDisk (mapPt f p) := by
  have := hf.monotone hp
  simpa [InDisk, mapPt] using this

theorem convex_disk : Convex F {z : F × F | InDisk z} := by
  intro x hx y hy a b ha hb hab
  simp only [Set.mem_setOf_eq, InDisk, Prod.fst_add, Prod.snd_add, Prod.smul_fst, Prod.smul_snd, smul_eq_mul] at hx hy ⊢
  have hb' : b = 1 - a := by linarith
  subst hb'
  nlinarith [mul_nonneg ha hb, mul_nonneg (mul_nonneg ha hb) (mul_self_nonneg (x.1 - y.1)), mul_nonneg (mul_nonneg ha hb) (mul_self_nonneg (x.2 - y.2))]

/-- A point of a line between two others. -/
theorem mem_of_pos {S : Set (F × F)} (hS : Convex F S) {g : Geo F} (hg : g.Valid) {s e z : F × F} (hs : s ∈ S) (he : e ∈ S) (s0 : g.val s = 0) (e0 : g.val e = 0) (z0 : g.val z = 0) (h1 : g.pos s ≤ g.pos z) (h2 : g.pos z ≤ g.pos e) : z ∈ S := by
  have hn := Geo.valid_norm hg
  have eq_of : ∀ x y : F × F, g.val x = g.val y → g.pos x = g.pos y → x = y := by
    intro x y hv hp
    simp only [Geo.val, Geo.pos] at hv hp
    ext
    · apply mul_left_cancel₀ hn.ne'
      linear_combination g.b * hv + g.c * hp
    · apply mul_left_cancel₀ hn.ne'
      linear_combination g.c * hv - g.b * hp
  rcases (h1.trans h2).lt_or_eq with h | h
  · have hd : 0 < g.pos e - g.pos s := by linarith
    have key := hS hs he (a := (g.pos e - g.pos z) / (g.pos e - g.pos s)) (b := (g.pos z - g.pos s) / (g.pos e - g.pos s)) (div_nonneg (by linarith) hd.le) (div_nonneg (by linarith) hd.le) (by
      rw [← add_div, div_eq_one_iff_eq hd.ne']; ring)
    have hv : ∀ a b : F, a + b = 1 → g.val (a • s + b • e) = a * g.val s + b * g.val e := by
      intro a b hab
      simp only [Geo.val, Prod.fst_add, Prod.snd_add, Prod.smul_fst, Prod.smul_snd, smul_eq_mul]
      linear_combination (-g.a) * hab
    have hp : ∀ a b : F, g.pos (a • s + b • e) = a * g.pos s + b * g.pos e := by
      intro a b
      simp only [Geo.pos, Prod.fst_add, Prod.snd_add, Prod.smul_fst, Prod.smul_snd, smul_eq_mul]
      ring
    convert key using 1
    apply eq_of
    · rw [hv _ _ (by rw [← add_div, div_eq_one_iff_eq hd.ne']; ring), s0, e0, z0]; ring
    · rw [hp]
      generalize g.pos e = pe at *
      generalize g.pos s = ps at *
      generalize g.pos z = pz at *
      field_simp
      ring
  · have : z = s := eq_of z s (by rw [z0, s0]) (le_antisymm (by rw [h]; exact h2) h1)
    rw [this]; exact hs

/-- The coordinates of the point where a segment begins. -/
theorem start_spec {sqrt : K → Option K} (hq : IsSqrt sqrt) {g : Geo K} (hg : g.Valid) {s : Option (K × K)} (hs : ∀ p ∈ s, g.val p = 0 ∧ finitePoint p = true) {p' : K × K}
    (h : endCoords sqrt g s = .ok p') :
    g.val p' = 0 ∧ InDisk p' ∧ (∀ p ∈ s, p' = p) ∧ (s = none → p'.1 * p'.1 + p'.2 * p'.2 = 1) ∧ g.pos p' * g.pos p' ≤ g.b * g.b + g.c * g.c - g.a * g.a ∧ (s = none → g.pos p' < 0) ∧
      ∀ (F : Type) [Field F] [LinearOrder F] [IsStrictOrderedRing F] (f : K →+* F), StrictMono f → ∀ z : F × F, InDisk z → (g.map f).val z = 0 → (∀ p ∈ s, f (g.pos p) ≤ (g.map f).pos z) → f (g.pos p') ≤ (g.map f).pos z := by
  cases s with
  | some p =>
    have hp : p = p' := Except.ok.inj h
    subst hp
    obtain ⟨h1, h2⟩ := hs p rfl
    have h3 : p.1 * p.1 + p.2 * p.2 < 1 := of_decide_eq_true h2
    have hd : InDisk p := h3.le
    exact ⟨h1, hd, by simp, by simp, (inDisk_iff hg h1).1 hd, by simp, fun F _ _ _ f hf z _ _ hz => hz p rfl⟩
  | none =>
    obtain ⟨x, y⟩ := p'
    obtain ⟨h1, h2, h3⟩ := (startCoordinates_ok hq hg).1 h
    have hv : g.val (x, y) = 0 := h2
    have hd : InDisk (x, y) := h1.le
    have hn := norm_on_line hv
    have hp : g.pos (x, y) < 0 := h3
    have hn' : g.pos (x, y) * g.pos (x, y) = g.b * g.b + g.c * g.c - g.a * g.a := by
      have : x * x + y * y = 1 := h1
      simp only [this] at hn
      linarith
    refine ⟨hv, hd, by simp, fun _ => h1, (inDisk_iff hg hv).1 hd, fun _ => hp, fun F _ _ _ f hf z hz hz0 _ => ?_⟩
    have hz1 := (inDisk_iff (valid_map hf hg) hz0).1 hz
    have e : (g.map f).b * (g.map f).b + (g.map f).c * (g.map f).c - (g.map f).a * (g.map f).a = f (g.pos (x, y)) * f (g.pos (x, y)) := by
      rw [← map_mul, hn']; simp only [Geo.map, map_sub, map_add, map_mul]
    rw [e] at hz1
    have hp' := (neg_map_iff hf).2 hp
    by_contra hlt
    push Not at hlt
    nlinarith

theorem val_neg (g : Geo K) (z : K × K) : g.neg.val z = -g.val z := by simp only [Geo.val, Geo.neg]; ring
theorem pos_neg (g : Geo K) (z : K × K) : g.neg.pos z = -g.pos z := by simp only [Geo.pos, Geo.neg]; ring
theorem map_neg_geo (f : K →+* F) (g : Geo K) : g.neg.map f = (g.map f).neg := by simp only [Geo.map, Geo.neg, map_neg]

/-- The two end points of a segment or a geodesic. -/
theorem ends_spec {sqrt : K → Option K} (hq : IsSqrt sqrt) {g : Geo K} (hg : g.Valid) {s e : Option (K × K)} (hN : Normal g s e) {s' e' : K × K}
    (h1 : endCoords sqrt g s = .ok s')
    (h2 : endCoords sqrt g.neg e = .ok e') :
    InDisk s' ∧ InDisk e' ∧ g.val s' = 0 ∧ g.val e' = 0 ∧ g.pos s' < g.pos e' ∧ (∀ p ∈ s, s' = p) ∧ (∀ p ∈ e, e' = p) ∧ (s = none → s'.1 * s'.1 + s'.2 * s'.2 = 1) ∧ (e = none → e'.1 * e'.1 + e'.2 * e'.2 = 1) ∧
      ∀ (F : Type) [Field F] [LinearOrder F] [IsStrictOrderedRing F] (f : K →+* F), StrictMono f → ∀ z : F × F, InDisk z → Between f g s e z → z ∈ convexHull F (mapPt f '' {p | p = s' ∨ p = e'}) := by
  have hgn : g.neg.Valid := valid_neg hg
  obtain ⟨a1, a2, a3, a4, a5, a6, a7⟩ := start_spec hq hg hN.start h1
  obtain ⟨b1, b2, b3, b4, b5, b6, b7⟩ := start_spec hq hgn (fun p hp => ⟨by rw [val_neg, (hN.stop p hp).1, neg_zero], (hN.stop p hp).2⟩) h2
  rw [val_neg, neg_eq_zero] at b1
  have hlt : g.pos s' < g.pos e' := by
    cases s with
    | some p =>
      have e1 := a3 p rfl
      cases e with
      | some q =>
        rw [e1, b3 q rfl]
        exact hN.order p rfl q rfl
      | none =>
        have hp := (hN.start p rfl)
        have hfin : p.1 * p.1 + p.2 * p.2 < 1 := of_decide_eq_true hp.2
        have n1 := norm_on_line hp.1
        have n2 := norm_on_line b1
        rw [b4 rfl] at n2
        have hn := Geo.valid_norm hg
        have hpe := b6 rfl
        rw [pos_neg] at hpe
        rw [e1]
        by_contra hle
        push Not at hle
        nlinarith
    | none =>
      have n2 := norm_on_line a1
      rw [a4 rfl] at n2
      have hn := Geo.valid_norm hg
      have hps := a6 rfl
      cases e with
      | some q =>
        have e1 := b3 q rfl
        have hp := (hN.stop q rfl)
        have hfin : q.1 * q.1 + q.2 * q.2 < 1 := of_decide_eq_true hp.2
        have n1 := norm_on_line hp.1
        rw [e1]
        by_contra hle
        push Not at hle
        nlinarith
      | none =>
        have hpe := b6 rfl
        rw [pos_neg] at hpe
        linarith
  refine ⟨a2, b2, a1, b1, hlt, a3, b3, a4, b4, fun F _ _ _ f hf z hd hz => ?_⟩
  obtain ⟨z0, z1, z2⟩ := hz
  have p1 := a7 F f hf z hd z0 z1
  have p2 := b7 F f hf z hd (by rw [map_neg_geo, val_neg, z0, neg_zero]) (fun p hp => by
    have := z2 p hp
    rw [map_neg_geo, pos_neg, pos_neg, map_neg]
    linarith)
  rw [map_neg_geo, pos_neg, pos_neg, map_neg] at p2
  refine mem_of_pos (convex_convexHull F _) (valid_map hf hg) (s := mapPt f s') (e := mapPt f e') (subset_convexHull _ _ ⟨s', .inl rfl, rfl⟩) (subset_convexHull _ _ ⟨e', .inr rfl, rfl⟩) ?_ ?_ z0 ?_ ?_
  · rw [val_mapPt, a1, map_zero]
  · rw [val_mapPt, b1, map_zero]
  · rw [pos_mapPt]; exact p1
  · rw [pos_mapPt]; linarith

/-- The vertices of a convex set. -/
theorem vertexCoords_spec {sqrt : K → Option K} (hq : IsSqrt sqrt) {S : ConvexSet K} (hS : S.Reduced) {v : List (K × K)} (h : S.vertexCoords sqrt = .ok v) :
    (∀ p ∈ v, InDisk p) ∧ (∀ (F : Type) [Field F] [LinearOrder F] [IsStrictOrderedRing F] (f : K →+* F), StrictMono f → ∀ p ∈ v, S.Mem f (mapPt f p)) ∧
    ((∃ g a b, S = .halfSpace g ∧ v = [a, b] ∧ InDisk a ∧ InDisk b ∧ g.val a = 0 ∧ g.val b = 0 ∧ a ≠ b ∧
        ∀ (F : Type) [Field F] [LinearOrder F] [IsStrictOrderedRing F] (f : K →+* F), StrictMono f → ∀ z : F × F, InDisk z → (g.map f).val z = 0 → z ∈ convexHull F (mapPt f '' {p | p ∈ v})) ∨
      ((∀ g, S ≠ .halfSpace g) ∧ ∀ (F : Type) [Field F] [LinearOrder F] [IsStrictOrderedRing F] (f : K →+* F), StrictMono f → ∀ z : F × F, S.Mem f z → z ∈ convexHull F (mapPt f '' {p | p ∈ v}))) := by
  have hends : ∀ g : Geo K, g.Valid → ∀ s e : K × K, startCoordinates sqrt g = .ok s → startCoordinates sqrt g.neg = .ok e → _ := fun g hg s e h1 h2 => ends_spec (s := none) (e := none) hq hg ⟨by simp, by simp, by simp⟩ h1 h2
  have hpair : ∀ (a b : K × K), {p | p = a ∨ p = b} = {p | p ∈ [a, b]} := by intro a b; ext p; simp
  cases S with
  | empty =>
    cases h
    exact ⟨by simp, by simp, .inr ⟨by simp, fun F _ _ _ f hf z hz => hz.elim⟩⟩
  | point p =>
    cases h
    refine ⟨by simp only [List.mem_singleton, forall_eq]; exact hS, fun F _ _ _ f hf q hq => ?_, .inr ⟨by simp, fun F _ _ _ f hf z hz => subset_convexHull _ _ ⟨p, by simp, hz.symm⟩⟩⟩
    simp only [List.mem_singleton] at hq
    rw [hq]; rfl
  | geodesic g =>
    simp only [ConvexSet.vertexCoords, Geo.ends, bind, Except.bind, pure, Except.pure] at h
    cases h1 : startCoordinates sqrt g with
    | error => rw [h1] at h; cases h
    | ok s =>
      cases h2 : startCoordinates sqrt g.neg with
      | error => rw [h1, h2] at h; cases h
      | ok e =>
        rw [h1, h2] at h
        cases h
        obtain ⟨a1, a2, a3, a4, a5, -, -, -, -, a6⟩ := hends g hS s e h1 h2
        refine ⟨by simp [a1, a2], fun F _ _ _ f hf p hp => ?_, .inr ⟨by simp, fun F _ _ _ f hf z hz => ?_⟩⟩
        · simp only [List.mem_cons, List.not_mem_nil, or_false] at hp
          rcases hp with rfl | rfl
          · exact ⟨inDisk_mapPt hf a1, by rw [val_mapPt, a3, map_zero]⟩
          · exact ⟨inDisk_mapPt hf a2, by rw [val_mapPt, a4, map_zero]⟩
        · rw [← hpair]
          exact a6 F f hf z hz.1 ⟨hz.2, by simp, by simp⟩
  | segment g s e =>
    obtain ⟨hg, hN, -⟩ := hS
    simp only [ConvexSet.vertexCoords, bind, Except.bind] at h
    cases h1 : endCoords sqrt g s with
    | error => rw [h1] at h; cases h
    | ok s' =>
      cases h2 : endCoords sqrt g.neg e with
      | error => rw [h1, h2] at h; cases h
      | ok e' =>
        rw [h1, h2] at h
        cases h
        obtain ⟨a1, a2, a3, a4, a5, a7, a8, a9, a10, a6⟩ := ends_spec hq hg hN h1 h2
        refine ⟨by simp [a1, a2], fun F _ _ _ f hf p hp => ?_, .inr ⟨by simp, fun F _ _ _ f hf z hz => ?_⟩⟩
        · simp only [List.mem_cons, List.not_mem_nil, or_false] at hp
          rcases hp with rfl | rfl
          · refine ⟨inDisk_mapPt hf a1, by rw [val_mapPt, a3, map_zero], fun q hq => ?_, fun q hq => ?_⟩
            · rw [pos_mapPt, a7 q hq]
            · rw [pos_mapPt, ← a8 q hq]; exact hf.monotone a5.le
          · refine ⟨inDisk_mapPt hf a2, by rw [val_mapPt, a4, map_zero], fun q hq => ?_, fun q hq => ?_⟩
            · rw [pos_mapPt, ← a7 q hq]; exact hf.monotone a5.le
            · rw [pos_mapPt, a8 q hq]
        · rw [← hpair]
          exact a6 F f hf z hz.1 hz.2
  | halfSpace g =>
    simp only [ConvexSet.vertexCoords, Geo.ends, bind, Except.bind, pure, Except.pure] at h
    cases h1 : startCoordinates sqrt g with
    | error => rw [h1] at h; cases h
    | ok s =>
      cases h2 : startCoordinates sqrt g.neg with
      | error => rw [h1, h2] at h; cases h
      | ok e =>
        rw [h1, h2] at h
        cases h
        obtain ⟨a1, a2, a3, a4, a5, -, -, -, -, a6⟩ := hends g hS s e h1 h2
        refine ⟨by simp [a1, a2], fun F _ _ _ f hf p hp => ?_, .inl ⟨g, s, e, rfl, rfl, a1, a2, a3, a4, fun h => ?_, fun F _ _ _ f hf z hz hz0 => ?_⟩⟩
        · simp only [List.mem_cons, List.not_mem_nil, or_false] at hp
          rcases hp with rfl | rfl
          · exact ⟨inDisk_mapPt hf a1, by rw [val_mapPt, a3, map_zero]⟩
          · exact ⟨inDisk_mapPt hf a2, by rw [val_mapPt, a4, map_zero]⟩
        · rw [h] at a5; exact lt_irrefl _ a5
        · rw [← hpair]
          exact a6 F f hf z hz ⟨hz0, by simp, by simp⟩
  | polygon l => cases h

/-- The vertices of several convex sets. -/
theorem allVertices_spec {sqrt : K → Option K} : ∀ {sets : List (ConvexSet K)} {V : List (K × K)}, allVertices sqrt sets = .ok V → (∀ S ∈ sets, ∃ v, S.vertexCoords sqrt = .ok v ∧ ∀ p ∈ v, p ∈ V) ∧ ∀ p ∈ V, ∃ S ∈ sets, ∃ v, S.vertexCoords sqrt = .ok v ∧ p ∈ v
  | [], V, h => by cases h; simp
  | S :: sets, V, h => by
    simp only [allVertices, bind, Except.bind, pure, Except.pure] at h
    cases h1 : S.vertexCoords sqrt with
    | error => rw [h1] at h; cases h
    | ok v =>
      cases h2 : allVertices sqrt sets with
      | error => rw [h1, h2] at h; cases h
      | ok W =>
        rw [h1, h2] at h
        cases h
        obtain ⟨i1, i2⟩ := allVertices_spec h2
        refine ⟨fun T hT => ?_, fun p hp => ?_⟩
        · rcases List.mem_cons.mp hT with rfl | hT
          · exact ⟨v, h1, fun p hp => List.mem_append_left _ hp⟩
          · obtain ⟨w, w1, w2⟩ := i1 T hT
            exact ⟨w, w1, fun p hp => List.mem_append_right _ (w2 p hp)⟩
        · rcases List.mem_append.mp hp with hp | hp
          · exact ⟨S, by simp, v, h1, hp⟩
          · obtain ⟨T, t1, t2⟩ := i2 p hp
            exact ⟨T, List.mem_cons_of_mem _ t1, t2⟩

theorem mem_halfSpacesAmong {h : Geo K} : ∀ {sets : List (ConvexSet K)}, h ∈ halfSpacesAmong sets ↔ .halfSpace h ∈ sets
  | [] => by simp [halfSpacesAmong]
  | S :: sets => by
    cases S <;> simp [halfSpacesAmong, mem_halfSpacesAmong (sets := sets)]

theorem coveredEdge_spec {pick : Interval K → K} (hpick : PickOk pick) {shuffle : List (Geo K) → List (Geo K)} (hsh : ∀ l, (shuffle l).Perm l) {g : Geo K} (hg : g.Valid) : ∀ {half : List (Geo K)}, (∀ h ∈ half, h.Valid) →
    ∃ b, coveredEdge pick shuffle g half = .ok b ∧
      (b = true → ∃ h ∈ half, ∀ (F : Type) [Field F] [LinearOrder F] [IsStrictOrderedRing F] (f : K →+* F), StrictMono f → ∀ z : F × F, InDisk z → (g.map f).val z ≤ 0 → 0 ≤ (h.map f).val z) ∧
      (b = false → ∀ h ∈ half, ∃ w : K × K, InDisk w ∧ g.val w ≤ 0 ∧ h.val w < 0)
  | [], _ => ⟨false, rfl, by simp, by simp⟩
  | h :: half, hv => by
    obtain ⟨b, b1, b2, b3⟩ := isSubset_spec hpick hsh (R := .halfSpace g.neg) (S := .halfSpace h) (valid_neg hg) (hv h (by simp))
    obtain ⟨c, c1, c2, c3⟩ := coveredEdge_spec hpick hsh hg (fun k hk => hv k (List.mem_cons_of_mem _ hk)) (half := half)
    cases b with
    | true =>
      refine ⟨true, by simp only [coveredEdge, b1, bind, Except.bind, if_true]; rfl, fun _ => ⟨h, by simp, fun F _ _ _ f hf z hz hgz => ?_⟩, by simp⟩
      exact (b2 rfl F f hf z ⟨hz, by rw [map_neg_geo, val_neg]; linarith⟩).2
    | false =>
      refine ⟨c, by simp only [coveredEdge, b1, bind, Except.bind, Bool.false_eq_true, if_false, c1], fun hc => ?_, fun hc k hk => ?_⟩
      · obtain ⟨k, k1, k2⟩ := c2 hc
        exact ⟨k, List.mem_cons_of_mem _ k1, k2⟩
      · rcases List.mem_cons.mp hk with rfl | hk
        · obtain ⟨w, ⟨w1, w2⟩, w3⟩ := b3 rfl
          rw [map_id_geo, val_neg] at w2
          refine ⟨w, w1, by linarith, ?_⟩
          by_contra hle
          exact w3 ⟨w1, by rw [map_id_geo]; exact not_lt.mp hle⟩
        · exact c3 hc k hk

theorem uncoveredEdges_spec {pick : Interval K → K} (hpick : PickOk pick) {shuffle : List (Geo K) → List (Geo K)} (hsh : ∀ l, (shuffle l).Perm l) {half : List (Geo K)} (hh : ∀ h ∈ half, h.Valid) : ∀ {l : List (Geo K)}, (∀ g ∈ l, g.Valid) →
    ∃ U, uncoveredEdges pick shuffle half l = .ok U ∧ (∀ g ∈ U, g ∈ l ∧ ∀ h ∈ half, ∃ w : K × K, InDisk w ∧ g.val w ≤ 0 ∧ h.val w < 0) ∧
      ∀ g ∈ l, g ∈ U ∨ ∃ h ∈ half, ∀ (F : Type) [Field F] [LinearOrder F] [IsStrictOrderedRing F] (f : K →+* F), StrictMono f → ∀ z : F × F, InDisk z → (g.map f).val z ≤ 0 → 0 ≤ (h.map f).val z
  | [], _ => ⟨[], rfl, by simp, by simp⟩
  | g :: l, hl => by
    obtain ⟨b, b1, b2, b3⟩ := coveredEdge_spec hpick hsh (hl g (by simp)) hh
    obtain ⟨U, u1, u2, u3⟩ := uncoveredEdges_spec hpick hsh hh (fun k hk => hl k (List.mem_cons_of_mem _ hk)) (l := l)
    cases b with
    | true =>
      refine ⟨U, by simp only [uncoveredEdges, b1, u1, bind, Except.bind, pure, Except.pure, if_true], fun k hk => ⟨List.mem_cons_of_mem _ (u2 k hk).1, (u2 k hk).2⟩, fun k hk => ?_⟩
      rcases List.mem_cons.mp hk with rfl | hk
      · exact .inr (b2 rfl)
      · exact u3 k hk
    | false =>
      refine ⟨g :: U, by simp only [uncoveredEdges, b1, u1, bind, Except.bind, pure, Except.pure, Bool.false_eq_true, if_false], fun k hk => ?_, fun k hk => ?_⟩
      · rcases List.mem_cons.mp hk with rfl | hk
        · exact ⟨by simp, b3 rfl⟩
        · exact ⟨List.mem_cons_of_mem _ (u2 k hk).1, (u2 k hk).2⟩
      · rcases List.mem_cons.mp hk with rfl | hk
        · exact .inl (by simp)
        · exact (u3 k hk).imp (List.mem_cons_of_mem _) id

theorem allSubsets_true {pick : Interval K → K} (hpick : PickOk pick) {shuffle : List (Geo K) → List (Geo K)} (hsh : ∀ l, (shuffle l).Perm l) {R : ConvexSet K} (hR : R.Reduced) : ∀ {sets : List (ConvexSet K)}, (∀ S ∈ sets, S.Reduced) →
    (∀ S ∈ sets, ∀ z : K × K, S.Mem (RingHom.id K) z → R.Mem (RingHom.id K) z) → allSubsets pick shuffle R sets = .ok true
  | [], _, _ => rfl
  | S :: sets, hS, h => by
    obtain ⟨b, b1, b2, b3⟩ := isSubset_spec hpick hsh (hS S (by simp)) hR
    have ih := allSubsets_true hpick hsh hR (fun T hT => hS T (List.mem_cons_of_mem _ hT)) (fun T hT => h T (List.mem_cons_of_mem _ hT))
    cases b with
    | true => simp only [allSubsets, b1, bind, Except.bind, if_true, ih]
    | false =>
      obtain ⟨z, z1, z2⟩ := b3 rfl
      exact absurd (h S (by simp) z z1) z2

/-- A half space that is not cut off by an edge is on one side of that edge. -/
theorem halfSpace_side {g h : Geo F} {z w : F × F} (hz : InDisk z) (hw : InDisk w) (hzh : 0 ≤ h.val z) (hwg : g.val w ≤ 0) (hwh : h.val w < 0) (hline : ∀ y : F × F, InDisk y → h.val y = 0 → 0 ≤ g.val y) : 0 ≤ g.val z := by
  by_contra hlt
  push Not at hlt
  have hd : 0 < h.val z - h.val w := by linarith
  set t := h.val z / (h.val z - h.val w) with ht
  have t0 : 0 ≤ t := div_nonneg hzh hd.le
  have t1 : t < 1 := by rw [ht, div_lt_one hd]; linarith
  have hv : ∀ k : Geo F, k.val ((1 - t) • z + t • w) = (1 - t) * k.val z + t * k.val w := by
    intro k
    simp only [Geo.val, Prod.fst_add, Prod.snd_add, Prod.smul_fst, Prod.smul_snd, smul_eq_mul]
    ring
  have hy : InDisk ((1 - t) • z + t • w) := convex_disk hz hw (by linarith) t0 (by ring)
  have h0 : h.val ((1 - t) • z + t • w) = 0 := by
    rw [hv, ht]
    generalize h.val z = a at *
    generalize h.val w = b at *
    have : a - b ≠ 0 := hd.ne'
    field_simp
    ring
  have := hline _ hy h0
  rw [hv] at this
  nlinarith

end Hyp
end Flat
