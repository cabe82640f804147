import Verif.Lemmas.PolygonVertices

/-!
# Corners of hyperbolic polygons

Helper lemmas about `Verif.Model.HyperbolicEdges`: the vertices are the corners in counterclockwise order.
-/

namespace Flat
namespace Hyp

variable {K F : Type} [Field K] [LinearOrder K] [IsStrictOrderedRing K] [Field F] [LinearOrder F] [IsStrictOrderedRing F]

theorem vertexLt_iff {l : List (Geo K)} {V : List (K × K)} (hV : ∀ v ∈ V, PolyPoint l v ∧ Corner l v) {r : K × K} (hr : r ∈ V) (hmin : ∀ v ∈ V, v = r ∨ After r v) {p q : K × K} (hp : p ∈ V) (hq : q ∈ V) :
    vertexLt V r p q = true ↔ p = r ∨ (q ≠ r ∧ 0 < area r p q) := by
  have e : area r p q = (q.2 - r.2) * (p.1 - r.1) - (p.2 - r.2) * (q.1 - r.1) := by simp only [area]; ring
  unfold vertexLt
  by_cases h1 : p = r
  · simp [h1]
  by_cases h2 : q = r
  · simp [h1, h2]
  by_cases h3 : p = q
  · have : area r p q = 0 := by rw [h3]; simp only [area]; ring
    simp [h1, h2, h3, this]
    rw [h3] at this
    simp [this, h2]
  rw [if_neg h1, if_neg h2, if_neg h3]
  have hne := corner_area (hV r hr).1 (hV p hp).1 (hV q hq).1 (hV p hp).2 (hV q hq).2 ((hmin p hp).resolve_left h1) ((hmin q hq).resolve_left h2) h3
  by_cases h4 : (p.2 - r.2) * (q.1 - r.1) < (q.2 - r.2) * (p.1 - r.1)
  · rw [if_pos h4]
    have : 0 < area r p q := by rw [e]; linarith
    simp [h2, this]
  · rw [if_neg h4]
    have h5 : (p.2 - r.2) * (q.1 - r.1) > (q.2 - r.2) * (p.1 - r.1) := by
      rcases lt_or_eq_of_le (not_lt.mp h4) with h | h
      · exact h
      · exact absurd (by rw [e, h]; ring) hne
    rw [if_pos h5]
    have : ¬0 < area r p q := by rw [e]; linarith
    simp [h1, this]

/-- The order of the vertices is counterclockwise. -/
theorem sortVertices_spec {l : List (Geo K)} {V : List (K × K)} (hV : ∀ v ∈ V, PolyPoint l v ∧ Corner l v) (hn : V.Nodup) :
    (∀ v, v ∈ sortVertices V ↔ v ∈ V) ∧ (sortVertices V).Nodup ∧ ∀ a b c, [a, b, c].Sublist (sortVertices V) → 0 < area a b c := by
  rcases V with _ | ⟨v, _ | ⟨w, vs⟩⟩
  · simp [sortVertices]
  · refine ⟨by simp [sortVertices], by simp [sortVertices], fun a b c h => ?_⟩
    have := h.length_le
    simp [sortVertices] at this
  obtain ⟨hr, hmin⟩ := minCoords_spec (w :: vs) v
  simp only [sortVertices]
  generalize minCoords v (w :: vs) = r at hr hmin
  generalize v :: w :: vs = V at *
  have hlt := fun {p q : K × K} (hp : p ∈ V) (hq : q ∈ V) => vertexLt_iff hV hr hmin hp hq
  have af : ∀ {p : K × K}, p ∈ V → p ≠ r → After r p := fun hp h => (hmin _ hp).resolve_left h
  have ho : SortOrder (vertexLt V r) (· ∈ V) (· = ·) := by
    refine ⟨fun x y z hx hy hz h1 h2 => ?_, fun x y hx hy h1 h2 => ?_, fun _ => rfl, fun _ _ _ => Eq.trans⟩
    · rw [hlt hx hy] at h1
      rw [hlt hy hz] at h2
      rw [hlt hx hz]
      rcases h1 with h1 | ⟨h1, h1'⟩
      · exact .inl h1
      · rcases h2 with h2 | ⟨h2, h2'⟩
        · exact absurd h2 h1
        · by_cases hxr : x = r
          · exact .inl hxr
          · exact .inr ⟨h2, (area_trans (af hx hxr) (af hy h1) (af hz h2) h1'.le h2'.le).2 (.inl h1')⟩
    · rw [hlt hx hy] at h1
      rw [hlt hy hx] at h2
      simp only [not_or, not_and, not_lt] at h1 h2
      by_contra hne
      have c := corner_area (hV r hr).1 (hV x hx).1 (hV y hy).1 (hV x hx).2 (hV y hy).2 (af hx h1.1) (af hy h2.1) hne
      have e : area r y x = -area r x y := by simp only [area]; ring
      have := h1.2 h2.1
      have := h2.2 h1.1
      exact c (by linarith)
  have hs := orderedSet_spec ho (l := V) (fun x hx => hx)
  have hnd := orderedSet_nodup (lt := vertexLt V r) hn
  generalize orderedSet (vertexLt V r) V = R at hs hnd
  have hmem : ∀ v, v ∈ R ↔ v ∈ V := fun v => ⟨hs.sub v, fun h => by obtain ⟨y, hy, rfl⟩ := hs.all v h; exact hy⟩
  refine ⟨hmem, hnd, ?_⟩
  -- the first entry
  obtain ⟨R', rfl⟩ : ∃ R', R = r :: R' := by
    rcases R with _ | ⟨x, R'⟩
    · exact absurd ((hmem r).2 hr) (by simp)
    · refine ⟨R', ?_⟩
      by_contra hne
      have hxr : x ≠ r := fun h => hne (by rw [h])
      have hrR : r ∈ R' := by
        have := (hmem r).2 hr
        rw [List.mem_cons] at this
        exact this.resolve_left (Ne.symm hxr)
      have h1 := (List.pairwise_cons.mp hs.sorted).1 r hrR
      rw [hlt ((hmem x).1 (by simp)) hr] at h1
      simp [hxr] at h1
  have hR' : ∀ x ∈ R', x ≠ r ∧ x ∈ V := fun x hx => ⟨fun h => (List.nodup_cons.mp hnd).1 (h ▸ hx), (hmem x).1 (by simp [hx])⟩
  have hpw : R'.Pairwise fun x y => 0 < area r x y := by
    refine List.Pairwise.imp_of_mem ?_ (List.pairwise_cons.mp hs.sorted).2
    intro x y hx hy h
    rw [hlt (hR' x hx).2 (hR' y hy).2] at h
    exact (h.resolve_left (hR' x hx).1).2
  intro a b c h
  have h3 : ∀ {a b c}, [a, b, c].Sublist R' → 0 < area r a b ∧ 0 < area r b c ∧ 0 < area r a c := by
    intro a b c h
    have := hpw.sublist h
    simp only [List.pairwise_cons, List.mem_cons, List.not_mem_nil, or_false, forall_eq_or_imp, forall_eq] at this
    exact ⟨this.1.1, this.2.1, this.1.2⟩
  cases h with
  | cons _ h =>
    obtain ⟨h1, h2, h3⟩ := h3 h
    have ha := (hR' a (h.subset (by simp))).2
    have hb := (hR' b (h.subset (by simp))).2
    have hc := (hR' c (h.subset (by simp))).2
    exact corner_conv (hV r hr).1 (hV a ha).1 (hV c hc).1 (hV b hb).2 h1 h2 h3
  | cons_cons _ h =>
    have := hpw.sublist h
    simpa using this

/-- The coordinates of the end points of the edges. -/
theorem allEnds_spec {sqrt : K → Option K} : ∀ (es : List (Edge K)), (∃ ends, allEnds sqrt es = .ok ends ∧ List.Forall₂ (fun (x : Edge K) p => endCoords sqrt x.geo x.start = .ok p.1 ∧ endCoords sqrt x.geo.neg x.stop = .ok p.2) es ends) ∨
    ∃ err, allEnds sqrt es = .error err ∧ ∃ x ∈ es, (x.start = none ∧ startCoordinates sqrt x.geo = .error err) ∨ (x.stop = none ∧ startCoordinates sqrt x.geo.neg = .error err)
  | [] => .inl ⟨[], rfl, .nil⟩
  | x :: es => by
    have hc : ∀ (g : Geo K) (s : Option (K × K)) err, endCoords sqrt g s = .error err → s = none ∧ startCoordinates sqrt g = .error err := by
      intro g s err h
      cases s with
      | none => exact ⟨rfl, h⟩
      | some p => cases h
    cases h1 : endCoords sqrt x.geo x.start with
    | error err => exact .inr ⟨err, by simp only [allEnds, Edge.ends, h1, bind, Except.bind], x, by simp, .inl (hc _ _ _ h1)⟩
    | ok p =>
      cases h2 : endCoords sqrt x.geo.neg x.stop with
      | error err => exact .inr ⟨err, by simp only [allEnds, Edge.ends, h1, h2, bind, Except.bind], x, by simp, .inr (hc _ _ _ h2)⟩
      | ok q =>
        rcases allEnds_spec es with ⟨ends, h3, h4⟩ | ⟨err, h3, y, hy, h4⟩
        · exact .inl ⟨(p, q) :: ends, by simp only [allEnds, Edge.ends, h1, h2, h3, bind, Except.bind, pure, Except.pure], .cons ⟨h1, h2⟩ h4⟩
        · exact .inr ⟨err, by simp only [allEnds, Edge.ends, h1, h2, h3, bind, Except.bind, pure, Except.pure], y, by simp [hy], h4⟩

/-- What `vertices` returns. -/
theorem polyVertices_spec {sqrt : K → Option K} (hq : IsSqrt sqrt) {l : List (Geo K)} (hl : (ConvexSet.polygon l).Reduced) :
    (∃ vs, polyVertices sqrt l [] = .ok vs ∧ vs.Nodup ∧ (∀ a b c, [a, b, c].Sublist vs → 0 < area a b c) ∧
      ∀ v, v ∈ vs ↔ PolyPoint l v ∧ ((∃ g ∈ l, g.val v = 0 ∧ v.1 * v.1 + v.2 * v.2 = 1) ∨ ∃ g ∈ l, ∃ h ∈ l, g ≠ h ∧ g.val v = 0 ∧ h.val v = 0)) ∨
    ∃ err, polyVertices sqrt l [] = .error err ∧ ∃ i < l.length, ((edgeAt l i).start = none ∧ startCoordinates sqrt (seqOf l i) = .error err) ∨ ((edgeAt l i).stop = none ∧ startCoordinates sqrt (seqOf l i).neg = .error err) := by
  obtain ⟨hes, hsp⟩ := polyEdges_eq hl
  have hc := polygon_cyc hl
  have hn : 2 ≤ l.length := hl.1
  have hn0 := hc.pos
  obtain ⟨-, -, ⟨y, yf, hy⟩, hirr⟩ := id hl
  rcases allEnds_spec (sqrt := sqrt) ((List.range l.length).map (edgeAt l)) with ⟨ends, hends, hf⟩ | ⟨err, h1, x, hx, h2⟩
  · left
    rw [List.forall₂_map_left_iff] at hf
    have hlen := hf.length_eq
    rw [List.length_range] at hlen
    -- the end points as functions
    obtain ⟨a, b, rfl⟩ : ∃ a b : ℕ → K × K, ends = (List.range' 0 l.length).map fun i => (a i, b i) := by
      refine ⟨fun i => (ends[i]?.getD (0, 0)).1, fun i => (ends[i]?.getD (0, 0)).2, ?_⟩
      refine List.ext_getElem (by simp [hlen]) fun i h1 h2 => ?_
      simp [h1]
    rw [← List.range_eq_range', List.forall₂_map_right_iff, List.forall₂_same] at hf
    simp only [List.mem_range, edgeAt] at hf
    have hE : ∀ i < l.length, _ := fun i hi => ends_spec hq (hsp i).1 (hsp i).2.1 (hf i hi).1 (hf i hi).2
    have hmemL : ∀ i, seqOf l i ∈ l := seqOf_mem hn0
    have hid : ∀ g : Geo K, g.map (RingHom.id K) = g := map_id_geo
    have hbetw : ∀ i z, InDisk z → (Between (RingHom.id K) (seqOf l i) (cornerAt l (i + (l.length - 1))) (cornerAt l i) z ↔ (seqOf l i).val z = 0 ∧ ∀ g ∈ l, 0 ≤ g.val z) := fun i z hz =>
      (hsp i).2.2 K (RingHom.id K) strictMono_ringHom_id z hz
    have hpa : ∀ i < l.length, PolyPoint l (a i) := by
      intro i hi
      obtain ⟨d1, d2, v1, v2, ho, s1, s2, -⟩ := hE i hi
      refine ⟨d1, ((hbetw i _ d1).1 ⟨v1, fun p hp => ?_, fun p hp => ?_⟩).2⟩
      · rw [s1 p hp]; rfl
      · rw [← s2 p hp]; exact ho.le
    have hpb : ∀ i < l.length, PolyPoint l (b i) := by
      intro i hi
      obtain ⟨d1, d2, v1, v2, ho, s1, s2, -⟩ := hE i hi
      refine ⟨d2, ((hbetw i _ d2).1 ⟨v2, fun p hp => ?_, fun p hp => ?_⟩).2⟩
      · rw [← s1 p hp]; exact ho.le
      · rw [s2 p hp]; rfl
    -- how the value of another half plane changes along an edge
    have hlin : ∀ (g h : Geo K) (u w : K × K), g.val u = 0 → g.val w = 0 → (g.b * g.b + g.c * g.c) * (h.val w - h.val u) = -(g.cross h) * (g.pos w - g.pos u) := by
      intro g h u w h1 h2
      simp only [Geo.val] at h1 h2 ⊢
      simp only [Geo.cross, Geo.pos]
      linear_combination (g.b * h.b + g.c * h.c) * (h2 - h1)
    have hdist : ∀ i < l.length, ∀ j < l.length, i ≠ j → Distinct (seqOf l i) (seqOf l j) ∧ seqOf l i ≠ seqOf l j := by
      have hne : ∀ {g h : Geo K}, g.Valid → Distinct g h → g ≠ h := by
        rintro g h vg hd rfl
        have h1 := hd (by simp only [Geo.cross]; ring)
        simp only [Geo.ndot] at h1
        have := vg.proper.norm
        linarith
      intro i hi j hj hij
      rcases Nat.lt_or_gt_of_ne hij with h | h
      · have := hc.dist i j h (by omega)
        exact ⟨this, hne (hc.valid i) this⟩
      · have := hc.dist j i h (by omega)
        exact ⟨this.symm, (hne (hc.valid j) this).symm⟩
    have hcross : ∀ g ∈ l, ∀ h ∈ l, g ≠ h → ∀ z, g.val z = 0 → h.val z = 0 → g.cross h ≠ 0 := by
      intro g hg h hh hgh z h1 h2 h0
      obtain ⟨i, hi, rfl⟩ := exists_seqOf hg
      obtain ⟨j, hj, rfl⟩ := exists_seqOf hh
      have hij : i ≠ j := fun h => hgh (by rw [h])
      have hd := (hdist i hi j hj hij).1 h0
      obtain ⟨s, s0, hs⟩ := opposite_of_point (hc.valid i) h0 hd h1 h2
      have k1 := hy _ (hmemL i)
      have k2 := hy _ (hmemL j)
      rw [hs] at k2
      have : (Geo.smul s (seqOf l i).neg).val y = -(s * (seqOf l i).val y) := by simp only [Geo.val, Geo.smul, Geo.neg]; ring
      rw [this] at k2
      have := mul_pos s0 k1
      linarith
    have hinj : ∀ i < l.length, ∀ j < l.length, (a i = a j → i = j) ∧ (b i = b j → i = j) := by
      intro i hi j hj
      obtain ⟨-, -, v1, v2, ho, -⟩ := hE i hi
      obtain ⟨-, -, w1, w2, ko, -⟩ := hE j hj
      have n1 := (hc.valid i).proper.norm
      have n2 := (hc.valid j).proper.norm
      have anti : (seqOf l j).cross (seqOf l i) = -(seqOf l i).cross (seqOf l j) := by simp only [Geo.cross]; ring
      constructor
      · intro he
        by_contra hij
        have l1 := hlin (seqOf l i) (seqOf l j) (a i) (b i) v1 v2
        have l2 := hlin (seqOf l j) (seqOf l i) (a j) (b j) w1 w2
        rw [he, w1] at l1
        rw [← he, v1] at l2
        rw [← he] at l1
        rw [he] at l2
        have p1 := mul_nonneg n1.le ((hpb i hi).2 _ (hmemL j))
        have p2 := mul_nonneg n2.le ((hpb j hj).2 _ (hmemL i))
        have c0 := hcross _ (hmemL i) _ (hmemL j) (hdist i hi j hj hij).2 (a i) v1 (by rw [he]; exact w1)
        rw [anti] at l2
        rcases lt_or_gt_of_ne c0 with c | c
        · have := mul_pos_of_neg_of_neg c (show (seqOf l j).pos (a j) - (seqOf l j).pos (b j) < 0 by linarith)
          nlinarith
        · have := mul_pos c (show 0 < (seqOf l i).pos (b i) - (seqOf l i).pos (a i) by linarith)
          nlinarith
      · intro he
        by_contra hij
        have l1 := hlin (seqOf l i) (seqOf l j) (b i) (a i) v2 v1
        have l2 := hlin (seqOf l j) (seqOf l i) (b j) (a j) w2 w1
        rw [he, w2] at l1
        rw [← he, v2] at l2
        rw [← he] at l1
        rw [he] at l2
        have p1 := mul_nonneg n1.le ((hpa i hi).2 _ (hmemL j))
        have p2 := mul_nonneg n2.le ((hpa j hj).2 _ (hmemL i))
        have c0 := hcross _ (hmemL i) _ (hmemL j) (hdist i hi j hj hij).2 (b i) v2 (by rw [he]; exact w2)
        rw [anti] at l2
        rcases lt_or_gt_of_ne c0 with c | c
        · have := mul_pos_of_neg_of_neg c (show (seqOf l i).pos (a i) - (seqOf l i).pos (b i) < 0 by linarith)
          nlinarith
        · have := mul_pos c (show 0 < (seqOf l j).pos (b j) - (seqOf l j).pos (a j) by linarith)
          nlinarith
    have hnext : ∀ i < l.length, ∀ j < l.length, a i = b j → i = j + 1 ∨ (i = 0 ∧ j = l.length - 1) := by
      intro i hi j hj he
      obtain ⟨-, -, v1, v2, ho, -⟩ := hE i hi
      obtain ⟨-, -, w1, w2, ko, -⟩ := hE j hj
      have hij : i ≠ j := by
        rintro rfl
        rw [he] at ho
        exact lt_irrefl _ ho
      by_contra hcon
      -- the half space i comes after j, with another one in between
      obtain ⟨i', hi1, hi2, hi3⟩ : ∃ i', j + 1 < i' ∧ i' < j + l.length ∧ seqOf l i' = seqOf l i := by
        rcases Nat.lt_or_gt_of_ne hij with h | h
        · exact ⟨i + l.length, by omega, by omega, seqOf_per l i⟩
        · exact ⟨i, by omega, by omega, rfl⟩
      have htri := hc.tri j (j + 1) i' (by omega) (by omega) (by omega)
      rw [hi3] at htri
      obtain ⟨t1, -, t3⟩ := htri
      have n2 := (hc.valid j).proper.norm
      have c0 := hcross _ (hmemL j) _ (hmemL i) (hdist j hj i hi (Ne.symm hij)).2 (b j) w2 (by rw [← he]; exact v1)
      have l2 := hlin (seqOf l j) (seqOf l i) (b j) (a j) w2 w1
      rw [← he, v1] at l2
      have p2 := mul_nonneg n2.le ((hpa j hj).2 _ (hmemL i))
      have cpos : 0 < (seqOf l j).cross (seqOf l i) := by
        rcases lt_or_gt_of_ne c0 with c | c
        · rw [he] at l2
          have := mul_pos_of_neg_of_neg c (show (seqOf l j).pos (a j) - (seqOf l j).pos (b j) < 0 by linarith)
          nlinarith
        · exact c
      have anti : (seqOf l i).cross (seqOf l j) = -(seqOf l j).cross (seqOf l i) := by simp only [Geo.cross]; ring
      have c1 : 0 < (seqOf l j).cross (seqOf l (j + 1)) := by
        by_contra hcc
        have := t1 (not_lt.mp hcc)
        linarith
      have c2 : (seqOf l i).cross (seqOf l (j + 1)) < 0 := t3 (by rw [anti]; linarith)
      -- the half space in between is redundant
      obtain ⟨vk, x, -, xk, hx⟩ := hirr _ (hmemL (j + 1))
      have d1 : Distinct (seqOf l j) (seqOf l (j + 1)) := hc.dist _ _ (by omega) (by omega)
      have d2 : Distinct (seqOf l (j + 1)) (seqOf l i') := hc.dist _ _ (by omega) (by omega)
      have ne1 : seqOf l j ≠ seqOf l (j + 1) := by
        intro h
        rw [← h] at c1
        have : (seqOf l j).cross (seqOf l j) = 0 := by simp only [Geo.cross]; ring
        linarith
      have ne2 : seqOf l i ≠ seqOf l (j + 1) := by
        intro h
        rw [← h] at c2
        have : (seqOf l i).cross (seqOf l i) = 0 := by simp only [Geo.cross]; ring
        linarith
      have x1 := hx _ (hmemL j) ne1
      have x2 := hx _ (hmemL i) ne2
      have vb := (hpb j hj).2 _ (hmemL (j + 1))
      have vi : (seqOf l i).val (b j) = 0 := by rw [← he]; exact v1
      have id3 : (seqOf l j).cross (seqOf l i) * ((seqOf l (j + 1)).val x - (seqOf l (j + 1)).val (b j)) =
          -((seqOf l i).cross (seqOf l (j + 1))) * ((seqOf l j).val x - (seqOf l j).val (b j)) + (seqOf l j).cross (seqOf l (j + 1)) * ((seqOf l i).val x - (seqOf l i).val (b j)) := by
        simp only [Geo.cross, Geo.val]; ring
      rw [w2, vi] at id3
      have q1 := mul_nonneg (show 0 ≤ -((seqOf l i).cross (seqOf l (j + 1))) by linarith) x1
      have q2 := mul_nonneg c1.le x2
      have q3 := mul_neg_of_pos_of_neg cpos (show (seqOf l (j + 1)).val x - (seqOf l (j + 1)).val (b j) < 0 by linarith)
      linarith
    -- the list of vertices
    have hlast : ((List.range' 0 l.length).map fun i => (a i, b i)).getLast? = some (a (l.length - 1), b (l.length - 1)) := by
      rw [List.getLast?_map, List.getLast?_range', if_neg (by omega)]
      simp
    set V := collectVertices (b (l.length - 1)) ((List.range' 0 l.length).map fun i => (a i, b i)) with hV
    have hnd : V.Nodup := collect_nodup (n := l.length) (fun i hi he => by
        obtain ⟨-, -, v1, v2, ho, -⟩ := hE i hi
        rw [he] at ho
        exact lt_irrefl _ ho) (fun i hi j hj => (hinj i hi j hj).1) (fun i hi j hj => (hinj i hi j hj).2) hnext l.length 0 _ (by omega) (fun _ => rfl)
    have hVm : ∀ v, v ∈ V ↔ ∃ i < l.length, v = a i ∨ v = b i := by
      intro v
      constructor
      · intro h
        obtain ⟨j, -, h2, h3⟩ := mem_collect _ _ _ _ h
        refine ⟨j, by omega, ?_⟩
        rcases h3 with h3 | ⟨h3, -⟩
        · exact .inr h3
        · exact .inl h3
      · rintro ⟨i, hi, rfl | rfl⟩
        · rcases (collect_mem (a := a) (b := b) i l.length 0 (b (l.length - 1)) (by omega) (by omega)).2 with h | h
          · exact h
          · rw [h]
            exact (collect_mem (a := a) (b := b) (l.length - 1) l.length 0 (b (l.length - 1)) (by omega) (by omega)).1
        · exact (collect_mem (a := a) (b := b) i l.length 0 (b (l.length - 1)) (by omega) (by omega)).1
    have e1 : ∀ i, seqOf l (i + (l.length - 1) + 1) = seqOf l i := fun i => by
      rw [show i + (l.length - 1) + 1 = i + l.length by omega, seqOf_per]
    have hcor : ∀ v ∈ V, PolyPoint l v ∧ Corner l v := by
      intro v hv
      obtain ⟨i, hi, hv⟩ := (hVm v).1 hv
      obtain ⟨d1, d2, v1, v2, ho, s1, s2, o1, o2, -⟩ := hE i hi
      rcases hv with rfl | rfl
      · refine ⟨hpa i hi, ?_⟩
        cases hs : cornerAt l (i + (l.length - 1)) with
        | none => exact .inl ⟨_, hmemL i, v1, o1 hs⟩
        | some p =>
          obtain ⟨k1, k2, k3, -⟩ := cornerAt_spec _ p hs
          rw [s1 p hs]
          exact .inr ⟨_, hmemL _, _, hmemL _, k1.ne', k2, k3⟩
      · refine ⟨hpb i hi, ?_⟩
        cases hs : cornerAt l i with
        | none => exact .inl ⟨_, hmemL i, v2, o2 hs⟩
        | some p =>
          obtain ⟨k1, k2, k3, -⟩ := cornerAt_spec _ p hs
          rw [s2 p hs]
          exact .inr ⟨_, hmemL _, _, hmemL _, k1.ne', k2, k3⟩
    obtain ⟨r1, r2, r3⟩ := sortVertices_spec hcor hnd
    refine ⟨sortVertices V, ?_, r2, r3, fun v => ?_⟩
    · simp only [polyVertices, hes, hends, bind, Except.bind, hlast, pure, Except.pure, List.append_nil]
      rfl
    · rw [r1]
      constructor
      · intro hv
        obtain ⟨hp, hc'⟩ := hcor v hv
        refine ⟨hp, ?_⟩
        rcases hc' with h | ⟨g, hg, h, hh, hgh, h1, h2⟩
        · exact .inl h
        · refine .inr ⟨g, hg, h, hh, ?_, h1, h2⟩
          rintro rfl
          exact hgh (by simp only [Geo.cross]; ring)
      · rintro ⟨hp, hv⟩
        have hcv : Corner l v := by
          rcases hv with h | ⟨g, hg, h, hh, hgh, h1, h2⟩
          · exact .inl h
          · exact .inr ⟨g, hg, h, hh, hcross g hg h hh hgh v h1 h2, h1, h2⟩
        obtain ⟨g, hg, hg0⟩ : ∃ g ∈ l, g.val v = 0 := by
          rcases hv with ⟨g, hg, h, -⟩ | ⟨g, hg, -, -, -, h, -⟩ <;> exact ⟨g, hg, h⟩
        obtain ⟨i, hi, rfl⟩ := exists_seqOf hg
        obtain ⟨d1, d2, v1, v2, ho, s1, s2, o1, o2, -⟩ := hE i hi
        rw [hVm]
        refine ⟨i, hi, ?_⟩
        by_contra hno
        push Not at hno
        have hb' := (hbetw i v hp.1).2 ⟨hg0, hp.2⟩
        obtain ⟨-, b1, b2⟩ := hb'
        have hst := start_spec hq (hsp i).1 (hsp i).2.1.start (hf i hi).1
        have hstop := start_spec hq (valid_neg (hsp i).1) (s := cornerAt l i) (fun p hp => by
          obtain ⟨k1, k2⟩ := (hsp i).2.1.stop p hp
          exact ⟨by rw [val_neg, k1, neg_zero], k2⟩) (hf i hi).2
        have le1 : (seqOf l i).pos (a i) ≤ (seqOf l i).pos v := hst.2.2.2.2.2.2 K (RingHom.id K) strictMono_ringHom_id v hp.1 hg0 b1
        have le2 : (seqOf l i).pos v ≤ (seqOf l i).pos (b i) := by
          have := hstop.2.2.2.2.2.2 K (RingHom.id K) strictMono_ringHom_id v hp.1 (by rw [hid, val_neg, hg0, neg_zero]) (fun p hp => by
            have := b2 p hp
            simp only [hid, RingHom.id_apply, pos_neg, neg_le_neg_iff] at this ⊢
            exact this)
          simp only [hid, RingHom.id_apply, pos_neg, neg_le_neg_iff] at this
          exact this
        have lt1 := lt_of_le_of_ne le1 (fun h => hno.1 (eq_of_pos (hsp i).1.proper hg0 v1 h.symm))
        have lt2 := lt_of_le_of_ne le2 (fun h => hno.2 (eq_of_pos (hsp i).1.proper hg0 v2 h))
        have hdd : 0 < (seqOf l i).pos (b i) - (seqOf l i).pos (a i) := by linarith
        set t := ((seqOf l i).pos v - (seqOf l i).pos (a i)) / ((seqOf l i).pos (b i) - (seqOf l i).pos (a i)) with ht
        have t0 : 0 < t := div_pos (by linarith) hdd
        have t1 : t < 1 := by rw [ht, div_lt_one hdd]; linarith
        have hvv : shift (a i) ((b i).1 - (a i).1, (b i).2 - (a i).2) t = v := by
          refine eq_of_pos (hsp i).1.proper ?_ hg0 ?_
          · have : (seqOf l i).val (shift (a i) ((b i).1 - (a i).1, (b i).2 - (a i).2) t) = (1 - t) * (seqOf l i).val (a i) + t * (seqOf l i).val (b i) := by simp only [Geo.val, shift]; ring
            rw [this, v1, v2]; ring
          · have : (seqOf l i).pos (shift (a i) ((b i).1 - (a i).1, (b i).2 - (a i).2) t) = (seqOf l i).pos (a i) + t * ((seqOf l i).pos (b i) - (seqOf l i).pos (a i)) := by simp only [Geo.pos, shift]; ring
            rw [this, ht, div_mul_cancel₀ _ hdd.ne']; ring
        refine corner_extreme (hpa i hi) (hpb i hi) ?_ t0 t1 (by rw [hvv]; exact hcv)
        intro he
        rw [he] at ho
        exact lt_irrefl _ ho
  · right
    obtain ⟨i, hi, rfl⟩ := List.mem_map.mp hx
    rw [List.mem_range] at hi
    refine ⟨err, ?_, i, hi, h2⟩
    simp only [polyVertices, hes, h1, bind, Except.bind]

end Hyp
end Flat
