import Verif.Model.Doubles
import Verif.Lemmas.Build
import Verif.Props.EdgeTransformation
import Verif.Props.Lazy

/-!
# C46: doubles and billiards
-/

namespace Flat

/-- The reflection of `x` in the line through `v` in the direction of `e`. -/
def reflect {K : Type} [Field K] (v e x : Vec K) : Vec K := v + (2 * dot e (x - v) / dot e e) • e - (x - v)

namespace Poly
variable {K : Type} [Field K] [LinearOrder K] [IsStrictOrderedRing K]

/-- The complex conjugation. -/
def conj : Mat2 K := ⟨1, 0, 0, -1⟩

theorem conj_det : (conj : Mat2 K).det = -1 := by simp [conj, Mat2.det]

/-- The mirror image is the complex conjugate of the polygon, moved to the origin. -/
theorem mirror_eq {p : Poly K} (h : p.Valid) : ∃ q0, mul conj p = some q0 ∧ q0.Valid ∧ p.mirror = .ok (q0.translate (-q0.vertex 0)) := by
  have hd : (conj : Mat2 K).det < 0 := by rw [conj_det]; linarith [zero_lt_one (α := K)]
  obtain ⟨q0, hq0⟩ := Option.isSome_iff_exists.1 ((C10_mul_defined conj p).2 hd.ne)
  have hv := C10_mul_valid h hq0
  refine ⟨q0, hq0, hv, ?_⟩
  rw [← ofEdges_of_valid hv]
  unfold mirror
  congr 1
  have hl := (C10_vertices conj p q0 h.ne_nil hq0).1
  refine List.ext_getElem (by simp [edges_length, hl]) fun i h1 h2 => ?_
  rw [List.getElem_map, List.getElem_reverse, edges_getElem, edges_getElem]
  rw [edges_length, hl] at h2
  have := RSurf.imageEdge_edge (g := conj) h hq0 (e := p.length - 1 - i) (by omega)
  rw [RSurf.imageEdge, if_pos hd, if_pos hd, show p.length - 1 - (p.length - 1 - i) = i by omega] at this
  rw [this, edges_length]
  simp [conj, Mat2.mulVec]

theorem mirror_spec {p : Poly K} (h : p.Valid) : ∃ q, p.mirror = .ok q ∧ q.Valid ∧ q.length = p.length ∧ q.area = p.area ∧
    (∃ u : Vec K, ∀ i m, (m + i) % p.length = 0 → q.vertex i = (u.1 + (p.vertex m).1, u.2 - (p.vertex m).2)) ∧
    ∀ i < p.length, q.edge (p.length - 1 - i) = (-(p.edge i).1, (p.edge i).2) := by
  obtain ⟨q0, hm, hv, hq⟩ := mirror_eq h
  have hd : (conj : Mat2 K).det < 0 := by rw [conj_det]; linarith [zero_lt_one (α := K)]
  have hl := (C10_vertices conj p q0 h.ne_nil hm).1
  have hvert : ∃ u : Vec K, ∀ i m, (m + i) % p.length = 0 →
      (q0.translate (-q0.vertex 0)).vertex i = (u.1 + (p.vertex m).1, u.2 - (p.vertex m).2) := by
    refine ⟨-q0.vertex 0, fun i m him => ?_⟩
    rw [vertex_translate q0 hv.ne_nil, vertex_mul_neg h.ne_nil hm hd i m him]
    apply Prod.ext <;> simp [conj, Mat2.mulVec, sub_eq_add_neg]
  refine ⟨_, hq, hv.translate _, by simp [translate, hl], ?_, hvert, fun i hi => ?_⟩
  · rw [C09_area_translate, C09_area_mul conj p q0 h.ne_nil hm, conj_det]
    simp
  · obtain ⟨u, hu⟩ := hvert
    unfold edge
    rw [hu (p.length - 1 - i + 1) i (by rw [show i + (p.length - 1 - i + 1) = p.length by omega]; simp),
      hu (p.length - 1 - i) (i + 1) (by rw [show i + 1 + (p.length - 1 - i) = p.length by omega]; simp)]
    simp

end Poly

namespace MSurf
variable {K : Type} [Field K] [LinearOrder K] [IsStrictOrderedRing K]

/-- The surface `t` is made of the polygon `p` with label 0 and its mirror image with label 1, each edge being glued to its
mirror image.  Unfolding the mirror image across edge `i` gives the reflection of `p` in this edge. -/
structure IsDouble (p : Poly K) (t : MSurf ℕ (Poly K)) : Prop where
  immutable : t.mutable = false
  labels : ∀ l, (∃ q, t.polygon l = .ok q) ↔ l = 0 ∨ l = 1
  polygon : t.polygon 0 = .ok p
  image : ∃ q, t.polygon 1 = .ok q ∧ q.Valid ∧ q.length = p.length ∧ q.area = p.area ∧
    (∀ i < p.length, q.edge (p.length - 1 - i) = (-(p.edge i).1, (p.edge i).2)) ∧
    (∀ i < p.length, normSq (q.edge (p.length - 1 - i)) = normSq (p.edge i)) ∧
    ∀ i < p.length, ∃ g : Similarity K, t.edgeTransformation 1 (p.length - 1 - i) = .ok g ∧
      ∀ k ≤ p.length, g.call (q.vertex (p.length - k)) = reflect (p.vertex i) (p.edge i) (p.vertex k)
  glue : ∀ i < p.length, t.oppositeEdge 0 (i : ℕ) = .ok (some (1, ((p.length - 1 - i : ℕ) : Int))) ∧
    t.oppositeEdge 1 ((p.length - 1 - i : ℕ) : Int) = .ok (some (0, (i : Int)))

/-- The reflection is the only orientation reversing similarity that fixes the edge. -/
theorem reflect_unique {g : Similarity K} (hs : g.sign = 1) {v w u : Vec K} (hvw : v ≠ w)
    (h1 : g.call (u.1 + v.1, u.2 - v.2) = v) (h2 : g.call (u.1 + w.1, u.2 - w.2) = w) (x : Vec K) :
    g.call (u.1 + x.1, u.2 - x.2) = reflect v (w - v) x := by
  have n1 := normSq_ne_zero (v := w - v) (sub_ne_zero.2 (Ne.symm hvw))
  obtain ⟨v1, v2⟩ := v
  obtain ⟨w1, w2⟩ := w
  obtain ⟨x1, x2⟩ := x
  obtain ⟨u1, u2⟩ := u
  obtain ⟨a, b, s, t, sg⟩ := g
  simp only at hs
  subst hs
  simp only [Similarity.call, if_true, Prod.mk.injEq] at h1 h2 ⊢
  simp only [Prod.fst_sub, Prod.snd_sub] at n1
  obtain ⟨e1, e2⟩ := h1
  obtain ⟨e3, e4⟩ := h2
  have hr : 2 * dot (w1 - v1, w2 - v2) (x1 - v1, x2 - v2) / dot (w1 - v1, w2 - v2) (w1 - v1, w2 - v2) *
      ((w1 - v1) * (w1 - v1) + (w2 - v2) * (w2 - v2)) = 2 * ((w1 - v1) * (x1 - v1) + (w2 - v2) * (x2 - v2)) := by
    unfold dot
    exact div_mul_cancel₀ _ n1
  simp only [reflect, Prod.mk_sub_mk]
  generalize 2 * dot (w1 - v1, w2 - v2) (x1 - v1, x2 - v2) / dot (w1 - v1, w2 - v2) (w1 - v1, w2 - v2) = r at hr ⊢
  have ha : a * ((w1 - v1) * (w1 - v1) + (w2 - v2) * (w2 - v2)) = (w1 - v1) * (w1 - v1) - (w2 - v2) * (w2 - v2) := by
    linear_combination (w1 - v1) * (e3 - e1) - (w2 - v2) * (e4 - e2)
  have hb : b * ((w1 - v1) * (w1 - v1) + (w2 - v2) * (w2 - v2)) = 2 * (w1 - v1) * (w2 - v2) := by
    linear_combination (w2 - v2) * (e3 - e1) + (w1 - v1) * (e4 - e2)
  have key : ∀ y z : K, ((w1 - v1) * (w1 - v1) + (w2 - v2) * (w2 - v2)) * y = ((w1 - v1) * (w1 - v1) + (w2 - v2) * (w2 - v2)) * z → y = z :=
    fun y z h => mul_left_cancel₀ n1 h
  apply Prod.ext
  · simp only [Prod.fst_sub, Prod.fst_add, Prod.smul_fst, smul_eq_mul]
    apply key
    linear_combination (x1 - v1) * ha + (x2 - v2) * hb - (w1 - v1) * hr + ((w1 - v1) * (w1 - v1) + (w2 - v2) * (w2 - v2)) * e1
  · simp only [Prod.snd_sub, Prod.snd_add, Prod.smul_snd, smul_eq_mul]
    apply key
    linear_combination (x1 - v1) * hb - (x2 - v2) * ha - (w2 - v2) * hr + ((w1 - v1) * (w1 - v1) + (w2 - v2) * (w2 - v2)) * e2

/-- The gluings of a double. -/
def doubleG (n : ℕ) (l e : ℕ) : Option (ℕ × Int) :=
  if e < n ∧ l < 2 then some (1 - l, ((n - 1 - e : ℕ) : Int)) else none

theorem doubleG_inv (n : ℕ) : ∀ l (e : ℕ) l' e', doubleG n l e = some (l', e') →
    ∃ k : ℕ, e' = k ∧ doubleG n l' k = some (l, (e : Int)) := by
  intro l e l' e' h
  unfold doubleG at h
  split_ifs at h with hc
  simp only [Option.some.injEq, Prod.mk.injEq] at h
  obtain ⟨rfl, rfl⟩ := h
  refine ⟨_, rfl, ?_⟩
  unfold doubleG
  rw [if_pos (by omega)]
  congr 2 <;> omega

/-- The pairs glued by both constructions. -/
def doublePairs (n : ℕ) : List ((ℕ × Int) × (ℕ × Int)) :=
  (List.range n).map (fun (i : ℕ) => (((0, (i : Int)), (1, (n : Int) - i - 1)) : (ℕ × Int) × (ℕ × Int)))

/-- Two polygons glued along all pairs of mirrored edges are a double. -/
theorem double_tail {p q : Poly K} (hp : p.Valid) (hq : p.mirror = .ok q) {t : MSurf ℕ (Poly K)} (hre : Reachable t)
    (hm : t.mutable = true) (hno : ∀ l e, t.opp l e = none) (hr : t.roots = []) (h0 : t.polygons.get 0 = some p)
    (h1 : t.polygons.get 1 = some q) (h2 : ∀ l, l ∈ t.polygons.keys → l = 0 ∨ l = 1) :
    wp (do gluePairs (doublePairs p.length); setImmutable) (fun _ t' => Reachable t' ∧ IsDouble p t') (fun _ _ => False) t := by
  obtain ⟨q', hq', hv, hl, ha, ⟨u, hu⟩, hed⟩ := Poly.mirror_spec hp
  rw [hq] at hq'
  injection hq' with hq'
  subst hq'
  have hn := hp.len3
  have hedge : ∀ l e c, doubleG p.length l e = some c → t.IsEdge l e := by
    intro l e c h
    unfold doubleG at h
    split_ifs at h with hc
    obtain ⟨hc, hl2⟩ := hc
    rcases (by omega : l = 0 ∨ l = 1) with rfl | rfl
    · exact ⟨p, h0, hc⟩
    · exact ⟨q, h1, by change e < q.length; omega⟩
  refine wp_mono (build_tail hre hm hno (doubleG p.length) (doubleG_inv _) hedge (doublePairs p.length) ?_ ?_ (Or.inl hr)) ?_
    (fun _ _ hh => hh)
  · intro x hx
    obtain ⟨i, hi, rfl⟩ := List.mem_map.1 hx
    rw [List.mem_range] at hi
    refine ⟨i, rfl, ?_⟩
    unfold doubleG
    rw [if_pos ⟨hi, by norm_num⟩]
    dsimp only
    congr 2
    omega
  · intro l e c h
    unfold doubleG at h
    split_ifs at h with hc
    injection h with h
    subst h
    obtain ⟨hc, hl2⟩ := hc
    rcases (by omega : l = 0 ∨ l = 1) with rfl | rfl
    · refine Or.inl (List.mem_map.2 ⟨e, List.mem_range.2 hc, ?_⟩)
      congr 2
      omega
    · refine Or.inr (List.mem_map.2 ⟨p.length - 1 - e, List.mem_range.2 (by omega), ?_⟩)
      congr 2
      omega
  rintro _ t' ⟨hre', him, hpp, ho⟩
  have hp0 : t'.polygon 0 = .ok p := by unfold polygon; rw [hpp, h0]
  have hp1 : t'.polygon 1 = .ok q := by unfold polygon; rw [hpp, h1]
  have glue : ∀ i < p.length, t'.oppositeEdge 0 (i : ℕ) = .ok (some (1, ((p.length - 1 - i : ℕ) : Int))) ∧
      t'.oppositeEdge 1 ((p.length - 1 - i : ℕ) : Int) = .ok (some (0, (i : Int))) := by
    intro i hi
    rw [oppositeEdge_eq_opp hre'.ginv.toShape ⟨p, by rw [hpp, h0], hi⟩,
      oppositeEdge_eq_opp hre'.ginv.toShape ⟨q, by rw [hpp, h1], by change _ < q.length; omega⟩, ho, ho]
    unfold doubleG
    rw [if_pos (by omega), if_pos (by omega)]
    exact ⟨rfl, by congr 3; omega⟩
  refine ⟨hre', him, fun l => ⟨?_, ?_⟩, hp0, ⟨q, hp1, hv, hl, ha, hed, fun i hi => ?_, fun i hi => ?_⟩, glue⟩
  · rintro ⟨q', h⟩
    refine h2 l ?_
    rw [Dict.mem_keys_iff]
    unfold polygon at h
    rw [hpp] at h
    cases hg : t.polygons.get l with
    | none => rw [hg] at h; cases h
    | some _ => rfl
  · rintro (rfl | rfl)
    · exact ⟨p, hp0⟩
    · exact ⟨q, hp1⟩
  · rw [hed i hi]
    simp [normSq]
  · have hne := hp.edge_ne i
    have hne' := hv.edge_ne (p.length - 1 - i)
    obtain ⟨g, -, hg, -, -, hs, hg1, hg2, -⟩ := C04_edge_transformation hre' 1 (p.length - 1 - i) 0 i (glue i hi).2 q p hp1 hp0 hne' hne
    refine ⟨g, hg, fun k hk => ?_⟩
    rw [hu (p.length - 1 - i) (i + 1) (by rw [show i + 1 + (p.length - 1 - i) = p.length by omega]; simp)] at hg1
    rw [hu (p.length - 1 - i + 1) i (by rw [show i + (p.length - 1 - i + 1) = p.length by omega]; simp)] at hg2
    rw [hu (p.length - k) k (by rw [show k + (p.length - k) = p.length by omega]; simp)]
    exact reflect_unique hs (fun he => hne (by unfold Poly.edge; rw [he, sub_self])) hg2 hg1 _

omit [IsStrictOrderedRing K] in
theorem opp_two (p q : Poly K) (n : ℕ) (l e : ℕ) :
    (⟨[(0, p), (1, q)], [(0, List.replicate (nv p) none), (1, List.replicate (nv q) none)], [], true, n⟩ : MSurf ℕ (Poly K)).opp l e = none := by
  unfold opp
  simp only [Dict.get]
  split_ifs
  · simp [List.getElem?_replicate]
    split_ifs <;> rfl
  · simp [List.getElem?_replicate]
    split_ifs <;> rfl
  · rfl

theorem polygonDouble_spec {p : Poly K} (hp : p.Valid) :
    wp (polygonDouble p) (fun _ t => Reachable t ∧ IsDouble p t) (fun _ _ => False) MSurf.empty := by
  obtain ⟨q, hq, hv, -⟩ := Poly.mirror_spec hp
  unfold polygonDouble
  rw [wp_bind, wp_liftE, hq]
  refine ⟨fun a ha => ?_, fun _ h => by cases h⟩
  injection ha with ha
  subst ha
  have r1 := wp_reachable (Reachable.empty (L := ℕ) (K := K)) rfl (.addPolygon p (some 0)) trivial (fun _ _ _ => by simp)
  have e1 : addPolygon p (some 0) (MSurf.empty : MSurf ℕ (Poly K)) = .ok 0 ⟨[(0, p)], [(0, List.replicate (nv p) none)], [], true, 0⟩ := rfl
  simp only [Op.run] at r1
  rw [wp_bind] at r1 ⊢
  unfold wp at r1 ⊢
  rw [e1] at r1 ⊢
  dsimp only at r1 ⊢
  have r2 := wp_reachable r1 rfl (.addPolygon q (some 1)) trivial (fun _ _ _ => by simp)
  simp only [Op.run] at r2
  have e2 : addPolygon q (some 1) (⟨[(0, p)], [(0, List.replicate (nv p) none)], [], true, 0⟩ : MSurf ℕ (Poly K)) =
    .ok 1 ⟨[(0, p), (1, q)], [(0, List.replicate (nv p) none), (1, List.replicate (nv q) none)], [], true, 0⟩ := rfl
  rw [wp_bind] at r2
  rw [← wp, wp_bind]
  unfold wp at r2 ⊢
  rw [e2] at r2 ⊢
  dsimp only at r2 ⊢
  rw [← wp]
  exact double_tail hp hq r2 rfl (opp_two p q 0) rfl rfl rfl (fun l hl => by simpa [Dict.keys] using hl)

theorem billiard_spec {p : Poly K} (hp : p.Valid) (hc : p.isConvex false = true) :
    wp (billiard p) (fun _ t => Reachable t ∧ IsDouble p t) (fun _ _ => False) MSurf.empty := by
  obtain ⟨q, hq, hv, -⟩ := Poly.mirror_spec hp
  unfold billiard
  rw [wp_ite]
  refine ⟨fun h => absurd hc h, fun _ => ?_⟩
  have r1 := wp_reachable (Reachable.empty (L := ℕ) (K := K)) rfl (.addPolygon p none) trivial (fun _ _ _ => by simp)
  have e1 : addPolygon p none (MSurf.empty : MSurf ℕ (Poly K)) = .ok 0 ⟨[(0, p)], [(0, List.replicate (nv p) none)], [], true, 0⟩ := rfl
  simp only [Op.run] at r1
  rw [wp_bind] at r1
  dsimp only
  rw [wp_bind]
  unfold wp at r1 ⊢
  rw [e1] at r1 ⊢
  dsimp only at r1 ⊢
  rw [← wp, wp_bind, wp_liftE, hq]
  refine ⟨fun a ha => ?_, fun _ h => by cases h⟩
  injection ha with ha
  subst ha
  have r2 := wp_reachable r1 rfl (.addPolygon q none) trivial (fun _ _ _ => by simp)
  simp only [Op.run] at r2
  have e2 : addPolygon q none (⟨[(0, p)], [(0, List.replicate (nv p) none)], [], true, 0⟩ : MSurf ℕ (Poly K)) =
    .ok 1 ⟨[(0, p), (1, q)], [(0, List.replicate (nv p) none), (1, List.replicate (nv q) none)], [], true, 1⟩ := rfl
  rw [wp_bind] at r2
  rw [wp_bind]
  unfold wp at r2 ⊢
  rw [e2] at r2 ⊢
  dsimp only at r2 ⊢
  rw [← wp, wp_bind, wp_get, wp_bind, wp_liftE]
  have hgs : ((List.range p.length).map (fun (i : ℕ) => ((0, (i : Int)) : ℕ × Int))).mapM (fun x => do
      let ne ← (⟨[(0, p), (1, q)], [(0, List.replicate (nv p) none), (1, List.replicate (nv q) none)], [], true, 1⟩ : MSurf ℕ (Poly K)).polygon x.1
      return (x, ((1 + x.1, (nv ne : Int) - x.2 - 1) : ℕ × Int)) : ℕ × Int → Except Err ((ℕ × Int) × (ℕ × Int))) =
      .ok (doublePairs p.length) := by
    rw [mapM_ok_iff, List.forall₂_map_left_iff]
    unfold doublePairs
    rw [List.forall₂_map_right_iff]
    refine List.forall₂_same.2 fun i _ => ?_
    rfl
  rw [hgs]
  refine ⟨fun a ha => ?_, fun _ h => by cases h⟩
  injection ha with ha
  subst ha
  exact double_tail hp hq r2 rfl (opp_two p q 1) rfl rfl rfl (fun l hl => by simpa [Dict.keys] using hl)

section
variable {L : Type} [LinearOrder L]

/-- The total area is the sum over any list of the labels. -/
theorem totalArea_spec {t : MSurf L (Poly K)} (h : GInv t) (hr : RootsOK t) (ls : List L) (hn : ls.Nodup)
    (hm : ∀ l, l ∈ ls ↔ l ∈ t.polygons.keys) (f : L → Poly K) (hf : ∀ l ∈ ls, t.polygon l = .ok (f l)) :
    t.totalArea = .ok (ls.map (fun l => (f l).area)).sum := by
  obtain ⟨ls', h1, h2, h3⟩ := labels_spec h hr
  have h4 : ls'.mapM t.polygon = .ok (ls'.map f) := by
    rw [mapM_ok_iff, List.forall₂_map_right_iff]
    exact List.forall₂_same.2 fun l hl => hf l ((hm l).2 ((h3 l).1 hl))
  unfold totalArea
  simp only [h1, h4, bind, Except.bind, pure, Except.pure, List.map_map]
  have : ls'.Perm ls := (List.perm_ext_iff_of_nodup h2 hn).2 fun l => by rw [h3, hm]
  congr 1
  exact (this.map _).sum_eq

end

/-- The area of a double. -/
theorem IsDouble.area {p : Poly K} {t : MSurf ℕ (Poly K)} (ht : Reachable t) (h : IsDouble p t) : t.totalArea = .ok (2 * p.area) := by
  obtain ⟨q, hq, -, -, ha, -⟩ := h.image
  have hk : ∀ l, l ∈ [0, 1] ↔ l ∈ t.polygons.keys := by
    intro l
    have := h.labels l
    rw [Dict.mem_keys_iff]
    rw [List.mem_cons, List.mem_singleton, ← this]
    unfold MSurf.polygon
    cases t.polygons.get l <;> simp
  rw [totalArea_spec ht.ginv ht.rootsOK [0, 1] (by simp) hk (fun l => if l = 0 then p else q)]
  · simp only [List.map_cons, List.map_nil, List.sum_cons, List.sum_nil, if_true, one_ne_zero, if_false, ha]
    congr 1
    ring
  · intro l hl
    rcases List.mem_cons.1 hl with rfl | hl
    · exact h.polygon
    · rw [List.mem_singleton] at hl
      subst hl
      exact hq

/-- **C46.** `polygon_double` of any polygon returns the surface made of the polygon and its mirror image, in which every edge
is glued to its mirror image. -/
theorem C46_polygon_double {p : Poly K} (hp : p.Valid) :
    ∃ t, polygonDouble p MSurf.empty = .ok () t ∧ Reachable t ∧ IsDouble p t ∧ t.totalArea = .ok (2 * p.area) := by
  obtain ⟨_, t, h1, h2, h3⟩ := wp_ok (polygonDouble_spec hp)
  exact ⟨t, h1, h2, h3, h3.area h2⟩

/-- **C46.** The same for `billiard` of a convex polygon: reflecting the polygon in an edge and unfolding the billiard table across
this edge are the same. -/
theorem C46_billiard {p : Poly K} (hp : p.Valid) (hc : p.isConvex false = true) :
    ∃ t, billiard p MSurf.empty = .ok () t ∧ Reachable t ∧ IsDouble p t ∧ t.totalArea = .ok (2 * p.area) := by
  obtain ⟨_, t, h1, h2, h3⟩ := wp_ok (billiard_spec hp hc)
  exact ⟨t, h1, h2, h3, h3.area h2⟩

/-- A triangle without symmetries. -/
def exTable : Poly ℚ := [(0, 0), (3, 0), (1, 2)]

example : exTable.Valid ∧ exTable.isConvex false = true :=
  ⟨((Poly.ofVertices_iff exTable exTable).1 (by decide +kernel)).2, by decide +kernel⟩

example : exTable.mirror = .ok [(0, 0), (1, -2), (3, 0)] := by decide +kernel

end MSurf
end Flat
