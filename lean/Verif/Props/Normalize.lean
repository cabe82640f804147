import Verif.Model.Normalize
import Verif.Lemmas.AddPolys
import Verif.Lemmas.PolyMap
import Verif.Props.VertexZero
import Verif.Lemmas.AllValid
import Verif.Props.Subdivide
import Verif.Props.Centroid

/-!
# C92: `normalized_coordinates`
-/

namespace Flat
namespace Poly
variable {K : Type} [Field K] [LinearOrder K] [IsStrictOrderedRing K]

/-- A polygon has a corner that is not straight. -/
theorem Valid.exists_corner {p : Poly K} (h : p.Valid) : ∃ i < p.length, ccw (p.edge i) (p.edge (i + 1)) ≠ 0 := by
  by_contra hn
  push Not at hn
  have hpos : 0 < p.length := by have := h.len3; omega
  have key : ∀ i < p.length, ∃ t : K, 0 < t ∧ p.edge i = t • p.edge 0 := by
    intro i
    induction i with
    | zero => exact fun _ => ⟨1, one_pos, (one_smul _ _).symm⟩
    | succ i ih =>
      intro hi
      obtain ⟨t, ht, he⟩ := ih (by omega)
      have h0 := hn i (by omega)
      have hne := h.edge_ne i
      have hne' := h.edge_ne (i + 1)
      have ha := h.turn i
      obtain ⟨r, hr⟩ : ∃ r : K, p.edge (i + 1) = r • p.edge i := by
        generalize p.edge i = a at h0 hne
        generalize p.edge (i + 1) = b at h0
        obtain ⟨a1, a2⟩ := a
        obtain ⟨b1, b2⟩ := b
        simp only [ccw] at h0
        by_cases h1 : a1 = 0
        · have h2 : a2 ≠ 0 := fun h2 => hne (by rw [h1, h2]; rfl)
          subst h1
          have : b1 = 0 := by
            have : a2 * b1 = 0 := by linarith
            exact (mul_eq_zero.1 this).resolve_left h2
          refine ⟨b2 / a2, ?_⟩
          ext
          · simp [this]
          · simp [h2]
        · refine ⟨b1 / a1, ?_⟩
          ext
          · simp [h1]
          · simp only [Prod.smul_snd, smul_eq_mul]
            field_simp
            linarith
      have hr0 : 0 < r := by
        rcases lt_trichotomy r 0 with h1 | h1 | h1
        · rw [← Bool.not_eq_true, C05_isAntiParallel_iff _ _ hne] at ha
          exact absurd ⟨r, h1, hr⟩ ha
        · rw [h1, zero_smul] at hr
          exact absurd hr hne'
        · exact h1
      exact ⟨r * t, mul_pos hr0 ht, by rw [hr, he, smul_smul]⟩
  have hsum := edges_sum p p.length le_rfl
  have hlen : p.edges.length = p.length := by simp [edges]
  have hcyc : p.vertex p.length = p.vertex 0 := by rw [← vertex_mod, Nat.mod_self]
  rw [← hlen, List.take_length, hlen, hcyc, sub_self] at hsum
  have hall : ∀ k ≤ p.length, ∃ t : K, (k = 0 → t = 0) ∧ (0 < k → 0 < t) ∧ ((List.range k).map p.edge).sum = t • p.edge 0 := by
    intro k
    induction k with
    | zero => exact fun _ => ⟨0, fun _ => rfl, fun h => absurd h (lt_irrefl _), by simp⟩
    | succ k ih =>
      intro hk
      obtain ⟨t, h1, h2, h3⟩ := ih (by omega)
      obtain ⟨r, hr, he⟩ := key k (by omega)
      refine ⟨t + r, fun h => by omega, fun _ => ?_, ?_⟩
      · rcases Nat.eq_zero_or_pos k with hk0 | hk0
        · rw [h1 hk0]; linarith
        · have := h2 hk0; linarith
      · rw [List.range_succ, List.map_append, List.sum_append, h3, List.map_singleton, List.sum_singleton, he, add_smul]
  obtain ⟨t, -, ht, hs⟩ := hall p.length le_rfl
  have : t • p.edge 0 = 0 := by rw [← hs]; exact hsum
  have ht0 := (ht hpos).ne'
  refine h.edge_ne 0 ?_
  have h1 := congrArg (fun x => t⁻¹ • x) this
  rwa [smul_smul, inv_mul_cancel₀ ht0, one_smul, smul_zero] at h1

/-- The polygon with the images of the edges. -/
theorem ofEdges_image {p : Poly K} (h : p.Valid) {M : Mat2 K} (hM : 0 < M.det) :
    ∃ q, ofEdges (p.edges.map M.mulVec) = .ok q ∧ q.length = p.length ∧ q.vertex 0 = 0 ∧ ∀ e, q.edge e = M.mulVec (p.edge e) := by
  have hp := h.ne_nil
  have hm : mul M p = some (p.map M.mulVec) := by
    unfold mul
    rw [if_neg hM.ne', if_neg hM.le.not_gt]
  have hq := C10_mul_valid h hm
  have hqn := hq.ne_nil
  obtain ⟨hlen, -, hv, -⟩ := C10_vertices M p _ hp hm
  have he : ∀ e, edge (p.map M.mulVec) e = M.mulVec (p.edge e) := fun e => by
    unfold edge
    rw [hv hM, hv hM, mulVec_sub]
  have hes : edges (p.map M.mulVec) = p.edges.map M.mulVec := by
    unfold edges
    rw [hlen, List.map_map]
    exact List.map_congr_left fun e _ => he e
  refine ⟨_, by rw [← hes]; exact ofEdges_of_valid hq, ?_, ?_, fun e => ?_⟩
  · rw [← hlen]; simp [translate]
  · rw [vertex_translate _ hqn, neg_add_cancel]
  · rw [edge_translate _ hqn, he]

/-- Corner `i` is the first one after vertex 0 that is not straight. -/
structure FirstCorner (p : Poly K) (i : ℕ) : Prop where
  pos : 1 ≤ i
  straight : ∀ j, 1 ≤ j → j < i → ccw (p.edge (j - 1)) (p.edge j) = 0
  bent : ccw (p.edge (i - 1)) (p.edge i) ≠ 0

omit [LinearOrder K] [IsStrictOrderedRing K] in
theorem ccw_neg_swap (a b : Vec K) : ccw b (-a) = ccw a b := by
  simp only [ccw, Prod.fst_neg, Prod.snd_neg]
  ring

theorem Valid.firstCorner {p : Poly K} (h : p.Valid) : ∃ i ≤ p.length, FirstCorner p i := by
  classical
  obtain ⟨j, hj, hc⟩ := h.exists_corner
  have hex : ∃ k, ccw (p.edge k) (p.edge (k + 1)) ≠ 0 := ⟨j, hc⟩
  refine ⟨Nat.find hex + 1, ?_, ⟨by omega, fun k h1 h2 => ?_, Nat.find_spec hex⟩⟩
  · have := Nat.find_min' hex hc
    omega
  · have := Nat.find_min hex (m := k - 1) (by omega)
    rw [not_not, Nat.sub_add_cancel h1] at this
    exact this

theorem FirstCorner.unique {p : Poly K} {i j : ℕ} (hi : FirstCorner p i) (hj : FirstCorner p j) : i = j := by
  rcases lt_trichotomy i j with h | h | h
  · exact absurd (hj.straight i hi.pos h) hi.bent
  · exact h
  · exact absurd (hi.straight j hj.pos h) hj.bent

end Poly

namespace MSurf
variable {L K : Type} [LinearOrder L] [LabelNum L] [Field K] [LinearOrder K] [IsStrictOrderedRing K]

omit [IsStrictOrderedRing K] in
theorem findCorner_eq {p : Poly K} {i : ℕ} (h : p.FirstCorner i) (fuel j : ℕ) (h1 : 1 ≤ j) (h2 : j ≤ i) (h3 : i < j + fuel) :
    findCorner p fuel j = .ok (p.edge i, -p.edge (i - 1)) := by
  induction fuel generalizing j with
  | zero => omega
  | succ fuel ih =>
    unfold findCorner
    dsimp only
    rw [Poly.ccw_neg_swap]
    rcases Nat.lt_or_eq_of_le h2 with h' | rfl
    · rw [if_pos (h.straight j h1 h')]
      exact ih (j + 1) (by omega) (by omega) (by omega)
    · rw [if_neg h.bent]

theorem cornerMatrix_spec {u v : Vec K} (h : ccw u v ≠ 0) :
    (cornerMatrix u v).det = (ccw u v)⁻¹ ∧ (cornerMatrix u v).mulVec u = (1, 0) ∧ (cornerMatrix u v).mulVec v = (0, 1) := by
  have hd : u.1 * v.2 - v.1 * u.2 ≠ 0 := by
    simp only [ccw] at h
    intro h'
    exact h (by linarith)
  have hd' : ccw u v = u.1 * v.2 - v.1 * u.2 := by simp only [ccw]; ring
  rw [hd']
  refine ⟨?_, ?_, ?_⟩
  · simp only [cornerMatrix, Mat2.det]
    field_simp
  · simp only [cornerMatrix, Mat2.mulVec, div_mul_eq_mul_div, ← add_div]
    ext
    · exact (div_eq_one_iff_eq hd).2 (by ring)
    · dsimp only
      rw [show -u.2 * u.1 + u.1 * u.2 = 0 by ring, zero_div]
  · simp only [cornerMatrix, Mat2.mulVec, div_mul_eq_mul_div, ← add_div]
    ext
    · dsimp only
      rw [show v.2 * v.1 + -v.1 * v.2 = 0 by ring, zero_div]
    · exact (div_eq_one_iff_eq hd).2 (by ring)

/-- `t` is the image of `s` under the linear map `M`, with the labels `ls` of `s` replaced by their positions and each polygon moved to the
origin. -/
structure Normalized (s : MSurf L (Poly K)) (ls : List L) (M : Mat2 K) (t : MSurf ℕ (Poly K)) : Prop where
  polygon : ∀ (k : ℕ) l, ls[k]? = some l → ∃ p q, s.polygon l = .ok p ∧ t.polygon k = .ok q ∧ q.Valid ∧ q.length = p.length ∧ q.vertex 0 = 0 ∧
    ∀ e, q.edge e = M.mulVec (p.edge e)
  labels : ∀ k, ls.length ≤ k → t.polygon k = .error .keyError
  boundary : ∀ (k : ℕ) l, ls[k]? = some l → ∀ e : ℕ, s.oppositeEdge l e = .ok none → t.oppositeEdge k e = .ok none
  glued : ∀ (k : ℕ) l, ls[k]? = some l → ∀ (e : ℕ) l' e', s.oppositeEdge l e = .ok (some (l', e')) →
    ∃ k' : ℕ, ls[k']? = some l' ∧ t.oppositeEdge k e = .ok (some (k', e'))

/-- The gluings with the labels replaced by their positions. -/
def numberedOpp (s : MSurf L (Poly K)) (ls : List L) (k e : ℕ) : Option (ℕ × Int) :=
  (ls[k]?).bind fun l => (s.opp l e).map fun c => (ls.idxOf c.1, c.2)

theorem normalized_spec {s : MSurf L (Poly K)} (h : Reachable s) (hv : ∀ l p, s.polygon l = .ok p → p.Valid) {ls : List L}
    (hls : s.labels = .ok ls) {M : Mat2 K} (hM : s.normalizingMatrix = .ok M) (hd : 0 < M.det) :
    wp s.normalizedCoordinates (fun M' t => M' = M ∧ Reachable t ∧ t.mutable = true ∧ Normalized s ls M t) (fun _ _ => False) MSurf.empty := by
  obtain ⟨ls', hls', hnd, hmem⟩ := labels_spec h.ginv h.rootsOK
  rw [hls] at hls'
  cases hls'
  obtain ⟨gs, hgs, hgm⟩ := gluingPairs_spec h.ginv h.rootsOK
  have hget : ∀ l ∈ ls, ∃ p, s.polygons.get l = some p := fun l hl => by
    have := (hmem l).1 hl
    rw [Dict.mem_keys_iff] at this
    exact Option.isSome_iff_exists.1 this
  have hone : ∀ l ∈ ls, ∃ p q, s.polygons.get l = some p ∧ (do let p ← s.polygon l; Poly.ofEdges (p.edges.map M.mulVec) : Except Err (Poly K)) = .ok q ∧
      q.Valid ∧ q.length = p.length ∧ q.vertex 0 = 0 ∧ ∀ e, q.edge e = M.mulVec (p.edge e) := fun l hl => by
    obtain ⟨p, hp⟩ := hget l hl
    have hpl : s.polygon l = .ok p := polygon_ok.2 hp
    obtain ⟨q, h1, h2, h3, h4⟩ := Poly.ofEdges_image (hv l p hpl) hd
    refine ⟨p, q, hp, ?_, ofEdges_valid h1, h2, h3, h4⟩
    simp only [hpl, bind, Except.bind]
    exact h1
  obtain ⟨qs, hqs⟩ : ∃ qs, ls.mapM (fun l => do let p ← s.polygon l; Poly.ofEdges (p.edges.map M.mulVec) : L → Except Err (Poly K)) = .ok qs := by
    clear hls hnd hmem hget
    induction ls with
    | nil => exact ⟨[], rfl⟩
    | cons l ls ih =>
      obtain ⟨qs, h1⟩ := ih fun l hl => hone l (by simp [hl])
      obtain ⟨_, q, -, h2, -⟩ := hone l (by simp)
      refine ⟨q :: qs, ?_⟩
      rw [mapM_ok_iff] at h1 ⊢
      exact .cons h2 h1
  have hall := (mapM_ok_iff _ _ _).1 hqs
  have hlen : qs.length = ls.length := hall.length_eq.symm
  have hpoly : ∀ (k : ℕ) l, ls[k]? = some l → ∃ p q, s.polygons.get l = some p ∧ qs[k]? = some q ∧
      q.Valid ∧ q.length = p.length ∧ q.vertex 0 = 0 ∧ ∀ e, q.edge e = M.mulVec (p.edge e) := fun k l hk => by
    obtain ⟨hk1, hk2⟩ := List.getElem?_eq_some_iff.1 hk
    obtain ⟨p, q, h1, h2, h3⟩ := hone l (List.mem_of_getElem? hk)
    refine ⟨p, q, h1, ?_, h3⟩
    have := (List.forall₂_iff_get.1 hall).2 k hk1 (by omega)
    rw [List.get_eq_getElem, List.get_eq_getElem, hk2, h2] at this
    rw [List.getElem?_eq_getElem (by omega)]
    injection this with this
    rw [this]
  have hidx : ∀ l ∈ ls, ls[ls.idxOf l]? = some l := fun l hl => by
    rw [List.getElem?_eq_getElem (List.idxOf_lt_length_iff.2 hl), List.getElem_idxOf]
  have hidx' : ∀ (k : ℕ) l, ls[k]? = some l → ls.idxOf l = k := fun k l hk => by
    obtain ⟨hk1, hk2⟩ := List.getElem?_eq_some_iff.1 hk
    rw [← hk2, hnd.idxOf_getElem]
  have hom : ∀ l (e : ℕ) c, s.opp l e = some c → l ∈ ls ∧ c.1 ∈ ls ∧ ∃ k : ℕ, c.2 = k ∧ s.opp c.1 k = some (l, (e : Int)) := by
    rintro l e ⟨l', e'⟩ hc
    obtain ⟨k, rfl, hk⟩ := h.ginv.inv _ _ _ _ hc
    refine ⟨?_, ?_, k, rfl, hk⟩
    · obtain ⟨p, hp, -⟩ := opp_isEdge h.ginv.toShape hc
      rw [hmem, Dict.mem_keys_iff, hp]; rfl
    · obtain ⟨p, hp, -⟩ := opp_isEdge h.ginv.toShape hk
      rw [hmem, Dict.mem_keys_iff, hp]; rfl
  have hGof : ∀ l (e : ℕ) c, s.opp l e = some c → numberedOpp s ls (ls.idxOf l) e = some (ls.idxOf c.1, c.2) := fun l e c hc => by
    unfold numberedOpp
    rw [hidx l (hom l e c hc).1]
    simp only [Option.bind_some, hc, Option.map_some]
  have hGto : ∀ (k e : ℕ) c, numberedOpp s ls k e = some c → ∃ l c0, ls[k]? = some l ∧ s.opp l e = some c0 ∧ c = (ls.idxOf c0.1, c0.2) := fun k e c hc => by
    unfold numberedOpp at hc
    rw [Option.bind_eq_some_iff] at hc
    obtain ⟨l, hl, hc⟩ := hc
    rw [Option.map_eq_some_iff] at hc
    obtain ⟨c0, h1, h2⟩ := hc
    exact ⟨l, c0, hl, h1, h2.symm⟩
  unfold normalizedCoordinates
  rw [wp_bind, wp_liftE, hM]
  refine ⟨fun a ha => ?_, fun _ h' => by cases h'⟩
  cases ha
  rw [wp_bind, wp_liftE, hls]
  refine ⟨fun a ha => ?_, fun _ h' => by cases h'⟩
  cases ha
  rw [wp_bind, wp_liftE, hqs]
  refine ⟨fun a ha => ?_, fun _ h' => by cases h'⟩
  cases ha
  rw [wp_bind]
  refine wp_mono (wp_addPolys .empty numbered_empty qs) ?_ (fun _ _ hh => hh)
  rintro _ t ⟨hrt, hnt, hpt⟩
  have hpt' : ∀ i, t.polygons.get i = qs[i]? := fun i => by rw [hpt, if_neg (by omega), Nat.sub_zero]
  rw [wp_bind, wp_liftE, hgs]
  refine ⟨fun a ha => ?_, fun _ h' => by cases h'⟩
  cases ha
  rw [wp_bind]
  have hEdge : ∀ (k e : ℕ) l p, ls[k]? = some l → s.polygons.get l = some p → e < p.length → t.IsEdge k e := by
    intro k e l p hk hp he
    obtain ⟨p', q, h1, h2, -, h3, -⟩ := hpoly k l hk
    rw [hp] at h1
    cases h1
    exact ⟨q, by rw [hpt', h2], by rw [show nv q = q.length from rfl, h3]; exact he⟩
  refine wp_mono (build_glue hrt hnt.unlocked hnt.opp (numberedOpp s ls) ?_ ?_ _ ?_ ?_ (Or.inl hnt.roots)) ?_ (fun _ _ hh => hh)
  · intro k e k' e' hc
    obtain ⟨l, c0, h1, h2, h3⟩ := hGto _ _ _ hc
    obtain ⟨-, h5, j, h6, h7⟩ := hom _ _ _ h2
    injection h3 with h3 h4
    refine ⟨j, by rw [h4, h6], ?_⟩
    rw [h3, hGof _ _ _ h7, hidx' _ _ h1]
  · intro k e c hc
    obtain ⟨l, c0, h1, h2, -⟩ := hGto _ _ _ hc
    obtain ⟨p, hp, he⟩ := opp_isEdge h.ginv.toShape h2
    exact hEdge k e l p h1 hp he
  · intro x hx
    obtain ⟨y, hy, rfl⟩ := List.mem_map.1 hx
    obtain ⟨e, he, hy'⟩ := (hgm y).1 hy
    exact ⟨e, he, hGof _ _ _ hy'⟩
  · intro k e c hc
    obtain ⟨l, c0, h1, h2, h3⟩ := hGto _ _ _ hc
    left
    refine List.mem_map.2 ⟨((l, e), c0), (hgm _).2 ⟨e, rfl, h2⟩, ?_⟩
    rw [h3, hidx' _ _ h1]
  rintro _ t' ⟨hr', hm', hp', ho'⟩
  rw [wp_pure]
  have hpp : ∀ i, t'.polygons.get i = qs[i]? := fun i => by rw [hp', hpt']
  have hE' : ∀ (k e : ℕ) l, ls[k]? = some l → s.IsEdge l e → t'.IsEdge k e := by
    rintro k e l hk ⟨p, hp, he⟩
    obtain ⟨q, h1, h2⟩ := hEdge k e l p hk hp he
    exact ⟨q, by rw [hp']; exact h1, h2⟩
  have hisE : ∀ l (e : ℕ) c, s.oppositeEdge l (e : Int) = .ok c → s.IsEdge l e := fun l e c hc => by
    by_contra hn
    rw [oppositeEdge_error h.ginv.toShape hn] at hc
    cases hc
  refine ⟨rfl, hr', hm', ⟨fun k l hk => ?_, fun k hk => ?_, fun k l hk e hc => ?_, fun k l hk e l' e' hc => ?_⟩⟩
  · obtain ⟨p, q, h1, h2, h3⟩ := hpoly k l hk
    exact ⟨p, q, polygon_ok.2 h1, polygon_ok.2 (by rw [hpp, h2]), h3⟩
  · unfold polygon
    rw [hpp, List.getElem?_eq_none (by omega)]
  · have hE := hisE _ _ _ hc
    rw [oppositeEdge_eq_opp h.ginv.toShape hE] at hc
    injection hc with hc
    rw [oppositeEdge_eq_opp hr'.ginv.toShape (hE' k e l hk hE), ho']
    unfold numberedOpp
    rw [hk]
    simp only [Option.bind_some, hc, Option.map_none]
  · have hE := hisE _ _ _ hc
    rw [oppositeEdge_eq_opp h.ginv.toShape hE] at hc
    injection hc with hc
    refine ⟨ls.idxOf l', hidx l' (hom _ _ _ hc).2.1, ?_⟩
    rw [oppositeEdge_eq_opp hr'.ginv.toShape (hE' k e l hk hE), ho', ← hidx' k l hk, hGof _ _ _ hc]

theorem normalizingMatrix_eq {s : MSurf L (Poly K)} {l : L} {ls : List L} (hls : s.labels = .ok (l :: ls)) {p : Poly K}
    (hp : s.polygon l = .ok p) (hv : p.Valid) {i : ℕ} (hi : p.FirstCorner i) :
    s.normalizingMatrix = if 0 < ccw (p.edge (i - 1)) (p.edge i) then .ok (cornerMatrix (p.edge i) (-p.edge (i - 1))) else .error .assertionError := by
  obtain ⟨j, hj, hj'⟩ := hv.firstCorner
  have := hi.unique hj'
  subst this
  have hc := findCorner_eq hi p.length 1 le_rfl hi.pos (by omega)
  have hcc := Poly.ccw_neg_swap (p.edge (i - 1)) (p.edge i)
  have hm := (cornerMatrix_spec (u := p.edge i) (v := -p.edge (i - 1)) (by rw [hcc]; exact hi.bent)).1
  unfold normalizingMatrix
  simp only [hls, hp, hc, bind, Except.bind, hm, hcc, inv_pos, pure, Except.pure]

/-- **C92.** When the first corner of the first polygon that is not straight turns to the left, `normalized_coordinates()` returns the image of
the surface under a matrix of positive determinant which maps the edges that meet in that corner to the standard basis. -/
theorem C92_returns_partial {s : MSurf L (Poly K)} (h : Reachable s) (hv : ∀ l p, s.polygon l = .ok p → p.Valid) {l : L} {ls : List L}
    (hls : s.labels = .ok (l :: ls)) {p : Poly K} (hp : s.polygon l = .ok p) {i : ℕ} (hi : p.FirstCorner i)
    (hc : 0 < ccw (p.edge (i - 1)) (p.edge i)) :
    ∃ M t, s.normalizedCoordinates MSurf.empty = .ok M t ∧ 0 < M.det ∧ M.mulVec (p.edge i) = (1, 0) ∧ M.mulVec (-p.edge (i - 1)) = (0, 1) ∧
      Reachable t ∧ t.mutable = true ∧ Normalized s (l :: ls) M t := by
  have hM := normalizingMatrix_eq hls hp (hv l p hp) hi
  rw [if_pos hc] at hM
  have hcc := Poly.ccw_neg_swap (p.edge (i - 1)) (p.edge i)
  obtain ⟨h1, h2, h3⟩ := cornerMatrix_spec (u := p.edge i) (v := -p.edge (i - 1)) (by rw [hcc]; exact hi.bent)
  have hd : 0 < (cornerMatrix (p.edge i) (-p.edge (i - 1))).det := by rw [h1, hcc]; exact inv_pos.2 hc
  obtain ⟨M, t, k1, rfl, k2, k3, k4⟩ := wp_ok (normalized_spec h hv hls hM hd)
  exact ⟨_, t, k1, hd, h2, h3, k2, k3, k4⟩

/-- **C92.** On a surface whose first polygon is convex (straight angles are fine) `normalized_coordinates()` always returns. -/
theorem C92_convex_partial {s : MSurf L (Poly K)} (h : Reachable s) (hv : ∀ l p, s.polygon l = .ok p → p.Valid) {l : L} {ls : List L}
    (hls : s.labels = .ok (l :: ls)) {p : Poly K} (hp : s.polygon l = .ok p) (hc : p.isConvex false = true) :
    ∃ M t, s.normalizedCoordinates MSurf.empty = .ok M t ∧ 0 < M.det ∧
      (∃ i, M.mulVec (p.edge (i + 1)) = (1, 0) ∧ M.mulVec (-p.edge i) = (0, 1)) ∧ Reachable t ∧ t.mutable = true ∧ Normalized s (l :: ls) M t := by
  obtain ⟨i, -, hi⟩ := (hv l p hp).firstCorner
  have hpos : 0 < p.length := by have := (hv l p hp).len3; omega
  have hnn : 0 ≤ ccw (p.edge (i - 1)) (p.edge i) := by
    unfold Poly.isConvex at hc
    simp only [List.all_eq_true, List.mem_range, Bool.false_eq_true, if_false, decide_eq_true_eq, not_lt] at hc
    have := hc ((i - 1) % p.length) (Nat.mod_lt _ hpos)
    rwa [Poly.edge_mod, Poly.edge_congr p (show ((i - 1) % p.length + 1) % p.length = i % p.length by
      rw [Nat.mod_add_mod, Nat.sub_add_cancel hi.pos])] at this
  obtain ⟨M, t, h1, h2, h3, h4, h5⟩ := C92_returns_partial h hv hls hp hi (lt_of_le_of_ne hnn hi.bent.symm)
  exact ⟨M, t, h1, h2, ⟨i - 1, by rw [Nat.sub_add_cancel hi.pos]; exact h3, h4⟩, h5⟩

/-- **C92, violated.** When that corner turns to the right, `normalized_coordinates()` raises an `AssertionError`. -/
theorem C92_reflex {s : MSurf L (Poly K)} {l : L} {ls : List L} (hls : s.labels = .ok (l :: ls)) {p : Poly K} (hp : s.polygon l = .ok p)
    (hv : p.Valid) {i : ℕ} (hi : p.FirstCorner i) (hc : ccw (p.edge (i - 1)) (p.edge i) < 0) :
    s.normalizedCoordinates MSurf.empty = .error .assertionError MSurf.empty := by
  have hM := normalizingMatrix_eq hls hp hv hi
  rw [if_neg hc.not_gt] at hM
  have : wp s.normalizedCoordinates (fun _ _ => False) (fun e t => e = .assertionError ∧ t = MSurf.empty) MSurf.empty := by
    unfold normalizedCoordinates
    rw [wp_bind, wp_liftE, hM]
    exact ⟨fun _ h' => (by cases h'), fun e he => by injection he with he; exact ⟨he.symm, rfl⟩⟩
  unfold wp at this
  cases hr : s.normalizedCoordinates MSurf.empty with
  | ok a t => rw [hr] at this; exact this.elim
  | error e t => rw [hr] at this; rw [this.1, this.2]

/-- The `L`-shaped surface in `H(2)` made from three squares, as a polygon whose vertex 1 is the reflex corner. -/
def exReflexPoly : Poly ℚ := [(2, 1), (1, 1), (1, 2), (0, 2), (0, 1), (0, 0), (1, 0), (2, 0)]

theorem exReflexPoly_valid : exReflexPoly.Valid := (Poly.check_iff _ (by decide)).1 (by decide +kernel)

def exReflex : MSurf ℕ (Poly ℚ) :=
  runOps [.addPolygon exReflexPoly none, .glue (0, 0) (0, 6), .glue (0, 1) (0, 3), .glue (0, 2) (0, 5), .glue (0, 4) (0, 7)] empty

theorem exReflex_reachable : Reachable exReflex := by
  refine reachable_runOps _ _ .empty (by decide +kernel) ?_ ?_
  · intro op hop
    simp only [List.mem_cons, List.not_mem_nil, or_false] at hop
    rcases hop with rfl | rfl | rfl | rfl | rfl <;> simp [Op.NonNeg]
  · intro op hop
    simp only [List.mem_cons, List.not_mem_nil, or_false] at hop
    rcases hop with rfl | rfl | rfl | rfl | rfl <;> simp

/-- **C92, violated.** A translation surface without boundary that has no normalized coordinates. -/
theorem C92_violation : ∃ s : MSurf ℕ (Poly ℚ), Reachable s ∧ s.labels = .ok [0] ∧ s.polygon 0 = .ok exReflexPoly ∧ exReflexPoly.Valid ∧
    (∀ e : Fin 8, ∃ e' : Fin 8, s.oppositeEdge 0 e = .ok (some (0, e')) ∧ exReflexPoly.edge e = -exReflexPoly.edge e') ∧
    s.normalizedCoordinates MSurf.empty = .error .assertionError MSurf.empty := by
  have hl : exReflex.labels = .ok [0] := by decide +kernel
  have hp : exReflex.polygon 0 = .ok exReflexPoly := by decide +kernel
  exact ⟨exReflex, exReflex_reachable, hl, hp, exReflexPoly_valid, by decide +kernel,
    C92_reflex hl hp exReflexPoly_valid (i := 1) ⟨le_rfl, fun j h1 h2 => by omega, by decide +kernel⟩ (by decide +kernel)⟩

/-- The hypotheses are satisfiable: the torus made from two triangles. -/
example : ∃ M t, exTorus.normalizedCoordinates MSurf.empty = .ok M t ∧ 0 < M.det ∧ Normalized exTorus [0, 1] M t := by
  have hv : ∀ l p, exTorus.polygon l = .ok p → p.Valid := fun l p hp => (exTorus_convex (l := l) hp).1
  have hp : exTorus.polygon 0 = .ok tri := by decide +kernel
  obtain ⟨M, t, h1, h2, -, -, -, h3⟩ := C92_convex_partial exTorus_reachable hv (l := 0) (ls := [1]) (by decide +kernel) hp (by decide +kernel)
  exact ⟨M, t, h1, h2, h3⟩

end MSurf
end Flat
