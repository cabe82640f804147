import Verif.Lemmas.EdgeMap
import Verif.Props.VertexZero
import Verif.Props.EdgeTransformation

/-!
# C28: `join_polygons`
-/

namespace Flat

namespace Poly
variable {K : Type} [Field K] [LinearOrder K] [IsStrictOrderedRing K]

theorem call_sub {g : Similarity K} (hg : g.sign = 1) (v w : Vec K) :
    g.call v - g.call w = g.derivative.mulVec (v - w) := by
  simp only [Similarity.call, hg, if_true, Similarity.derivative, Mat2.mulVec]
  apply Prod.ext <;> simp <;> ring

theorem edge_map_call (p : Poly K) (hp : p ≠ []) {g : Similarity K} (hg : g.sign = 1) (i : ℕ) :
    edge (p.map g.call) i = g.derivative.mulVec (p.edge i) := by
  unfold edge
  rw [vertex_map _ _ hp, vertex_map _ _ hp, call_sub hg]

/-- The area of the image under a similarity. -/
theorem area_map_call (p : Poly K) {g : Similarity K} (hg : g.sign = 1) :
    area (p.map g.call) = g.det * p.area := by
  rw [area_eq, area_eq, cycSum_map]
  have h1 : cycSum (fun v w => ccw (g.call v) (g.call w)) p = cycSum (fun v w => g.det * ccw v w) p := by
    refine cycSum_eq_of_telescope (fun v => ccw (g.s, g.t) (g.call v)) (fun a b => ?_) p
    simp only [Similarity.call, hg, if_true, ccw, Similarity.det]
    push_cast
    ring
  rw [h1, cycSum_mul]
  ring

end Poly

namespace MSurf
variable {L K : Type} [LinearOrder L] [LabelNum L] [Field K] [LinearOrder K] [IsStrictOrderedRing K]

/-- The old edge for an edge of the joined polygon. -/
def joinOld (p1 : L) (e1 : ℕ) (p2 : L) (e2 n2 : ℕ) (i : ℕ) : L × ℕ :=
  if i < e1 then (p1, i)
  else if i < e1 + (n2 - 1) then (p2, (e2 + 1 + (i - e1)) % n2)
  else (p1, i + 2 - n2)

theorem joinEdgeMap_getElem (p1 : L) (e1 n1 : ℕ) (p2 : L) (e2 n2 : ℕ) (h1 : e1 < n1) (h2 : e2 < n2) :
    (joinEdgeMap p1 e1 n1 p2 e2 n2).length = n1 + n2 - 2 ∧
    ∀ i (hi : i < (joinEdgeMap p1 e1 n1 p2 e2 n2).length),
      (joinEdgeMap p1 e1 n1 p2 e2 n2)[i] = joinOld p1 e1 p2 e2 n2 i := by
  have hl : (joinEdgeMap p1 e1 n1 p2 e2 n2).length = n1 + n2 - 2 := by
    simp [joinEdgeMap]; omega
  refine ⟨hl, fun i hi => ?_⟩
  rw [hl] at hi
  simp only [joinEdgeMap, joinOld]
  by_cases hi1 : i < e1
  · rw [if_pos hi1, List.getElem_append_left (by simp; omega), List.getElem_append_left (by simpa using hi1)]
    simp
  · rw [if_neg hi1]
    by_cases hi2 : i < e1 + (n2 - 1)
    · rw [if_pos hi2, List.getElem_append_left (by simp; omega), List.getElem_append_right (by simpa using hi1)]
      simp
      congr 1
      omega
    · rw [if_neg hi2, List.getElem_append_right (by simp; omega)]
      simp
      omega

theorem joinOld_mem {p1 p2 : L} {e1 n1 e2 n2 : ℕ} (hne : p1 ≠ p2) (h1 : e1 < n1) (h2 : e2 < n2) (x : L × ℕ) :
    (∃ i < n1 + n2 - 2, joinOld p1 e1 p2 e2 n2 i = x) ↔
      (x.1 = p1 ∧ x.2 < n1 ∧ x.2 ≠ e1) ∨ (x.1 = p2 ∧ x.2 < n2 ∧ x.2 ≠ e2) := by
  obtain ⟨a, b⟩ := x
  constructor
  · rintro ⟨i, hi, h⟩
    unfold joinOld at h
    split_ifs at h with c1 c2
    · injection h with ha hb
      left
      exact ⟨ha.symm, by dsimp only; omega, by dsimp only; omega⟩
    · injection h with ha hb
      right
      have hm : (e2 + 1 + (i - e1)) % n2 < n2 := Nat.mod_lt _ (by omega)
      refine ⟨ha.symm, by dsimp only; omega, ?_⟩
      dsimp only
      rw [← hb]
      intro h3
      have h4 : (e2 + 1 + (i - e1)) % n2 = e2 % n2 := by rw [h3, Nat.mod_eq_of_lt h2]
      have h5 := (Nat.modEq_iff_dvd' (by omega : e2 ≤ e2 + 1 + (i - e1))).1 h4.symm
      have h6 := Nat.le_of_dvd (by omega) h5
      omega
    · injection h with ha hb
      left
      exact ⟨ha.symm, by dsimp only; omega, by dsimp only; omega⟩
  · dsimp only
    rintro (⟨rfl, hb, hb'⟩ | ⟨rfl, hb, hb'⟩)
    · rcases Nat.lt_or_ge b e1 with h | h
      · exact ⟨b, by omega, by unfold joinOld; rw [if_pos h]⟩
      · refine ⟨b + n2 - 2, by omega, ?_⟩
        unfold joinOld
        rw [if_neg (by omega), if_neg (by omega)]
        congr 1
        omega
    · refine ⟨e1 + (b + n2 - e2 - 1) % n2, ?_, ?_⟩
      all_goals
        rcases Nat.lt_or_ge e2 b with h | h
        · have e : b + n2 - e2 - 1 = (b - e2 - 1) + n2 := by omega
          rw [e, Nat.add_mod_right, Nat.mod_eq_of_lt (by omega)]
          first
          | omega
          | unfold joinOld
            rw [if_neg (by omega), if_pos (by omega)]
            congr 1
            rw [show e2 + 1 + (e1 + (b - e2 - 1) - e1) = b by omega, Nat.mod_eq_of_lt hb]
        · rw [Nat.mod_eq_of_lt (show b + n2 - e2 - 1 < n2 by omega)]
          first
          | omega
          | unfold joinOld
            rw [if_neg (by omega), if_pos (by omega)]
            congr 1
            rw [show e2 + 1 + (e1 + (b + n2 - e2 - 1) - e1) = b + n2 by omega, Nat.add_mod_right, Nat.mod_eq_of_lt hb]

theorem joinOld_inj {p1 p2 : L} {e1 n1 e2 n2 : ℕ} (hne : p1 ≠ p2) (h1 : e1 < n1) (h2 : e2 < n2) {i j : ℕ}
    (hi : i < n1 + n2 - 2) (hj : j < n1 + n2 - 2)
    (h : joinOld p1 e1 p2 e2 n2 i = joinOld p1 e1 p2 e2 n2 j) : i = j := by
  unfold joinOld at h
  split_ifs at h with c1 c2 c3 c4 c5 c6 c7 c8 <;> injection h with ha hb
  all_goals first
    | exact absurd ha hne
    | exact absurd ha.symm hne
    | omega
    | skip
  rcases Nat.le_total i j with hij | hij
  · have h5 := (Nat.modEq_iff_dvd' (by omega : e2 + 1 + (i - e1) ≤ e2 + 1 + (j - e1))).1 hb
    by_contra hne'
    have h6 := Nat.le_of_dvd (by omega) h5
    omega
  · have h5 := (Nat.modEq_iff_dvd' (by omega : e2 + 1 + (j - e1) ≤ e2 + 1 + (i - e1))).1 hb.symm
    by_contra hne'
    have h6 := Nat.le_of_dvd (by omega) h5
    omega

/-- The old name of an edge of the joined surface. -/
def joinOldEdge (p1 : L) (e1 : ℕ) (p2 : L) (e2 n2 : ℕ) (x : L × ℕ) : L × ℕ :=
  if x.1 = p1 then joinOld p1 e1 p2 e2 n2 x.2 else x

/-- The vertices of the polygon `poly1` together with the image of `poly2` under `g`. -/
def joined (poly1 poly2 : Poly K) (e1 e2 : ℕ) (g : Similarity K) : Poly K :=
  poly1.take e1 ++ (poly2.map g.call).drop (e2 + 1) ++ (poly2.map g.call).take e2 ++ poly1.drop (e1 + 1)

theorem joinPolygons_spec {s : MSurf L (Poly K)} (hs : Good s) (p1 : L) (e1 : ℕ) (p2 : L) (e2 : ℕ)
    (poly1 poly2 : Poly K) (hp1 : s.polygons.get p1 = some poly1) (hp2 : s.polygons.get p2 = some poly2)
    (ho : s.opp p1 e1 = some (p2, (e2 : Int))) (hne : p1 ≠ p2) :
    wp (joinPolygons p1 e1) (fun _ t => Good t ∧ 3 ≤ poly1.length + poly2.length - 2 ∧
        (∃ g, s.edgeTransformation p2 e2 = .ok g ∧ g.sign = 1 ∧ g.WF ∧
          g.call (poly2.vertex e2) = poly1.vertex (e1 + 1) ∧ g.call (poly2.vertex (e2 + 1)) = poly1.vertex e1 ∧
          ∀ x, t.polygons.get x = if x = p1 then
              some (Poly.translate (joined poly1 poly2 e1 e2 g) (-Poly.vertex (joined poly1 poly2 e1 e2 g) 0))
            else if x = p2 then none else s.polygons.get x) ∧
        (∀ i < poly1.length + poly2.length - 2,
          s.opp (joinOld p1 e1 p2 e2 poly2.length i).1 (joinOld p1 e1 p2 e2 poly2.length i).2 ≠ none) ∧
        ∀ x e c, t.opp x e = some c ↔ ∃ k : ℕ, c.2 = k ∧
          (x ≠ p2 ∧ (x = p1 → e < poly1.length + poly2.length - 2)) ∧
          (c.1 ≠ p2 ∧ (c.1 = p1 → k < poly1.length + poly2.length - 2)) ∧
          s.opp (joinOldEdge p1 e1 p2 e2 poly2.length (x, e)).1 (joinOldEdge p1 e1 p2 e2 poly2.length (x, e)).2 =
            some ((joinOldEdge p1 e1 p2 e2 poly2.length (c.1, k)).1,
              ((joinOldEdge p1 e1 p2 e2 poly2.length (c.1, k)).2 : Int)))
      (fun _ _ => (∀ g, s.edgeTransformation p2 e2 = .ok g → ¬ (joined poly1 poly2 e1 e2 g).Valid) ∨
        (∃ i < poly1.length + poly2.length - 2,
          s.opp (joinOld p1 e1 p2 e2 poly2.length i).1 (joinOld p1 e1 p2 e2 poly2.length i).2 = none) ∨
        (∃ rs, s.rootsList = .ok rs ∧ p2 ∈ rs ∧ ∃ r ∈ rs, r ≠ p2) ∨ ∃ r ∈ s.roots, r ≠ p1 ∧ r ≠ p2) s := by
  have he1 : e1 < poly1.length := by
    obtain ⟨p', h1, h2⟩ := opp_isEdge hs.1.toShape ho
    rw [hp1] at h1
    injection h1 with h1
    subst h1
    exact h2
  have ho' : s.opp p2 e2 = some (p1, (e1 : Int)) := by
    obtain ⟨k, h1, h2⟩ := hs.1.inv _ _ _ _ ho
    rw [Int.natCast_inj] at h1
    subst h1
    exact h2
  have he2 : e2 < poly2.length := by
    obtain ⟨p', h1, h2⟩ := opp_isEdge hs.1.toShape ho'
    rw [hp2] at h1
    injection h1 with h1
    subst h1
    exact h2
  have hedge1 : s.IsEdge p1 e1 := ⟨poly1, hp1, he1⟩
  have hedge2 : s.IsEdge p2 e2 := ⟨poly2, hp2, he2⟩
  have hoe1 : s.oppositeEdge p1 (e1 : Int) = .ok (some (p2, (e2 : Int))) := by
    rw [oppositeEdge_eq_opp hs.1.toShape hedge1, ho]
  have hoe2 : s.oppositeEdge p2 (e2 : Int) = .ok (some (p1, (e1 : Int))) := by
    rw [oppositeEdge_eq_opp hs.1.toShape hedge2, ho']
  have hm1 : p1 ∈ s.polygons.keys := isEdge_mem hedge1
  have hm2 : p2 ∈ s.polygons.keys := isEdge_mem hedge2
  have hne1 : poly1 ≠ [] := by rintro rfl; simp at he1
  have hne2 : poly2 ≠ [] := by rintro rfl; simp at he2
  unfold joinPolygons
  rw [wp_bind, wp_get, wp_bind, wp_liftE, polygon_ok.2 hp1]
  refine ⟨fun a ha => ?_, fun _ h' => by cases h'⟩
  injection ha with ha
  subst ha
  rw [wp_bind, wp_liftE]
  have hoe1' : s.oppositeEdge! p1 (e1 : Int) = .ok (p2, (e2 : Int)) := by
    unfold oppositeEdge!
    rw [hoe1]
  rw [hoe1']
  refine ⟨fun a ha => ?_, fun _ h' => by cases h'⟩
  injection ha with ha
  subst ha
  dsimp only
  rw [wp_bind, wp_liftE, polygon_ok.2 hp2]
  refine ⟨fun a ha => ?_, fun _ h' => by cases h'⟩
  injection ha with ha
  subst ha
  rw [Int.toNat_natCast, wp_ite]
  refine ⟨fun h => absurd h hne, fun _ => ?_⟩
  rw [wp_bind, wp_liftE]
  constructor
  swap
  · intro x hx
    left
    intro g hg
    rw [hx] at hg
    cases hg
  intro g hg
  obtain ⟨hsign, hWF, hga, hgb⟩ : g.sign = 1 ∧ g.WF ∧ g.call (poly2.vertex e2) = poly1.vertex (e1 + 1) ∧
      g.call (poly2.vertex (e2 + 1)) = poly1.vertex e1 := by
    simp only [edgeTransformation, oppositeEdge!, polygon_ok.2 hp1, polygon_ok.2 hp2, hoe2, bind, Except.bind,
      Int.toNat_natCast] at hg
    cases hpts : edgeTransformationPts (poly2.vertex e2) (poly2.vertex (e2 + 1)) (poly1.vertex (e1 + 1))
        (poly1.vertex e1) with
    | none => rw [hpts] at hg; cases hg
    | some g' =>
      rw [hpts] at hg
      injection hg with hg
      subst hg
      obtain ⟨h1, h2, h3, h4⟩ := edgeTransformationPts_spec _ _ _ _ _ hpts
      exact ⟨h2, h1, h3, h4⟩
  have hnv1 : nv poly1 = poly1.length := rfl
  have hnv2 : nv poly2 = poly2.length := rfl
  rw [hnv1, hnv2]
  set n1 := poly1.length with hn1
  set n2 := poly2.length with hn2
  obtain ⟨hml, hmi⟩ := joinEdgeMap_getElem p1 e1 n1 p2 e2 n2 he1 he2
  set m := joinEdgeMap p1 e1 n1 p2 e2 n2 with hm
  set J := joined poly1 poly2 e1 e2 g with hJ
  have hqne : poly2.map g.call ≠ [] := by simpa using hne2
  -- geometry
  have hes : 3 ≤ n1 + n2 - 2 → m.map (fun x => if x.1 = p1 then poly1.edge x.2 else g.derivative.mulVec (poly2.edge x.2)) = J.edges ∧
      J.length = n1 + n2 - 2 := by
    intro h3
    rcases Nat.lt_or_ge n1 2 with hn1' | hn1'
    · exfalso
      -- an edge from a vertex to itself is zero
      have h1 : n1 = 1 := by omega
      have h0 : poly1.vertex (e1 + 1) = poly1.vertex e1 := Poly.vertex_congr _ (by rw [← hn1, h1, Nat.mod_one, Nat.mod_one])
      simp only [edgeTransformation, oppositeEdge!, polygon_ok.2 hp1, polygon_ok.2 hp2, hoe2, bind, Except.bind,
        Int.toNat_natCast] at hg
      cases hpts : edgeTransformationPts (poly2.vertex e2) (poly2.vertex (e2 + 1)) (poly1.vertex (e1 + 1))
          (poly1.vertex e1) with
      | none => rw [hpts] at hg; cases hg
      | some g' => exact ((edgeTransformationPts_isSome _ _ _ _).1 ⟨g', hpts⟩).2 h0
    rcases Nat.lt_or_ge n2 2 with hn2' | hn2'
    · exfalso
      have h1 : n2 = 1 := by omega
      have h0 : poly2.vertex e2 = poly2.vertex (e2 + 1) := Poly.vertex_congr _ (by rw [← hn2, h1, Nat.mod_one, Nat.mod_one])
      simp only [edgeTransformation, oppositeEdge!, polygon_ok.2 hp1, polygon_ok.2 hp2, hoe2, bind, Except.bind,
        Int.toNat_natCast] at hg
      cases hpts : edgeTransformationPts (poly2.vertex e2) (poly2.vertex (e2 + 1)) (poly1.vertex (e1 + 1))
          (poly1.vertex e1) with
      | none => rw [hpts] at hg; cases hg
      | some g' => exact ((edgeTransformationPts_isSome _ _ _ _).1 ⟨g', hpts⟩).1 h0
    obtain ⟨j1, -, j3, j4, j5⟩ := Poly.join_list poly1 (poly2.map g.call) J e1 e2 he1
      (by simpa using he2) hn1' (by simpa using hn2') (by rw [Poly.vertex_map _ _ hne2, hgb])
      (by rw [Poly.vertex_map _ _ hne2, hga]) rfl
    rw [List.length_map, ← hn1, ← hn2] at j1
    refine ⟨?_, j1⟩
    apply List.ext_getElem
    · simp [Poly.edges, hml, j1]
    · intro i hi hi'
      simp only [List.length_map, hml] at hi
      rw [List.getElem_map, hmi]
      simp only [Poly.edges, List.getElem_map, List.getElem_range]
      unfold joinOld
      split_ifs with c1 c2 c3 c4 c5
      · exact (j3 i c1).symm
      · exact absurd rfl c2
      · exact absurd c4.symm hne
      · have h5 := j4 (i - e1) (by rw [List.length_map, ← hn2]; omega)
        rw [show e1 + (i - e1) = i by omega] at h5
        rw [h5, Poly.edge_map_call _ hne2 hsign, Poly.edge_mod]
      · have h5 := j5 (i + 2 - n2) (by omega) (by omega)
        rw [List.length_map, ← hn2, show i + 2 - n2 + n2 - 2 = i by omega] at h5
        exact h5.symm
      · exact absurd rfl (by assumption)
  rw [wp_bind, wp_liftE]
  constructor
  swap
  · intro x hx
    left
    intro g' hg' hval
    rw [hg] at hg'
    injection hg' with hg'
    subst hg'
    have h3 : 3 ≤ J.length := hval.len3
    have hJl : J.length = n1 + n2 - 2 ∨ n1 + n2 - 2 < 3 := by
      by_cases h : 3 ≤ n1 + n2 - 2
      · exact Or.inl (hes h).2
      · right; omega
    have hJl' : J.length ≤ n1 + n2 - 2 := by
      rw [hJ]; unfold joined; simp; omega
    have h4 : 3 ≤ n1 + n2 - 2 := by omega
    rw [(hes h4).1, Poly.ofEdges_of_valid hval] at hx
    cases hx
  intro pp hpp
  have h3 : 3 ≤ n1 + n2 - 2 := by
    have := (Poly.ofEdges_ok hpp).2.2.1
    rw [List.length_map, hml] at this
    exact this
  obtain ⟨hes1, hJl⟩ := hes h3
  rw [hes1] at hpp
  have hJne : J ≠ [] := by rw [← List.length_pos_iff, hJl]; omega
  have hpp' := Poly.ofEdges_eq hJne hpp
  have hppl : pp.length = n1 + n2 - 2 := by rw [hpp']; simp [Poly.translate, hJl]
  -- gluings
  rw [wp_bind, wp_liftE]
  have hold_edge : ∀ i < n1 + n2 - 2, s.IsEdge (joinOld p1 e1 p2 e2 n2 i).1 (joinOld p1 e1 p2 e2 n2 i).2 ∧
      joinOld p1 e1 p2 e2 n2 i ≠ (p1, e1) ∧ joinOld p1 e1 p2 e2 n2 i ≠ (p2, e2) := by
    intro i hi
    rcases (joinOld_mem hne he1 he2 _).1 ⟨i, hi, rfl⟩ with ⟨h1, h2, h4⟩ | ⟨h1, h2, h4⟩
    · exact ⟨⟨poly1, by rw [h1]; exact hp1, h2⟩, fun h => h4 (by rw [h]), fun h => hne (by rw [← h1, h])⟩
    · exact ⟨⟨poly2, by rw [h1]; exact hp2, h2⟩, fun h => hne (by rw [← h1, h]), fun h => h4 (by rw [h])⟩
  -- the partner of an old edge that is kept is kept
  have hpartner : ∀ x x' : L × ℕ, s.opp x.1 x.2 = some (x'.1, (x'.2 : Int)) → x ≠ (p1, e1) → x ≠ (p2, e2) →
      x' ≠ (p1, e1) ∧ x' ≠ (p2, e2) := by
    intro x x' hxx h1 h2
    obtain ⟨k, h4, h5⟩ := hs.1.inv _ _ _ _ hxx
    rw [Int.natCast_inj] at h4
    subst h4
    constructor
    · rintro rfl
      rw [ho] at h5
      simp only [Option.some.injEq, Prod.mk.injEq, Int.natCast_inj] at h5
      exact h2 (Prod.ext h5.1.symm h5.2.symm)
    · rintro rfl
      rw [ho'] at h5
      simp only [Option.some.injEq, Prod.mk.injEq, Int.natCast_inj] at h5
      exact h1 (Prod.ext h5.1.symm h5.2.symm)
  have hkept : ∀ x : L × ℕ, s.IsEdge x.1 x.2 → x ≠ (p1, e1) → x ≠ (p2, e2) → x.1 = p1 ∨ x.1 = p2 →
      ∃ i < n1 + n2 - 2, joinOld p1 e1 p2 e2 n2 i = x := by
    rintro x ⟨p', h1, h2⟩ h4 h5 h6
    rw [joinOld_mem hne he1 he2]
    rcases h6 with h6 | h6
    · rw [h6, hp1] at h1
      injection h1 with h1
      subst h1
      exact Or.inl ⟨h6, h2, fun h => h4 (Prod.ext h6 h)⟩
    · rw [h6, hp2] at h1
      injection h1 with h1
      subst h1
      exact Or.inr ⟨h6, h2, fun h => h5 (Prod.ext h6 h)⟩
  by_cases hall : ∃ i < n1 + n2 - 2, s.opp (joinOld p1 e1 p2 e2 n2 i).1 (joinOld p1 e1 p2 e2 n2 i).2 = none
  · constructor
    · intro gl hgl
      exfalso
      obtain ⟨i, hi, hnone⟩ := hall
      rw [mapM_ok_iff] at hgl
      have := List.forall₂_iff_get.1 hgl
      have h5 := this.2 i (by rw [hml]; exact hi) (by rw [← this.1, hml]; exact hi)
      simp only [List.get_eq_getElem, hmi] at h5
      unfold oppositeEdge! at h5
      rw [oppositeEdge_eq_opp hs.1.toShape (hold_edge i hi).1, hnone] at h5
      cases h5
    · intro x hx
      exact Or.inr (Or.inl hall)
  push Not at hall
  -- the relation between the new edges
  set old := joinOldEdge p1 e1 p2 e2 n2 with hold
  have old1 : ∀ i, old (p1, i) = joinOld p1 e1 p2 e2 n2 i := fun i => by simp [hold, joinOldEdge]
  have old2 : ∀ x, x.1 ≠ p1 → old x = x := fun x hx => by simp [hold, joinOldEdge, hx]
  let okE : L × ℕ → Prop := fun x => x.1 ≠ p2 ∧ (x.1 = p1 → x.2 < n1 + n2 - 2)
  have hinj : ∀ x y, okE x → okE y → old x = old y → x = y := by
    rintro ⟨a, i⟩ ⟨b, j⟩ ⟨h1, h2⟩ ⟨h4, h5⟩ hxy
    dsimp only at h1 h2 h4 h5
    by_cases ha : a = p1 <;> by_cases hb : b = p1
    · subst ha; subst hb
      rw [old1, old1] at hxy
      rw [joinOld_inj hne he1 he2 (h2 rfl) (h5 rfl) hxy]
    · subst ha
      rw [old1, old2 (b, j) hb] at hxy
      rcases (joinOld_mem hne he1 he2 _).1 ⟨i, h2 rfl, rfl⟩ with ⟨h6, _⟩ | ⟨h6, _⟩
      · rw [hxy] at h6; exact absurd h6 hb
      · rw [hxy] at h6; exact absurd h6 h4
    · subst hb
      rw [old1, old2 (a, i) ha] at hxy
      rcases (joinOld_mem hne he1 he2 _).1 ⟨j, h5 rfl, rfl⟩ with ⟨h6, _⟩ | ⟨h6, _⟩
      · rw [← hxy] at h6; exact absurd h6 ha
      · rw [← hxy] at h6; exact absurd h6 h1
    · rw [old2 (a, i) ha, old2 (b, j) hb] at hxy
      exact hxy
  let R : L × ℕ → L × ℕ → Prop := fun x y => okE x ∧ okE y ∧ s.opp (old x).1 (old x).2 = some ((old y).1, ((old y).2 : Int))
  have hok_old : ∀ x, okE x → old x ≠ (p1, e1) ∧ old x ≠ (p2, e2) := by
    rintro ⟨a, i⟩ ⟨h1, h2⟩
    by_cases ha : a = p1
    · subst ha
      rw [old1]
      exact (hold_edge i (h2 rfl)).2
    · rw [old2 _ ha]
      exact ⟨fun h => ha (by injection h), fun h => h1 (by rw [h])⟩
  have hlift : ∀ x' : L × ℕ, s.IsEdge x'.1 x'.2 → x' ≠ (p1, e1) → x' ≠ (p2, e2) → ∃ y, okE y ∧ old y = x' := by
    intro x' hE h1 h2
    by_cases hx : x'.1 = p1 ∨ x'.1 = p2
    · obtain ⟨i, hi, h4⟩ := hkept x' hE h1 h2 hx
      exact ⟨(p1, i), ⟨hne, fun _ => hi⟩, by rw [old1, h4]⟩
    · push Not at hx
      exact ⟨x', ⟨hx.2, fun h => absurd h hx.1⟩, old2 _ hx.1⟩
  have htotal : ∀ x, okE x → ∀ c, s.opp (old x).1 (old x).2 = some c → ∃ y, R x y ∧ c = ((old y).1, ((old y).2 : Int)) := by
    rintro x hx ⟨c1, c2⟩ hc
    obtain ⟨k, rfl, hk⟩ := hs.1.inv _ _ _ _ hc
    obtain ⟨h1, h2⟩ := hok_old x hx
    obtain ⟨h4, h5⟩ := hpartner (old x) (c1, k) hc h1 h2
    obtain ⟨y, hy, hy'⟩ := hlift (c1, k) (opp_isEdge hs.1.toShape hk) h4 h5
    exact ⟨y, ⟨hx, hy, by rw [hc, hy']⟩, by rw [hy']⟩
  -- the list of gluings
  have hmap : ∃ gl : List (L × Int), (m.mapM (fun x => do
      let c ← s.oppositeEdge! x.1 x.2
      if c.1 = p1 ∨ c.1 = p2 then invEdgeMap m p1 c else return c) : Except Err (List (L × Int))) = .ok gl ∧
      gl.length = n1 + n2 - 2 ∧ ∀ i (hi : i < gl.length), ∃ k : ℕ, gl[i].2 = k ∧ R (p1, i) (gl[i].1, k) := by
    have step : ∀ i < n1 + n2 - 2, ∃ y : L × ℕ, R (p1, i) y ∧ (do
        let c ← s.oppositeEdge! (joinOld p1 e1 p2 e2 n2 i).1 ((joinOld p1 e1 p2 e2 n2 i).2 : Int)
        if c.1 = p1 ∨ c.1 = p2 then invEdgeMap m p1 c else return c : Except Err (L × Int)) = .ok (y.1, (y.2 : Int)) := by
      intro i hi
      obtain ⟨c, hc⟩ := Option.ne_none_iff_exists'.1 (hall i hi)
      obtain ⟨y, hy, hcy⟩ := htotal (p1, i) ⟨hne, fun _ => hi⟩ c (by rw [old1]; exact hc)
      refine ⟨y, hy, ?_⟩
      unfold oppositeEdge!
      rw [oppositeEdge_eq_opp hs.1.toShape (hold_edge i hi).1, hc]
      simp only [bind, Except.bind]
      by_cases hy1 : y.1 = p1
      · obtain ⟨a, j⟩ := y
        dsimp only at hy1
        subst hy1
        have hj : j < n1 + n2 - 2 := hy.2.1.2 rfl
        rw [old1] at hcy
        have h4 : c.1 = a ∨ c.1 = p2 := by
          rw [hcy]
          rcases (joinOld_mem hne he1 he2 _).1 ⟨j, hj, rfl⟩ with ⟨h6, _⟩ | ⟨h6, _⟩
          · exact Or.inl h6
          · exact Or.inr h6
        rw [if_pos h4]
        unfold invEdgeMap
        have h5 : m.findIdx? (fun x => x.1 = c.1 ∧ (x.2 : Int) = c.2) = some j := by
          rw [List.findIdx?_eq_some_iff_getElem]
          refine ⟨by rw [hml]; exact hj, ?_, ?_⟩
          · rw [hmi, hcy]; simp
          · intro j' hj'
            rw [hmi, hcy]
            simp only [decide_eq_true_eq, not_and]
            intro h6 h7
            rw [Int.natCast_inj] at h7
            have := joinOld_inj hne he1 he2 (by omega) hj (Prod.ext h6 h7)
            omega
        rw [h5]
      · rw [old2 y hy1] at hcy
        have h4 : ¬ (c.1 = p1 ∨ c.1 = p2) := by
          rw [hcy]
          rintro (h | h)
          · exact hy1 h
          · exact hy.2.1.1 h
        rw [if_neg h4, hcy]
        rfl
    haveI : Inhabited L := ⟨p1⟩
    choose! f hf1 hf2 using step
    refine ⟨(List.range (n1 + n2 - 2)).map (fun i => ((f i).1, ((f i).2 : Int))), ?_, by simp, ?_⟩
    · rw [mapM_ok_iff, List.forall₂_iff_get]
      refine ⟨by simp [hml], fun i hi1 hi2 => ?_⟩
      rw [hml] at hi1
      simp only [List.get_eq_getElem, hmi, List.getElem_map, List.getElem_range]
      exact hf2 i hi1
    · intro i hi
      have hi' : i < n1 + n2 - 2 := by simpa using hi
      simp only [List.getElem_map, List.getElem_range]
      exact ⟨_, rfl, hf1 i hi'⟩
  obtain ⟨gl, hgl, hgll, hglR⟩ := hmap
  rw [hgl]
  refine ⟨fun a ha => ?_, fun _ h' => by cases h'⟩
  injection ha with ha
  subst ha
  -- the roots
  obtain ⟨rs, hrs, hrmem, hrsep, -⟩ := rootsList_spec hs.1 hs.2.2
  rw [wp_bind, wp_liftE, hrs]
  refine ⟨fun a ha => ?_, fun _ h' => by cases h'⟩
  injection ha with ha
  subst ha
  have hconn : s.Conn p1 p2 := Relation.ReflTransGen.single ⟨e1, e2, ho⟩
  have main : ∀ s1 : MSurf L (Poly K), Good s1 → s1.polygons = s.polygons → (∀ x e, s1.opp x e = s.opp x e) →
      ((∃ r ∈ s1.roots, r ≠ p1 ∧ r ≠ p2) → ((∃ rs, s.rootsList = .ok rs ∧ p2 ∈ rs ∧ ∃ r ∈ rs, r ≠ p2) ∨ ∃ r ∈ s.roots, r ≠ p1 ∧ r ≠ p2)) →
      wp (do
        removePolygon p2
        removePolygon p1
        let _ ← addPolygon pp (some p1)
        glueAll p1 0 gl) (fun _ t => Good t ∧ (∀ x, t.polygons.get x = if x = p1 then some pp else if x = p2 then none else s.polygons.get x) ∧
          ∀ x e c, t.opp x e = some c ↔ ∃ k : ℕ, c.2 = k ∧ R (x, e) (c.1, k))
        (fun _ _ => (∃ rs, s.rootsList = .ok rs ∧ p2 ∈ rs ∧ ∃ r ∈ rs, r ≠ p2) ∨ ∃ r ∈ s.roots, r ≠ p1 ∧ r ≠ p2) s1 := by
    intro s1 hg1 hpol1 hopp1 hroots1
    rw [wp_bind]
    refine wp_mono (removePolygon_left hg1 p2 (by rw [hpol1]; exact hm2)) ?_ (fun _ _ hh => hh.elim)
    rintro _ t1 ⟨hgt1, hpt1, hot1, hrt1, -⟩
    rw [wp_bind]
    refine wp_mono (removePolygon_left hgt1 p1 (by rw [Dict.mem_keys_iff, hpt1, if_neg hne, hpol1, hp1]; rfl)) ?_ (fun _ _ hh => hh.elim)
    rintro _ t2 ⟨hgt2, hpt2, hot2, hrt2, -⟩
    rw [wp_bind]
    refine wp_mono (addPolygon_more hgt2 pp (some p1) (fun l' hl' => ?_)) ?_ (fun _ _ hh => hh.elim)
    · injection hl' with hl'
      subst hl'
      rw [Dict.mem_keys_iff, hpt2]
      simp
    rintro l' t3 ⟨hgt3, hl', -, hpt3, hot3, hrt3⟩
    have := hl' p1 rfl
    subst this
    have hP : ∀ x, t3.polygons.get x = if x = l' then some pp else if x = p2 then none else s.polygons.get x := by
      intro x
      rw [hpt3, hpt2, hpt1, hpol1]
      split_ifs <;> rfl
    have hO : ∀ x e c, t3.opp x e = some c ↔ s.opp x e = some c ∧ (x ≠ p2 ∧ x ≠ l') ∧ (c.1 ≠ p2 ∧ c.1 ≠ l') := by
      intro x e c
      rw [hot3, hot2, hot1, hopp1]
      tauto
    have hRsymm : ∀ x y, R x y → R y x := by
      rintro x y ⟨h1, h2, h4⟩
      obtain ⟨k, h5, h6⟩ := hs.1.inv _ _ _ _ h4
      rw [Int.natCast_inj] at h5
      subst h5
      exact ⟨h2, h1, h6⟩
    have hRfun : ∀ x y z, R x y → R x z → y = z := by
      rintro x y z ⟨_, h1, h2⟩ ⟨_, h4, h5⟩
      rw [h2] at h5
      simp only [Option.some.injEq, Prod.mk.injEq, Int.natCast_inj] at h5
      exact hinj y z h1 h4 (Prod.ext h5.1 h5.2)
    obtain ⟨G, hT, hG⟩ := target_of_rel (t := t3) R hRsymm hRfun (by
      rintro ⟨a, i⟩ y ⟨⟨h1, h2⟩, -, h4⟩
      dsimp only at h1 h2
      by_cases ha : a = l'
      · exact ⟨pp, by rw [hP, if_pos ha], by show i < pp.length; rw [hppl]; exact h2 ha⟩
      · rw [old2 (a, i) ha] at h4
        obtain ⟨p', h5, h6⟩ := opp_isEdge hs.1.toShape h4
        exact ⟨p', by rw [hP, if_neg ha, if_neg h1]; exact h5, h6⟩)
    have hSub : Sub t3 G := by
      intro x e c hc
      obtain ⟨h1, ⟨h2, h2'⟩, h4, h4'⟩ := (hO x e c).1 hc
      obtain ⟨c1, c2⟩ := c
      obtain ⟨k, rfl, hk⟩ := hs.1.inv _ _ _ _ h1
      rw [hG]
      refine ⟨k, rfl, ⟨h2, fun h => absurd h h2'⟩, ⟨h4, fun h => absurd h h4'⟩, ?_⟩
      rw [old2 (x, e) h2', old2 (c1, k) h4']
      exact h1
    refine wp_mono (reglue hgt3 hT hSub l' gl ?_ ?_ ?_) ?_ ?_
    · intro e c hc
      obtain ⟨k, -, ⟨-, h⟩, -⟩ := (hG _ _ _).1 hc
      rw [hgll]
      exact h rfl
    · intro i hi
      rw [hG]
      exact hglR i hi
    · rintro x e ⟨c1, c2⟩ hx hc hGc
      obtain ⟨k, hk, ⟨h1, -⟩, ⟨h2, -⟩, h4⟩ := (hG _ _ _).1 hGc
      dsimp only at hk hc h1 h2 h4
      subst hk
      rw [old2 (x, e) hx, old2 (c1, k) hc] at h4
      exact (hO _ _ _).2 ⟨h4, ⟨h1, hx⟩, h2, hc⟩
    · rintro _ t4 ⟨h1, h2, h4⟩
      refine ⟨h1, fun x => by rw [h2, hP], fun x e c => by rw [h4, hG]⟩
    · intro _ _ hf
      apply hroots1
      by_contra hno
      push Not at hno
      apply hf
      left
      rw [hrt3, hrt2, hrt1, if_pos]
      rw [List.filter_eq_nil_iff]
      intro r hr
      obtain ⟨h1, h2⟩ := List.mem_filter.1 hr
      have h2' : r ≠ p2 := by simpa using h2
      by_contra hcon
      exact h2' (hno r h1 (by simpa using hcon))
  rw [wp_ite]
  refine ⟨fun hin => ?_, fun hnin => ?_⟩
  · rw [wp_bind]
    have hmm : ∀ r ∈ (s.roots ++ rs).map (fun l => if l = p2 then p1 else l), r ∈ s.polygons.keys := by
      intro r hr
      obtain ⟨r', hr', rfl⟩ := List.mem_map.1 hr
      split_ifs
      · exact hm1
      · exact hrmem r' hr'
    have hms : ((s.roots ++ rs).map (fun l => if l = p2 then p1 else l)).Pairwise (fun a b => ¬ s.Conn a b) := by
      rw [List.pairwise_map]
      refine hrsep.imp ?_
      intro a b hab
      split_ifs with h1 h2 h2
      · subst h1; subst h2; exact fun _ => hab Relation.ReflTransGen.refl
      · subst h1; exact fun h => hab (conn_trans (conn_symm hs.1 hconn) h)
      · subst h2; exact fun h => hab (conn_trans h hconn)
      · exact hab
    refine wp_mono (setRoots_ok hs.1 hs.2.2 hs.2.1 _ hmm hms) ?_ (fun _ _ h => h.elim)
    rintro _ s1 rfl
    · refine wp_mono (main _ ⟨hs.1.withRoots _, hs.2.1, ?_⟩ rfl (fun _ _ => rfl) ?_)
        (fun _ t h => ⟨h.1, h3, ⟨g, hg, hsign, hWF, hga, hgb, fun x => by rw [h.2.1, hpp']⟩, hall, h.2.2⟩)
        (fun _ _ h => Or.inr (Or.inr (by rw [hrs] at h; exact h)))
      · exact ⟨hmm, hms⟩
      · rintro ⟨r, hr, h1, h2⟩
        left
        obtain ⟨r', hr', rfl⟩ := List.mem_map.1 hr
        refine ⟨_, hrs, hin, r', hr', ?_⟩
        rintro rfl
        rw [if_pos rfl] at h1
        exact h1 rfl
  · exact wp_mono (main s hs rfl (fun _ _ => rfl) (fun h => Or.inr h))
        (fun _ t h => ⟨h.1, h3, ⟨g, hg, hsign, hWF, hga, hgb, fun x => by rw [h.2.1, hpp']⟩, hall, h.2.2⟩)
        (fun _ _ h => Or.inr (Or.inr (by rw [hrs] at h; exact h)))

/-- **C28.** When `join_polygons(p1, e1)` succeeds, the opposite polygon `p2` is removed and `p1` is replaced by a
polygon with `n1 + n2 - 2` edges: those of `p1` before `e1`, those of `p2` after the common edge, moved by the
derivative of the gluing, and the remaining ones of `p1`; the areas add up (with the scaling of the gluing); other
polygons do not change, and with `old` giving the former name of an edge, all gluings are kept. -/
theorem C28_join_polygons {s t : MSurf L (Poly K)} (h : Reachable s) (hm : s.mutable = true) (p1 : L) (e1 : ℕ)
    (ht : joinPolygons p1 e1 s = .ok () t) :
    ∃ (p2 : L) (e2 : ℕ) (poly1 poly2 q : Poly K) (g : Similarity K),
      p1 ≠ p2 ∧ s.oppositeEdge p1 (e1 : Int) = .ok (some (p2, (e2 : Int))) ∧
      s.polygon p1 = .ok poly1 ∧ s.polygon p2 = .ok poly2 ∧ s.edgeTransformation p2 e2 = .ok g ∧
      t.polygon p1 = .ok q ∧ t.polygon p2 = .error .keyError ∧
      (∀ l, l ≠ p1 → l ≠ p2 → t.polygon l = s.polygon l) ∧
      q.length = poly1.length + poly2.length - 2 ∧ q.area = poly1.area + g.det * poly2.area ∧
      (∀ i < e1, q.edge i = poly1.edge i) ∧
      (∀ i < poly2.length - 1, q.edge (e1 + i) = g.derivative.mulVec (poly2.edge (e2 + 1 + i))) ∧
      (∀ i, e1 < i → i < poly1.length → q.edge (i + poly2.length - 2) = poly1.edge i) ∧
      ∀ old : L × ℕ → L × ℕ,
        (∀ x, old x = if x.1 ≠ p1 ∨ x.2 < e1 then x
          else if x.2 < e1 + (poly2.length - 1) then (p2, (e2 + 1 + (x.2 - e1)) % poly2.length)
          else (p1, x.2 + 2 - poly2.length)) →
        ∀ l q' (e : ℕ), t.polygon l = .ok q' → e < q'.length →
          ∃ (c : Option (L × ℕ)), t.oppositeEdge l (e : Int) = .ok (c.map (fun c => (c.1, (c.2 : Int)))) ∧
            s.oppositeEdge (old (l, e)).1 ((old (l, e)).2 : Int) = .ok ((c.map old).map (fun c => (c.1, (c.2 : Int)))) := by
  have hgood : Good s := ⟨h.ginv, hm, h.rootsOK⟩
  -- the edge is glued to another polygon
  obtain ⟨poly1, p2, e2, poly2, hp1, ho, hp2, hne⟩ : ∃ poly1 p2 e2 poly2, s.polygons.get p1 = some poly1 ∧
      s.opp p1 e1 = some (p2, ((e2 : ℕ) : Int)) ∧ s.polygons.get p2 = some poly2 ∧ p1 ≠ p2 := by
    have key : wp (joinPolygons p1 e1) (fun _ _ => ∃ poly1 p2 e2 poly2, s.polygons.get p1 = some poly1 ∧
      s.opp p1 e1 = some (p2, ((e2 : ℕ) : Int)) ∧ s.polygons.get p2 = some poly2 ∧ p1 ≠ p2) (fun _ _ => True) s := by
      unfold joinPolygons
      rw [wp_bind, wp_get, wp_bind, wp_liftE]
      refine ⟨fun poly1 hp1 => ?_, fun _ _ => trivial⟩
      rw [wp_bind, wp_liftE]
      refine ⟨fun c hc => ?_, fun _ _ => trivial⟩
      dsimp only
      rw [wp_bind, wp_liftE]
      refine ⟨fun poly2 hp2 => ?_, fun _ _ => trivial⟩
      rw [wp_ite]
      refine ⟨fun _ => trivial, fun hne => ?_⟩
      have : ∃ poly1 p2 e2 poly2, s.polygons.get p1 = some poly1 ∧
          s.opp p1 e1 = some (p2, ((e2 : ℕ) : Int)) ∧ s.polygons.get p2 = some poly2 ∧ p1 ≠ p2 := by
        by_cases he : s.IsEdge p1 e1
        · unfold oppositeEdge! at hc
          rw [oppositeEdge_eq_opp h.ginv.toShape he] at hc
          cases ho : s.opp p1 e1 with
          | none => rw [ho] at hc; cases hc
          | some c' =>
            rw [ho] at hc
            injection hc with hc
            subst hc
            obtain ⟨c1, c2⟩ := c'
            obtain ⟨k, rfl, -⟩ := h.ginv.inv _ _ _ _ ho
            exact ⟨poly1, c1, k, poly2, polygon_ok.1 hp1, rfl, polygon_ok.1 hp2, hne⟩
        · unfold oppositeEdge! at hc
          rw [oppositeEdge_error h.ginv.toShape he] at hc
          cases hc
      generalize hX : (_ : Act L (Poly K) Unit) = X
      unfold wp
      split <;> first | exact this | trivial
    unfold wp at key
    rw [ht] at key
    exact key
  have spec := joinPolygons_spec hgood p1 e1 p2 e2 poly1 poly2 hp1 hp2 ho hne
  unfold wp at spec
  rw [ht] at spec
  obtain ⟨hg, h3, ⟨g, hgt, hsign, hWF, hga, hgb, hpol⟩, hall, hopp⟩ := spec
  have he1 : s.IsEdge p1 e1 := opp_isEdge h.ginv.toShape ho
  have ho' : s.opp p2 e2 = some (p1, (e1 : Int)) := by
    obtain ⟨k, h1, h2⟩ := h.ginv.inv _ _ _ _ ho
    rw [Int.natCast_inj] at h1
    subst h1
    exact h2
  have he2 : s.IsEdge p2 e2 := opp_isEdge h.ginv.toShape ho'
  have he1' : e1 < poly1.length := by
    obtain ⟨p', h1, h2⟩ := he1
    rw [hp1] at h1
    injection h1 with h1
    subst h1
    exact h2
  have he2' : e2 < poly2.length := by
    obtain ⟨p', h1, h2⟩ := he2
    rw [hp2] at h1
    injection h1 with h1
    subst h1
    exact h2
  have hne2 : poly2 ≠ [] := by rintro rfl; simp at he2'
  have hoe1 : s.oppositeEdge p1 (e1 : Int) = .ok (some (p2, (e2 : Int))) := by
    rw [oppositeEdge_eq_opp h.ginv.toShape he1, ho]
  have hoe2 : s.oppositeEdge p2 (e2 : Int) = .ok (some (p1, (e1 : Int))) := by
    rw [oppositeEdge_eq_opp h.ginv.toShape he2, ho']
  -- the end points are different
  have hpts : poly2.vertex e2 ≠ poly2.vertex (e2 + 1) ∧ poly1.vertex (e1 + 1) ≠ poly1.vertex e1 := by
    simp only [edgeTransformation, oppositeEdge!, polygon_ok.2 hp1, polygon_ok.2 hp2, hoe2, bind, Except.bind,
      Int.toNat_natCast] at hgt
    cases hp : edgeTransformationPts (poly2.vertex e2) (poly2.vertex (e2 + 1)) (poly1.vertex (e1 + 1))
        (poly1.vertex e1) with
    | none => rw [hp] at hgt; cases hgt
    | some g' => exact (edgeTransformationPts_isSome _ _ _ _).1 ⟨g', hp⟩
  have hl1 : 2 ≤ poly1.length := by
    by_contra hcon
    exact hpts.2 (Poly.vertex_congr _ (by rw [show poly1.length = 1 by omega, Nat.mod_one, Nat.mod_one]))
  have hl2 : 2 ≤ poly2.length := by
    by_contra hcon
    exact hpts.1 (Poly.vertex_congr _ (by rw [show poly2.length = 1 by omega, Nat.mod_one, Nat.mod_one]))
  set J := joined poly1 poly2 e1 e2 g with hJ
  obtain ⟨j1, j2, j3, j4, j5⟩ := Poly.join_list poly1 (poly2.map g.call) J e1 e2 he1' (by simpa using he2') hl1
    (by simpa using hl2) (by rw [Poly.vertex_map _ _ hne2, hgb]) (by rw [Poly.vertex_map _ _ hne2, hga]) rfl
  rw [List.length_map] at j1 j4 j5
  have hJne : J ≠ [] := by rw [← List.length_pos_iff, j1]; omega
  have hedge : ∀ i, Poly.edge (J.translate (-J.vertex 0)) i = J.edge i := by
    intro i
    unfold Poly.edge
    rw [Poly.vertex_translate _ hJne, Poly.vertex_translate _ hJne, add_sub_add_left_eq_sub]
  refine ⟨p2, e2, poly1, poly2, J.translate (-J.vertex 0), g, hne, hoe1, polygon_ok.2 hp1, polygon_ok.2 hp2, hgt,
    polygon_ok.2 (by rw [hpol, if_pos rfl]), ?_, ?_, by simp [Poly.translate, j1], ?_, ?_, ?_, ?_, ?_⟩
  · unfold polygon
    rw [hpol, if_neg hne.symm, if_pos rfl]
  · intro l hl1 hl2
    exact polygon_of_get (by rw [hpol, if_neg hl1, if_neg hl2])
  · rw [Poly.C09_area_translate, j2, Poly.area_map_call _ hsign]
  · intro i hi
    rw [hedge, j3 i hi]
  · intro i hi
    rw [hedge, j4 i hi, Poly.edge_map_call _ hne2 hsign]
  · intro i hi hi'
    rw [hedge, j5 i hi hi']
  · intro old hold l q' e hq' he
    have hq'' := polygon_ok.1 hq'
    have holdEq : ∀ x, old x = joinOldEdge p1 e1 p2 e2 poly2.length x := by
      intro x
      rw [hold]
      unfold joinOldEdge joinOld
      by_cases h1 : x.1 = p1
      · by_cases h2 : x.2 < e1
        · rw [if_pos (Or.inr h2), if_pos h1, if_pos h2, ← h1]
        · rw [if_neg (by tauto), if_pos h1, if_neg h2]
      · rw [if_pos (Or.inl h1), if_neg h1]
    have hl2' : l ≠ p2 := by
      rintro rfl
      rw [hpol, if_neg hne.symm, if_pos rfl] at hq''
      cases hq''
    have hlt : l = p1 → e < poly1.length + poly2.length - 2 := by
      rintro rfl
      rw [hpol, if_pos rfl] at hq''
      injection hq'' with hq''
      rw [← hq''] at he
      simpa [Poly.translate, j1] using he
    have htE : t.IsEdge l e := ⟨q', hq'', he⟩
    have hsE : s.IsEdge (old (l, e)).1 (old (l, e)).2 := by
      by_cases h1 : l = p1
      · have h2 := hall e (hlt h1)
        have h4 : old (l, e) = joinOld p1 e1 p2 e2 poly2.length e := by
          rw [holdEq]; unfold joinOldEdge; rw [if_pos h1]
        rw [h4]
        obtain ⟨c, hc⟩ := Option.ne_none_iff_exists'.1 h2
        exact opp_isEdge h.ginv.toShape hc
      · have h4 : old (l, e) = (l, e) := by rw [holdEq]; unfold joinOldEdge; rw [if_neg h1]
        rw [h4]
        rw [hpol, if_neg h1, if_neg hl2'] at hq''
        exact ⟨q', hq'', he⟩
    cases hc : t.opp l e with
    | some c =>
      obtain ⟨c1, c2⟩ := c
      obtain ⟨k, hk, -, -, h4⟩ := (hopp l e _).1 hc
      dsimp only at hk h4
      subst hk
      refine ⟨some (c1, k), by rw [oppositeEdge_eq_opp hg.1.toShape htE, hc]; rfl, ?_⟩
      rw [oppositeEdge_eq_opp h.ginv.toShape hsE, holdEq, h4]
      simp only [Option.map_some, holdEq]
    | none =>
      refine ⟨none, by rw [oppositeEdge_eq_opp hg.1.toShape htE, hc]; rfl, ?_⟩
      rw [oppositeEdge_eq_opp h.ginv.toShape hsE]
      cases hco : s.opp (old (l, e)).1 (old (l, e)).2 with
      | none => rfl
      | some c =>
        exfalso
        obtain ⟨c1, c2⟩ := c
        obtain ⟨k, rfl, hk⟩ := h.ginv.inv _ _ _ _ hco
        -- the partner has a new name
        have hcE := opp_isEdge h.ginv.toShape hk
        have hmemold : old (l, e) ≠ (p1, e1) ∧ old (l, e) ≠ (p2, e2) := by
          by_cases h1 : l = p1
          · have h4 : old (l, e) = joinOld p1 e1 p2 e2 poly2.length e := by
              rw [holdEq]; unfold joinOldEdge; rw [if_pos h1]
            rw [h4]
            rcases (joinOld_mem hne he1' he2' _).1 ⟨e, hlt h1, rfl⟩ with ⟨h5, _, h6⟩ | ⟨h5, _, h6⟩
            · exact ⟨fun h => h6 (by rw [h]), fun h => hne (by rw [← h5, h])⟩
            · exact ⟨fun h => hne (by rw [← h5, h]), fun h => h6 (by rw [h])⟩
          · have h4 : old (l, e) = (l, e) := by rw [holdEq]; unfold joinOldEdge; rw [if_neg h1]
            rw [h4]
            exact ⟨fun h => h1 (by injection h), fun h => hl2' (by injection h)⟩
        obtain ⟨y, hy2, hy1, hy⟩ : ∃ y : L × ℕ, y.1 ≠ p2 ∧ (y.1 = p1 → y.2 < poly1.length + poly2.length - 2) ∧
            joinOldEdge p1 e1 p2 e2 poly2.length y = (c1, k) := by
          have n1 : (c1, k) ≠ (p1, e1) := by
            intro hcon
            injection hcon with ha hb
            subst ha; subst hb
            rw [ho] at hk
            simp only [Option.some.injEq, Prod.mk.injEq, Int.natCast_inj] at hk
            exact hmemold.2 (Prod.ext hk.1.symm hk.2.symm)
          have n2 : (c1, k) ≠ (p2, e2) := by
            intro hcon
            injection hcon with ha hb
            subst ha; subst hb
            rw [ho'] at hk
            simp only [Option.some.injEq, Prod.mk.injEq, Int.natCast_inj] at hk
            exact hmemold.1 (Prod.ext hk.1.symm hk.2.symm)
          obtain ⟨p', k1, k2⟩ := hcE
          by_cases hc1 : c1 = p1
          · obtain ⟨i, hi, hi'⟩ := (joinOld_mem hne he1' he2' (c1, k)).2 (Or.inl ⟨hc1, by
              subst hc1
              rw [hp1] at k1
              injection k1 with k1
              subst k1
              exact k2, fun h => n1 (Prod.ext hc1 h)⟩)
            exact ⟨(p1, i), hne, fun _ => hi, by unfold joinOldEdge; rw [if_pos rfl]; exact hi'⟩
          · by_cases hc2 : c1 = p2
            · obtain ⟨i, hi, hi'⟩ := (joinOld_mem hne he1' he2' (c1, k)).2 (Or.inr ⟨hc2, by
                subst hc2
                rw [hp2] at k1
                injection k1 with k1
                subst k1
                exact k2, fun h => n2 (Prod.ext hc2 h)⟩)
              exact ⟨(p1, i), hne, fun _ => hi, by unfold joinOldEdge; rw [if_pos rfl]; exact hi'⟩
            · exact ⟨(c1, k), hc2, fun h => absurd h hc1, by unfold joinOldEdge; rw [if_neg hc1]⟩
        have := (hopp l e (y.1, (y.2 : Int))).2 ⟨y.2, rfl, ⟨hl2', hlt⟩, ⟨hy2, hy1⟩, by
          rw [holdEq] at hco
          rw [hco, hy]⟩
        rw [hc] at this
        cases this

/-- **C28**, when it succeeds: the union is a polygon, all edges are glued, and the surface is connected with no
explicit root or an explicit root at one of the two polygons. -/
theorem C28_join_polygons_succeeds {s : MSurf L (Poly K)} (h : Reachable s) (hm : s.mutable = true) (p1 : L) (e1 : ℕ)
    (p2 : L) (e2 : ℕ) (poly1 poly2 q : Poly K) (g : Similarity K) (hne : p1 ≠ p2)
    (ho : s.oppositeEdge p1 (e1 : Int) = .ok (some (p2, (e2 : Int)))) (hp1 : s.polygon p1 = .ok poly1)
    (hp2 : s.polygon p2 = .ok poly2) (hg : s.edgeTransformation p2 e2 = .ok g)
    (hq : poly1.join (poly2.map g.call) e1 e2 = .ok q)
    (hglued1 : ∀ e : ℕ, e < poly1.length → s.oppositeEdge p1 (e : Int) ≠ .ok none)
    (hglued2 : ∀ e : ℕ, e < poly2.length → s.oppositeEdge p2 (e : Int) ≠ .ok none)
    (r : L) (hroot : s.rootsList = .ok [r]) (hroots : ∀ r ∈ s.roots, r = p1 ∨ r = p2) :
    ∃ t, joinPolygons p1 e1 s = .ok () t := by
  have hgood : Good s := ⟨h.ginv, hm, h.rootsOK⟩
  have he1 : s.IsEdge p1 e1 := by
    by_contra he
    rw [oppositeEdge_error h.ginv.toShape he] at ho
    cases ho
  have hop : s.opp p1 e1 = some (p2, (e2 : Int)) := by
    rw [oppositeEdge_eq_opp h.ginv.toShape he1] at ho
    injection ho
  have ho' : s.opp p2 e2 = some (p1, (e1 : Int)) := by
    obtain ⟨k, h1, h2⟩ := h.ginv.inv _ _ _ _ hop
    rw [Int.natCast_inj] at h1
    subst h1
    exact h2
  have he2 : s.IsEdge p2 e2 := opp_isEdge h.ginv.toShape ho'
  have hp1' := polygon_ok.1 hp1
  have hp2' := polygon_ok.1 hp2
  have he1' : e1 < poly1.length := by
    obtain ⟨p', h1, h2⟩ := he1
    rw [hp1'] at h1
    injection h1 with h1
    subst h1
    exact h2
  have he2' : e2 < poly2.length := by
    obtain ⟨p', h1, h2⟩ := he2
    rw [hp2'] at h1
    injection h1 with h1
    subst h1
    exact h2
  have spec := joinPolygons_spec hgood p1 e1 p2 e2 poly1 poly2 hp1' hp2' hop hne
  unfold wp at spec
  cases hr : joinPolygons p1 e1 s with
  | ok a t => exact ⟨t, rfl⟩
  | error e t =>
    rw [hr] at spec
    exfalso
    rcases spec with h1 | ⟨i, hi, h1⟩ | ⟨rs, h1, h2, r', h4, h5⟩ | ⟨r', h1, h2, h4⟩
    · apply h1 g hg
      unfold Poly.join at hq
      split_ifs at hq with hcond
      have hq' := (Poly.C58_accepted_iff _ _).1 hq
      unfold Poly.ofVertices at hq
      split_ifs at hq with h3
      refine (Poly.check_iff _ (by unfold joined; omega)).1 ?_
      cases hc : Poly.check (joined poly1 poly2 e1 e2 g) with
      | ok u => rfl
      | error e =>
        unfold joined at hc
        rw [hc] at hq
        cases hq
    · rcases (joinOld_mem hne he1' he2' _).1 ⟨i, hi, rfl⟩ with ⟨h5, h6, _⟩ | ⟨h5, h6, _⟩
      · refine hglued1 _ h6 ?_
        rw [oppositeEdge_eq_opp h.ginv.toShape ⟨poly1, hp1', h6⟩, ← h1, h5]
      · refine hglued2 _ h6 ?_
        rw [oppositeEdge_eq_opp h.ginv.toShape ⟨poly2, hp2', h6⟩, ← h1, h5]
    · rw [hroot] at h1
      injection h1 with h1
      subst h1
      rw [List.mem_singleton] at h2 h4
      exact h5 (by rw [h4, h2])
    · rcases hroots r' h1 with h5 | h5
      · exact h2 h5
      · exact h4 h5

/-- The hypotheses are satisfiable: joining the two triangles of a torus gives a parallelogram. -/
example : ∃ t, joinPolygons 0 1 exTorus = .ok () t := by
  obtain ⟨p1, hp1⟩ : ∃ p, exTorus.polygon 0 = .ok p ∧ p = tri := ⟨_, by decide +kernel, rfl⟩
  exact C28_join_polygons_succeeds exTorus_reachable (by decide +kernel) 0 1 1 1 tri tri
    [(0, 0), (1, 0), (1, 1), (0, 1)] ⟨-1, 0, 1, 1, 1⟩ (by decide) (by decide +kernel) (by decide +kernel) (by decide +kernel)
    (by decide +kernel) (by decide +kernel) (by decide +kernel) (by decide +kernel) 0 (by decide +kernel) (by decide +kernel)

/-- **C28** loses the explicit root: joining the polygon chosen with `set_root` to another one forgets the choice
although the code wants to keep it (surface.py 1820-1821). -/
theorem C28_root_lost_violation :
    ∃ s t : MSurf ℕ (Poly ℚ), Reachable s ∧ s.roots = [1] ∧ joinPolygons 1 0 s = .ok () t ∧ t.roots = [] := by
  have hr := Reachable.step _ (.setRoot 1) exTorus_reachable (by decide +kernel) trivial
    (fun l t gl he => by cases he)
  have hok : ∃ t, joinPolygons 1 0 (stateOf (Op.run (.setRoot 1) exTorus)) = .ok () t :=
    C28_join_polygons_succeeds hr (by decide +kernel) 1 0 0 0 tri tri
      [(0, 0), (1, -1), (1, 0), (0, 1)] ⟨-1, 0, 1, 0, 1⟩ (by decide) (by decide +kernel) (by decide +kernel) (by decide +kernel)
      (by decide +kernel) (by decide +kernel) (by decide +kernel) (by decide +kernel) 1 (by decide +kernel) (by decide +kernel)
  obtain ⟨t, ht⟩ := hok
  refine ⟨_, t, hr, by decide +kernel, ht, ?_⟩
  have : t = stateOf (joinPolygons 1 0 (stateOf (Op.run (.setRoot 1) exTorus))) := by rw [ht]; rfl
  rw [this]
  decide +kernel

/-- Whether a call ended with a failed assertion. -/
def failedAssertion {α : Type} (r : EStateM.Result Err (MSurf ℕ (Poly ℚ)) α) : Bool :=
  match r with
  | .error .assertionError _ => true
  | _ => false

theorem failedAssertion_iff {α : Type} (r : EStateM.Result Err (MSurf ℕ (Poly ℚ)) α) :
    failedAssertion r = true ↔ ∃ s, r = .error .assertionError s := by
  unfold failedAssertion
  split
  · simp
  · constructor
    · intro h; cases h
    · rintro ⟨s, rfl⟩
      rename_i h
      exact absurd rfl (h s)

/-- The calls that build a surface with two components, the first one falling apart when polygon 0 is removed. -/
def exBridgeOps : List (Op ℕ ℚ) :=
  [.addPolygon tri none, .addPolygon tri none, .addPolygon tri none, .addPolygon tri none,
    .glue (0, 0) (1, 0), .glue (0, 1) (2, 0), .glue (0, 2) (0, 2), .glue (1, 1) (1, 2), .glue (2, 1) (2, 2),
    .setRoots [0, 3]]

def runOps (ops : List (Op ℕ ℚ)) (s : MSurf ℕ (Poly ℚ)) : MSurf ℕ (Poly ℚ) :=
  ops.foldl (fun s op => stateOf (op.run s)) s

theorem reachable_runOps (ops : List (Op ℕ ℚ)) (s : MSurf ℕ (Poly ℚ)) (h : Reachable s)
    (hm : ∀ k ≤ ops.length, (runOps (ops.take k) s).mutable = true) (hn : ∀ op ∈ ops, op.NonNeg)
    (hr : ∀ op ∈ ops, ∀ l t gl, op ≠ .refinePolygon l t gl) : Reachable (runOps ops s) := by
  induction ops generalizing s with
  | nil => exact h
  | cons op ops ih =>
    refine ih (stateOf (op.run s)) (.step s op h (hm 0 (by simp)) (hn op (by simp))
      (fun l t gl he => absurd he (hr op (by simp) l t gl))) ?_ (fun o ho => hn o (by simp [ho]))
      (fun o ho => hr o (by simp [ho]))
    intro k hk
    exact hm (k + 1) (by simpa using hk)

/-- **C25** fails on a surface with explicit roots in two components: `set_vertex_zero` on a polygon that connects
parts of its component ends with a failed assertion, after it has removed the polygon. -/
theorem C25_crash_violation :
    ∃ s : MSurf ℕ (Poly ℚ), Reachable s ∧ s.mutable = true ∧ s.polygon 0 = .ok tri ∧
      (∀ e < 3, s.oppositeEdge 0 (e : ℕ) ≠ .ok none) ∧ ∃ t, setVertexZero 0 1 s = .error .assertionError t := by
  refine ⟨runOps exBridgeOps empty, reachable_runOps _ _ .empty (by decide +kernel) ?_ ?_, by decide +kernel,
    by decide +kernel, by decide +kernel, (failedAssertion_iff _).1 (by decide +kernel)⟩
  · intro op hop
    simp only [exBridgeOps, List.mem_cons, List.not_mem_nil, or_false] at hop
    rcases hop with rfl | rfl | rfl | rfl | rfl | rfl | rfl | rfl | rfl | rfl <;> simp [Op.NonNeg]
  · intro op hop
    simp only [exBridgeOps, List.mem_cons, List.not_mem_nil, or_false] at hop
    rcases hop with rfl | rfl | rfl | rfl | rfl | rfl | rfl | rfl | rfl | rfl <;> simp

end MSurf
end Flat
