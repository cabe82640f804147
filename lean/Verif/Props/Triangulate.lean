import Verif.Lemmas.EarClip
import Verif.Lemmas.Build
import Verif.Lemmas.Triangles
import Verif.Props.Copy
import Verif.Props.Centroid
import Verif.Props.Subdivide

/-!
# C11: triangulating a polygon
-/

namespace Flat
namespace MSurf
open Poly
variable {K : Type} [Field K] [LinearOrder K] [IsStrictOrderedRing K]

/-- The triangle with given corners. -/
def triPoly (p : Poly K) (t : Triple) : Poly K := [p.vertex t.1, p.vertex t.2.1, p.vertex t.2.2]

/-- The gluings of the triangles. -/
def triG (T : List Triple) (l e : ℕ) : Option (ℕ × Int) :=
  match T[l]? with
  | none => none
  | some t => if e < 3 then Dict.get (tEdgeList T) (tEdge t e).swap else none

theorem triG_eq {T : List Triple} {l e : ℕ} {t : Triple} (h : T[l]? = some t) (he : e < 3) :
    triG T l e = Dict.get (tEdgeList T) (tEdge t e).swap := by
  unfold triG
  rw [h]
  exact if_pos he

theorem triG_some {T : List Triple} {l e : ℕ} {c : ℕ × Int} (h : triG T l e = some c) :
    ∃ t, T[l]? = some t ∧ e < 3 ∧ Dict.get (tEdgeList T) (tEdge t e).swap = some c := by
  unfold triG at h
  cases ht : T[l]? with
  | none => rw [ht] at h; cases h
  | some t =>
    rw [ht] at h
    dsimp only at h
    split_ifs at h with he
    exact ⟨t, rfl, he, h⟩

theorem triG_inv {T : List Triple} (hT : (T.flatMap tEdges).Nodup) : ∀ l (e : ℕ) l' e', triG T l e = some (l', e') →
    ∃ k : ℕ, e' = k ∧ triG T l' k = some (l, (e : Int)) := by
  intro l e l' e' h
  obtain ⟨t, ht, he, hg⟩ := triG_some h
  obtain ⟨t', ht', k, hk, rfl, hs⟩ := (tEdgeList_get hT).1 hg
  refine ⟨k, rfl, ?_⟩
  rw [triG_eq ht' hk, hs, Prod.swap_swap]
  exact (tEdgeList_get hT).2 ⟨t, ht, e, he, rfl, rfl⟩

/-- The pairs of edges that are glued. -/
def triGlues (edges es : Dict (ℕ × ℕ) (ℕ × Int)) : List ((ℕ × Int) × (ℕ × Int)) :=
  es.filterMap (fun x => (Dict.get edges x.1.swap).map (fun y => (x.2, y)))

/-- The edges of the polygon. -/
def triOuter (edges es : Dict (ℕ × ℕ) (ℕ × Int)) : Dict ℕ (ℕ × Int) :=
  es.filterMap (fun x => if (Dict.get edges x.1.swap).isNone then some (x.1.1, x.2) else none)

omit [IsStrictOrderedRing K] in
theorem triangulateGlue_eq (n : ℕ) (edges es : Dict (ℕ × ℕ) (ℕ × Int)) (outer : Dict ℕ (ℕ × Int))
    (h : ∀ x ∈ es, ¬ (Dict.has edges x.1.swap = decide (x.1.2 = (x.1.1 + 1) % n ∨ x.1.1 = (x.1.2 + 1) % n))) :
    (triangulateGlue n edges es outer : Act ℕ (Poly K) _) =
      (do gluePairs (triGlues edges es); pure ((triOuter edges es).foldl (fun d x => d.set x.1 x.2) outer)) := by
  induction es generalizing outer with
  | nil => simp [triangulateGlue, triGlues, triOuter, gluePairs]
  | cons x es ih =>
    obtain ⟨⟨a, b⟩, x⟩ := x
    unfold triangulateGlue
    have h0 := h ((a, b), x) (by simp)
    simp only [Prod.swap_prod_mk] at h0
    rw [if_neg h0]
    have hrest : ∀ y ∈ es, _ := fun y hy => h y (List.mem_cons_of_mem _ hy)
    cases hg : Dict.get edges (b, a) with
    | some y =>
      dsimp only
      rw [ih _ hrest]
      have e1 : triGlues edges (((a, b), x) :: es) = (x, y) :: triGlues edges es := by
        unfold triGlues
        rw [List.filterMap_cons]
        simp [hg]
      have e2 : triOuter edges (((a, b), x) :: es) = triOuter edges es := by
        unfold triOuter
        rw [List.filterMap_cons]
        simp [hg]
      rw [e1, e2, gluePairs]
      simp
    | none =>
      dsimp only
      rw [ih _ hrest]
      have e1 : triGlues edges (((a, b), x) :: es) = triGlues edges es := by
        unfold triGlues
        rw [List.filterMap_cons]
        simp [hg]
      have e2 : triOuter edges (((a, b), x) :: es) = (a, x) :: triOuter edges es := by
        unfold triOuter
        rw [List.filterMap_cons]
        simp [hg]
      rw [e1, e2]
      rfl

theorem get_zipIdx_map (T : List Triple) (f : Triple → Poly K) (l : ℕ) :
    Dict.get (T.zipIdx.map (fun x => (x.2, f x.1)) : Dict ℕ (Poly K)) l = (T[l]?).map f := by
  have hk : Dict.keys (T.zipIdx.map (fun x => (x.2, f x.1)) : Dict ℕ (Poly K)) = List.range T.length := by
    unfold Dict.keys
    rw [List.map_map]
    have : (Prod.fst ∘ fun x : Triple × ℕ => (x.2, f x.1)) = Prod.snd := rfl
    rw [this, List.zipIdx_map_snd, List.range_eq_range']
  have hnd : (Dict.keys (T.zipIdx.map (fun x => (x.2, f x.1)) : Dict ℕ (Poly K))).Nodup := by rw [hk]; exact List.nodup_range
  cases ht : T[l]? with
  | none =>
    rw [(Dict.get_eq_none_iff _ _).2]
    · rfl
    · rw [hk, List.mem_range]
      intro hl
      rw [List.getElem?_eq_getElem hl] at ht
      cases ht
  | some t =>
    exact Dict.get_of_mem _ hnd _ _ (List.mem_map.2 ⟨(t, l), List.mem_zipIdx_iff_getElem?.2 ht, rfl⟩)

/-- Building the surface from the triangles. -/
theorem triangulate_core (p : Poly K) (hn : 3 ≤ p.length) (T : List Triple) (hT : Triangulated p.length T) :
    wp (do
        addAll (T.zipIdx.map (fun x => (x.2, triPoly p x.1)))
        triangulateGlue p.length (tEdgeList T) (tEdgeList T) [])
      (fun outer t => Reachable t ∧ (∀ l, t.polygons.get l = (T[l]?).map (triPoly p)) ∧ (∀ l e, t.opp l e = triG T l e) ∧
        ∀ e x, Dict.get outer e = some x ↔ e < p.length ∧ Dict.get (tEdgeList T) (e, (e + 1) % p.length) = some x)
      (fun _ _ => False) MSurf.empty := by
  have hknd := (tEdgeList_keys T).nodup_iff.2 hT.nodup
  have hkey : ∀ x ∈ tEdgeList T, x.1 ∈ T.flatMap tEdges := fun x hx =>
    (tEdgeList_keys T).mem_iff.1 (List.mem_map.2 ⟨x, hx, rfl⟩)
  have hhas : ∀ x, Dict.has (tEdgeList T) x = true ↔ x ∈ T.flatMap tEdges := fun x => by
    rw [Dict.has_iff, (tEdgeList_keys T).mem_iff]
  have hassert : ∀ x ∈ tEdgeList T, ¬ (Dict.has (tEdgeList T) x.1.swap =
      decide (x.1.2 = (x.1.1 + 1) % p.length ∨ x.1.1 = (x.1.2 + 1) % p.length)) := by
    intro x hx
    rcases hT.edge_cases hn (hkey x hx) with ⟨h1, h2⟩ | ⟨h1, h2⟩
    · have : Dict.has (tEdgeList T) x.1.swap = false := by
        rw [← Bool.not_eq_true, hhas]
        exact h2
      rw [this, decide_eq_true (Or.inl h1)]
      simp
    · rw [(hhas _).2 h2, decide_eq_false h1]
      simp
  have houter : ∀ e x, (e, x) ∈ triOuter (tEdgeList T) (tEdgeList T) ↔
      e < p.length ∧ Dict.get (tEdgeList T) (e, (e + 1) % p.length) = some x := by
    intro e x
    unfold triOuter
    rw [List.mem_filterMap]
    constructor
    · rintro ⟨⟨⟨a, b⟩, y⟩, hy, hx⟩
      split_ifs at hx with hi
      simp only [Option.some.injEq, Prod.mk.injEq] at hx
      obtain ⟨rfl, rfl⟩ := hx
      rcases hT.edge_cases hn (hkey _ hy) with ⟨h1, h2⟩ | ⟨h1, h2⟩
      · dsimp only at h1
        subst h1
        exact ⟨(hT.lt _ (hkey _ hy)).1, Dict.get_of_mem _ hknd _ _ hy⟩
      · exfalso
        rw [← (tEdgeList_keys T).mem_iff, Dict.mem_keys_iff] at h2
        rw [Option.isNone_iff_eq_none] at hi
        rw [hi] at h2
        cases h2
    · rintro ⟨h1, h2⟩
      refine ⟨((e, (e + 1) % p.length), x), Dict.mem_of_get _ _ _ h2, ?_⟩
      have hm := hkey _ (Dict.mem_of_get _ _ _ h2)
      rcases hT.edge_cases hn hm with ⟨-, h4⟩ | ⟨h3, -⟩
      · rw [if_pos]
        rw [Option.isNone_iff_eq_none, Dict.get_eq_none_iff, (tEdgeList_keys T).mem_iff]
        exact h4
      · exact absurd (Or.inl rfl) h3
  have hond : (Dict.keys (triOuter (tEdgeList T) (tEdgeList T))).Nodup := by
    unfold Dict.keys
    have hp : (tEdgeList T).Pairwise (fun x y => x.1 ≠ y.1) := by
      have := hknd
      unfold Dict.keys at this
      exact List.pairwise_map.1 this
    unfold triOuter
    refine List.pairwise_map.2 (List.Pairwise.filterMap _ ?_ (hp.imp_of_mem (R := fun x y => x.1 ≠ y.1) (S := fun x y =>
      (x ∈ tEdgeList T ∧ y ∈ tEdgeList T) ∧ x.1 ≠ y.1) fun hx hy h => ⟨⟨hx, hy⟩, h⟩))
    rintro ⟨⟨a, b⟩, x⟩ ⟨⟨a', b'⟩, x'⟩ ⟨⟨hm, hm'⟩, hne⟩ z hz z' hz' heq
    have pick : ∀ {a b : ℕ} {x : ℕ × Int} {z}, ((a, b), x) ∈ tEdgeList T →
        (if (Dict.get (tEdgeList T) ((a, b), x).1.swap).isNone then some (((a, b), x).1.1, ((a, b), x).2) else none) = some z →
        z.1 = a ∧ b = (a + 1) % p.length := by
      intro a b x z hm hz
      split_ifs at hz with hi
      simp only [Option.some.injEq] at hz
      refine ⟨by rw [← hz], ?_⟩
      rcases hT.edge_cases hn (hkey _ hm) with ⟨h1, -⟩ | ⟨-, h2⟩
      · exact h1
      · exfalso
        rw [← (tEdgeList_keys T).mem_iff, Dict.mem_keys_iff] at h2
        rw [Option.isNone_iff_eq_none] at hi
        rw [hi] at h2
        cases h2
    obtain ⟨p1, p2⟩ := pick hm hz
    obtain ⟨q1, q2⟩ := pick hm' hz'
    apply hne
    dsimp only
    rw [p2, q2, ← p1, ← q1, heq]
  have hget : ∀ e x, Dict.get (triOuter (tEdgeList T) (tEdgeList T)) e = some x ↔
      e < p.length ∧ Dict.get (tEdgeList T) (e, (e + 1) % p.length) = some x := fun e x => by
    rw [← houter]
    exact ⟨fun h => Dict.mem_of_get _ _ _ h, fun h => Dict.get_of_mem _ hond _ _ h⟩
  rw [triangulateGlue_eq p.length _ _ _ hassert, foldl_set_nodup _ _ (by simpa using hond), List.nil_append, wp_bind]
  obtain ⟨e1, e2, e3⟩ := empty_of_keys (s := (MSurf.empty : MSurf ℕ (Poly K))) good_empty (by simp [MSurf.empty, Dict.keys])
  refine wp_mono (wp_and (addAll_spec good_empty _ ?_ (fun l _ => by simp [MSurf.empty, Dict.keys]))
    (reachable_addAll Reachable.empty rfl _)) ?_ (fun _ _ hh => hh.1)
  · unfold Dict.keys
    rw [List.map_map]
    have : (Prod.fst ∘ fun x : Triple × ℕ => (x.2, triPoly p x.1)) = Prod.snd := rfl
    rw [this, List.zipIdx_map_snd]
    exact List.nodup_range'
  rintro _ t ⟨⟨ht, hp, ho, hr, _⟩, hre⟩
  have hp' : ∀ l, t.polygons.get l = (T[l]?).map (triPoly p) := by
    intro l
    rw [hp, e1, get_zipIdx_map]
    simp [Dict.get]
  rw [wp_bind]
  refine wp_mono (build_glue hre ht.2.1 (fun l e => by rw [ho, e3]) (triG T) (triG_inv hT.nodup) ?_ (triGlues (tEdgeList T) (tEdgeList T))
    ?_ ?_ (Or.inl (hr rfl))) ?_ (fun _ _ hh => hh)
  · intro l e c hc
    obtain ⟨t', h1, h2, -⟩ := triG_some hc
    exact ⟨triPoly p t', by rw [hp', h1]; rfl, h2⟩
  · intro x hx
    unfold triGlues at hx
    rw [List.mem_filterMap] at hx
    obtain ⟨⟨ab, l, e⟩, hy, hx⟩ := hx
    obtain ⟨y, h1, rfl⟩ := Option.map_eq_some_iff.1 hx
    obtain ⟨t', h2, k, hk, rfl, h3⟩ := mem_tEdgeList.1 hy
    refine ⟨k, rfl, ?_⟩
    dsimp only at h1 ⊢
    rw [triG_eq h2 hk, h3, h1]
  · intro l e c hc
    left
    obtain ⟨t', h1, h2, h3⟩ := triG_some hc
    unfold triGlues
    rw [List.mem_filterMap]
    refine ⟨(tEdge t' e, (l, (e : Int))), mem_tEdgeList.2 ⟨t', h1, e, h2, rfl, rfl⟩, ?_⟩
    dsimp only
    rw [h3]
    rfl
  · rintro _ t2 ⟨k1, k2, k3, k4⟩
    exact ⟨k1, fun l => by rw [k3, hp'], k4, hget⟩


theorem vertex_tri (a b c : Vec K) (k : ℕ) (hk : k < 3) :
    Poly.vertex [a, b, c] k = [a, b, c].getD k 0 ∧ Poly.vertex [a, b, c] (k + 1) = [b, c, a].getD k 0 := by
  interval_cases k <;> simp [vertex]

/-- The end points of an edge of a triangle. -/
theorem triPoly_vertex (p : Poly K) (t : Triple) {k : ℕ} (hk : k < 3) :
    (triPoly p t).vertex k = p.vertex (tEdge t k).1 ∧ (triPoly p t).vertex (k + 1) = p.vertex (tEdge t k).2 := by
  interval_cases k <;> simp [triPoly, vertex, tEdge, tEdges]

theorem triPoly_area (p : Poly K) (t : Triple) :
    2 * (triPoly p t).area = ((tEdges t).map (fun x => ccw (p.vertex x.1) (p.vertex x.2))).sum := by
  rw [area_sum]
  simp [triPoly, tEdges, List.range_succ, vertex]

/-- What `triangulate()` is to return: `T` lists the corners of the triangles. -/
structure IsTriangulation (p : Poly K) (outer : Dict ℕ (ℕ × Int)) (t : MSurf ℕ (Poly K)) : Prop where
  reachable : Reachable t
  /-- there are `n - 2` triangles, labelled consecutively -/
  labels : ∀ l, l ∈ t.polygons.keys ↔ l + 2 < p.length
  /-- they are counterclockwise triangles on vertices of the polygon -/
  triangle : ∀ l q, t.polygons.get l = some q → ∃ a b c, a < p.length ∧ b < p.length ∧ c < p.length ∧
    q = [p.vertex a, p.vertex b, p.vertex c] ∧ q.Valid ∧ 0 < q.area
  /-- their areas add up to the area of the polygon -/
  area : ((List.range (p.length - 2)).map (fun l => (polyAt t l).area)).sum = p.area
  /-- the returned dictionary has the edges of the polygon as its keys -/
  outer_keys : ∀ e, e ∈ outer.keys ↔ e < p.length
  /-- each edge of the polygon is the edge of a triangle returned for it, which is not glued -/
  outer_edge : ∀ e l (k : Int), outer.get e = some (l, k) → ∃ (j : ℕ) (q : Poly K), k = j ∧ j < 3 ∧ t.polygons.get l = some q ∧
    q.vertex j = p.vertex e ∧ q.vertex (j + 1) = p.vertex (e + 1) ∧ t.opp l j = none
  /-- ... and of no other edge of the polygon -/
  outer_inj : ∀ e e' x, outer.get e = some x → outer.get e' = some x → e = e'
  /-- all other edges of triangles are glued to the edge of another triangle that runs backwards -/
  inner_edge : ∀ l q (j : ℕ), t.polygons.get l = some q → j < 3 → (∀ e, outer.get e ≠ some (l, (j : Int))) →
    ∃ (l' j' : ℕ) (q' : Poly K), t.opp l j = some (l', (j' : Int)) ∧ t.polygons.get l' = some q' ∧ j' < 3 ∧ l' ≠ l ∧
      q'.vertex j' = q.vertex (j + 1) ∧ q'.vertex (j' + 1) = q.vertex j

theorem triPoly_corners {p : Poly K} {t : Triple} (h : 0 < ccw (p.vertex t.2.1 - p.vertex t.1) (p.vertex t.2.2 - p.vertex t.1)) :
    t.1 ≠ t.2.1 ∧ t.2.1 ≠ t.2.2 ∧ t.1 ≠ t.2.2 := by
  refine ⟨fun hh => ?_, fun hh => ?_, fun hh => ?_⟩ <;> rw [hh] at h <;> simp [ccw] at h
  exact absurd h (by rw [mul_comm]; simp)

/-- The surface built from positive triangles is as required. -/
theorem isTriangulation_of {p : Poly K} (hn : 3 ≤ p.length) {T : List Triple} (hT : Triangulated p.length T)
    (hpos : ∀ t ∈ T, 0 < ccw (p.vertex t.2.1 - p.vertex t.1) (p.vertex t.2.2 - p.vertex t.1))
    {outer : Dict ℕ (ℕ × Int)} {t : MSurf ℕ (Poly K)} (h1 : Reachable t) (h2 : ∀ l, t.polygons.get l = (T[l]?).map (triPoly p))
    (h3 : ∀ l e, t.opp l e = triG T l e)
    (h4 : ∀ e x, Dict.get outer e = some x ↔ e < p.length ∧ Dict.get (tEdgeList T) (e, (e + 1) % p.length) = some x) :
    IsTriangulation p outer t := by
  have hlen := hT.len
  have hq : ∀ x ∈ T, (triPoly p x).Valid := fun x hx =>
    ((ofVertices_iff _ _).1 ((ofVertices_triangle _ _ _).2 (hpos x hx))).2
  have hcor : ∀ x ∈ T, x.1 < p.length ∧ x.2.1 < p.length ∧ x.2.2 < p.length := by
    intro x hx
    have m : ∀ y ∈ tEdges x, y.1 < p.length := fun y hy => (hT.lt y (List.mem_flatMap.2 ⟨x, hx, hy⟩)).1
    exact ⟨m (x.1, x.2.1) (by simp [tEdges]), m (x.2.1, x.2.2) (by simp [tEdges]), m (x.2.2, x.1) (by simp [tEdges])⟩
  have hget : ∀ l q, t.polygons.get l = some q → ∃ x, T[l]? = some x ∧ x ∈ T ∧ q = triPoly p x := by
    intro l q hl
    rw [h2] at hl
    obtain ⟨x, hx, rfl⟩ := Option.map_eq_some_iff.1 hl
    exact ⟨x, hx, List.mem_of_getElem? hx, rfl⟩
  refine ⟨h1, ?_, ?_, ?_, ?_, ?_, ?_, ?_⟩
  · intro l
    rw [Dict.mem_keys_iff, h2, Option.isSome_map, isSome_getElem?]
    omega
  · intro l q hl
    obtain ⟨x, -, hx, rfl⟩ := hget l q hl
    obtain ⟨c1, c2, c3⟩ := hcor x hx
    exact ⟨x.1, x.2.1, x.2.2, c1, c2, c3, rfl, hq x hx, (hq x hx).area_pos⟩
  · have e1 : (List.range (p.length - 2)).map (fun l => (polyAt t l).area) = T.map (fun x => (triPoly p x).area) := by
      refine List.ext_getElem (by simp; omega) fun i i1 i2 => ?_
      have hi : i < T.length := by simpa using i2
      simp only [List.getElem_map, List.getElem_range]
      unfold polyAt
      rw [h2, List.getElem?_eq_getElem hi]
      rfl
    rw [e1]
    have e2 := hT.sum (fun a b => ccw (p.vertex a) (p.vertex b)) (fun a b => by simp only [ccw]; ring)
    have e3 : ((List.range p.length).map (fun i => ccw (p.vertex i) (p.vertex ((i + 1) % p.length)))).sum = 2 * p.area := by
      rw [area_sum]
      congr 1
      refine List.map_congr_left fun i _ => ?_
      rw [vertex_mod]
    rw [e3] at e2
    have e4 : ((T.flatMap tEdges).map (fun x => ccw (p.vertex x.1) (p.vertex x.2))).sum = 2 * (T.map (fun x => (triPoly p x).area)).sum := by
      clear e1 e2 e3 h2 h3 h4 hget hcor hq hpos hT hlen
      induction T with
      | nil => simp
      | cons x T ih =>
        rw [List.flatMap_cons, List.map_append, List.sum_append, ih, ← triPoly_area, List.map_cons, List.sum_cons]
        ring
    rw [e4] at e2
    exact mul_left_cancel₀ two_ne_zero e2
  · intro e
    rw [Dict.mem_keys_iff, Option.isSome_iff_exists]
    constructor
    · rintro ⟨x, hx⟩
      exact ((h4 e x).1 hx).1
    · intro he
      have hm := hT.outer_mem he
      rw [← (tEdgeList_keys T).mem_iff, Dict.mem_keys_iff, Option.isSome_iff_exists] at hm
      obtain ⟨x, hx⟩ := hm
      exact ⟨x, (h4 e x).2 ⟨he, hx⟩⟩
  · intro e l k hk
    obtain ⟨he, hg⟩ := (h4 e _).1 hk
    obtain ⟨x, hx, j, hj, rfl, hxe⟩ := (tEdgeList_get hT.nodup).1 hg
    obtain ⟨v1, v2⟩ := triPoly_vertex p x hj
    rw [hxe] at v1 v2
    refine ⟨j, triPoly p x, rfl, hj, by rw [h2, hx]; rfl, v1, ?_, ?_⟩
    · rw [v2, vertex_mod]
    · rw [h3, triG_eq hx hj, hxe, Dict.get_eq_none_iff, (tEdgeList_keys T).mem_iff]
      rcases hT.edge_cases hn (hT.outer_mem he) with ⟨-, hh⟩ | ⟨hh, -⟩
      · exact hh
      · exact absurd (Or.inl rfl) hh
  · intro e e' x h h'
    obtain ⟨he, hg⟩ := (h4 e _).1 h
    obtain ⟨he', hg'⟩ := (h4 e' _).1 h'
    obtain ⟨y, hy, j, hj, hx, hxe⟩ := (tEdgeList_get hT.nodup (l := x.1) (e := x.2)).1 hg
    obtain ⟨y', hy', j', hj', hx', hxe'⟩ := (tEdgeList_get hT.nodup (l := x.1) (e := x.2)).1 hg'
    have : y = y' := by rw [hy] at hy'; exact Option.some.inj hy'
    subst this
    have : j = j' := by rw [hx] at hx'; exact_mod_cast hx'
    subst this
    rw [hxe] at hxe'
    exact (Prod.mk.inj hxe').1
  · intro l q j hl hj hno
    obtain ⟨x, hx, hxT, rfl⟩ := hget l q hl
    have hm := edge_mem hx hj
    rcases hT.edge_cases hn hm with ⟨ha, -⟩ | ⟨-, hb⟩
    · exfalso
      refine hno (tEdge x j).1 ((h4 _ _).2 ⟨(hT.lt _ hm).1, ?_⟩)
      rw [← ha]
      exact (tEdgeList_get hT.nodup).2 ⟨x, hx, j, hj, rfl, rfl⟩
    · rw [← (tEdgeList_keys T).mem_iff, Dict.mem_keys_iff, Option.isSome_iff_exists] at hb
      obtain ⟨⟨l', k'⟩, hg⟩ := hb
      obtain ⟨x', hx', j', hj', rfl, hxe⟩ := (tEdgeList_get hT.nodup).1 hg
      obtain ⟨v1, v2⟩ := triPoly_vertex p x hj
      obtain ⟨v1', v2'⟩ := triPoly_vertex p x' hj'
      rw [hxe] at v1' v2'
      refine ⟨l', j', triPoly p x', by rw [h3, triG_eq hx hj, hg], by rw [h2, hx']; rfl, hj', ?_, ?_, ?_⟩
      · rintro rfl
        have : x = x' := by rw [hx] at hx'; exact Option.some.inj hx'
        subst this
        obtain ⟨n1, n2, n3⟩ := triPoly_corners (hpos x hxT)
        interval_cases j <;> interval_cases j' <;> simp only [tEdge, tEdges, List.getD_cons_zero, List.getD_cons_succ, Prod.swap_prod_mk, Prod.mk.injEq] at hxe <;> omega
      · rw [v1', v2]; rfl
      · rw [v2', v1]; rfl

/-- If clipping ears succeeds and gives positive triangles then `triangulate()` returns, with a triangulation. -/
theorem triangulate_of_earLoop {p : Poly K} (hn : 3 < p.length) {t : Dict Triple ℕ} (ht : p.earLoop (List.range p.length) [] = .ok t)
    (hpos : ∀ x ∈ Dict.keys t, 0 < ccw (p.vertex x.2.1 - p.vertex x.1) (p.vertex x.2.2 - p.vertex x.1)) :
    wp (triangulate p) (fun outer t => IsTriangulation p outer t ∧ ∃ T, Triangulated p.length T ∧
        (∀ x ∈ T, 0 < ccw (p.vertex x.2.1 - p.vertex x.1) (p.vertex x.2.2 - p.vertex x.1)) ∧
        ∀ l, t.polygons.get l = (T[l]?).map (triPoly p)) (fun _ _ => False) MSurf.empty := by
  obtain ⟨T, rfl, hT⟩ := earLoop_spec p (List.range p.length) [] (EarInv.start (by omega)) t ht
  rw [zipIdx_keys] at hpos
  unfold triangulate
  rw [if_neg (by omega), if_neg (by omega), wp_bind, wp_liftE, ht]
  have hm : (T.zipIdx : Dict Triple ℕ).mapM (fun x => do
      let q ← Poly.ofVertices [p.vertex x.1.1, p.vertex x.1.2.1, p.vertex x.1.2.2]
      return (x.2, q) : Triple × ℕ → Except Err (ℕ × Poly K)) = .ok (T.zipIdx.map (fun x => (x.2, triPoly p x.1))) := by
    rw [mapM_ok_iff, List.forall₂_map_right_iff]
    refine List.forall₂_same.2 fun x hx => ?_
    have hxT : x.1 ∈ T := List.fst_mem_of_mem_zipIdx hx
    rw [(ofVertices_triangle _ _ _).2 (hpos _ hxT)]
    rfl
  refine ⟨fun a ha => ?_, fun e he => by cases he⟩
  cases ha
  rw [wp_bind, wp_liftE, hm]
  refine ⟨fun a ha => ?_, fun e he => by cases he⟩
  cases ha
  rw [triangleEdges_eq hT.nodup]
  refine wp_mono (triangulate_core p (by omega) T hT) ?_ (fun _ _ h => h)
  rintro outer t ⟨h1, h2, h3, h4⟩
  exact ⟨isTriangulation_of (by omega) hT hpos h1 h2 h3 h4, T, hT, hpos, h2⟩

end MSurf
end Flat
