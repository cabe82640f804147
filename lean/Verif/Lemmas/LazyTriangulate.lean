import Verif.Model.LazyTriangulate
import Verif.Props.PointInPolygon
import Verif.Props.Lazy

/-!
# Lemmas about `LazyTriangulatedSurface`
-/

namespace Flat

theorem Dict.get_map {L L' V V' : Type} [DecidableEq L] [DecidableEq L'] (f : L → L') (g : V → V') (d : Dict L V)
    (hf : ∀ a ∈ d.keys, ∀ b ∈ d.keys, f a = f b → a = b) {a : L} (ha : a ∈ d.keys) :
    Dict.get (d.map (fun x => (f x.1, g x.2)) : Dict L' V') (f a) = (d.get a).map g := by
  induction d with
  | nil => simp [Dict.keys] at ha
  | cons x d ih =>
    obtain ⟨k, v⟩ := x
    simp only [List.map_cons, Dict.get]
    by_cases h : k = a
    · subst h; simp
    · have hk : f k ≠ f a := fun e => h (hf k (by simp [Dict.keys]) a ha e)
      rw [if_neg hk, if_neg h]
      have ha' : a ∈ Dict.keys d := by
        simp only [Dict.keys, List.map_cons, List.mem_cons] at ha
        rcases ha with e | e
        · exact absurd e.symm h
        · exact e
      exact ih (fun a ha b hb => hf a (List.mem_cons_of_mem _ ha) b (List.mem_cons_of_mem _ hb)) ha'

theorem Dict.keys_map {L L' V V' : Type} (f : L → L') (g : V → V') (d : Dict L V) :
    Dict.keys (d.map (fun x => (f x.1, g x.2)) : Dict L' V') = d.keys.map f := by
  simp [Dict.keys, Function.comp_def]

namespace MSurf
variable {K : Type} [Field K] [LinearOrder K] [IsStrictOrderedRing K]

omit [IsStrictOrderedRing K] in
theorem triangulateGlue_nodup (n : ℕ) (edges es : Dict (ℕ × ℕ) (ℕ × Int)) (outer : Dict ℕ (ℕ × Int)) (h : outer.keys.Nodup)
    (s : MSurf ℕ (Poly K)) : wp (triangulateGlue n edges es outer) (fun o _ => Dict.keys o |>.Nodup) (fun _ _ => True) s := by
  induction es generalizing outer s with
  | nil =>
    unfold triangulateGlue
    rw [wp_pure]
    exact h
  | cons x es ih =>
    obtain ⟨⟨a, b⟩, x⟩ := x
    unfold triangulateGlue
    rw [wp_ite]
    refine ⟨fun _ => trivial, fun _ => ?_⟩
    split
    · rw [wp_bind]
      exact wp_mono ((wp_stateOf _ (fun _ => True) _).2 trivial) (fun _ _ _ => ih _ h _) (fun _ _ _ => trivial)
    · exact ih _ (Dict.keys_set_nodup _ h _ _) _

omit [IsStrictOrderedRing K] in
theorem triangulate_nodup (p : Poly K) (s : MSurf ℕ (Poly K)) :
    wp (triangulate p) (fun o _ => Dict.keys o |>.Nodup) (fun _ _ => True) s := by
  unfold triangulate
  rw [wp_ite]
  refine ⟨fun _ => trivial, fun _ => ?_⟩
  rw [wp_ite]
  refine ⟨fun _ => ?_, fun _ => ?_⟩
  · rw [wp_bind]
    refine wp_mono ((wp_stateOf _ (fun _ => True) _).2 trivial) (fun l _ _ => ?_) (fun _ _ _ => trivial)
    rw [wp_pure]
    simp [Dict.keys]
  · rw [wp_bind]
    refine wp_mono ((wp_stateOf _ (fun _ => True) _).2 trivial) (fun l _ _ => ?_) (fun _ _ _ => trivial)
    rw [wp_bind]
    refine wp_mono ((wp_stateOf _ (fun _ => True) _).2 trivial) (fun l _ _ => ?_) (fun _ _ _ => trivial)
    rw [wp_bind]
    refine wp_mono ((wp_stateOf _ (fun _ => True) _).2 trivial) (fun l _ _ => ?_) (fun _ _ _ => trivial)
    exact triangulateGlue_nodup _ _ _ _ (by simp [Dict.keys]) _

/-- A polygon cut into pieces: `outer` gives the piece and its edge for each edge of the polygon, `inner` the gluings of the
edges between the pieces. -/
structure Pieces {L : Type} [DecidableEq L] (p : Poly K) (piece : L → Option (Poly K)) (inner : L → ℕ → Except Err (Option (L × Int)))
    (outer : Dict ℕ (L × Int)) : Prop where
  nodup : outer.keys.Nodup
  keys : ∀ e, e ∈ outer.keys ↔ e < p.length
  outer_edge : ∀ e x (k : Int), outer.get e = some (x, k) → ∃ (j : ℕ) (q : Poly K), k = j ∧ piece x = some q ∧ j < q.length ∧
    q.vertex j = p.vertex e ∧ q.vertex (j + 1) = p.vertex (e + 1)
  inj : ∀ e e' x, outer.get e = some x → outer.get e' = some x → e = e'
  valid : ∀ x q, piece x = some q → q.Valid
  inner_edge : ∀ x q (j : ℕ), piece x = some q → j < q.length → (∀ e, outer.get e ≠ some (x, (j : Int))) →
    ∃ (x' : L) (j' : ℕ) (q' : Poly K), inner x j = .ok (some (x', (j' : Int))) ∧ piece x' = some q' ∧ j' < q'.length ∧
      (∀ e, outer.get e ≠ some (x', (j' : Int))) ∧ inner x' j' = .ok (some (x, (j : Int))) ∧
      q'.vertex j' = q.vertex (j + 1) ∧ q'.vertex (j' + 1) = q.vertex j

variable {L : Type} [LinearOrder L]

theorem mapLabels_oppositeEdge {t : MSurf ℕ (Poly K)} (ht : t.Shape) {f : ℕ → L}
    (hf : ∀ a ∈ t.polygons.keys, ∀ b ∈ t.polygons.keys, f a = f b → a = b) {l j : ℕ} (he : t.IsEdge l j) :
    (t.mapLabels f).oppositeEdge (f l) j = .ok ((t.opp l j).map (fun c => (f c.1, c.2))) := by
  obtain ⟨q, hq, hj⟩ := he
  have hk : ∀ a, a ∈ t.gluings.keys ↔ a ∈ t.polygons.keys := by
    intro a
    have := ht.len a
    rw [Dict.mem_keys_iff, Dict.mem_keys_iff, ← Option.isSome_map (f := List.length), this, Option.isSome_map]
  have hlk : l ∈ t.polygons.keys := by rw [Dict.mem_keys_iff, hq]; rfl
  have hg : ∃ g, t.gluings.get l = some g ∧ g.length = nv q := by
    have := ht.len l
    rw [hq] at this
    exact Option.map_eq_some_iff.1 this
  obtain ⟨g, hg, hgl⟩ := hg
  have h1 := Dict.get_map f (List.map (Option.map (fun c : ℕ × Int => (f c.1, c.2)))) t.gluings
    (fun a ha b hb => hf a ((hk a).1 ha) b ((hk b).1 hb)) ((hk l).2 hlk)
  unfold oppositeEdge opp mapLabels
  rw [h1, hg]
  simp only [Option.map_some]
  rw [pyGet_natCast, List.getElem?_map, List.getElem?_eq_getElem (by omega)]
  simp

theorem mapLabels_get {t : MSurf ℕ (Poly K)} {f : ℕ → L} (hf : ∀ a ∈ t.polygons.keys, ∀ b ∈ t.polygons.keys, f a = f b → a = b)
    {x : L} {q : Poly K} : (t.mapLabels f).polygons.get x = some q ↔ ∃ l, x = f l ∧ t.polygons.get l = some q := by
  have hkey : ∀ {l q}, t.polygons.get l = some q → l ∈ t.polygons.keys := by
    intro l q hq
    rw [Dict.mem_keys_iff, hq]; rfl
  constructor
  · intro hx
    have hk : x ∈ (t.mapLabels f).polygons.keys := by rw [Dict.mem_keys_iff, hx]; rfl
    have := Dict.keys_map f (id : Poly K → Poly K) t.polygons
    have hk2 : x ∈ t.polygons.keys.map f := by rw [← this]; exact hk
    obtain ⟨l, hl, rfl⟩ := List.mem_map.1 hk2
    have h2 := Dict.get_map f (id : Poly K → Poly K) t.polygons hf hl
    refine ⟨l, rfl, ?_⟩
    have h3 : (t.mapLabels f).polygons.get (f l) = t.polygons.get l := by
      rw [show (t.mapLabels f).polygons.get (f l) = _ from h2]; simp
    rw [← h3, hx]
  · rintro ⟨l, rfl, hq⟩
    have := Dict.get_map f (id : Poly K → Poly K) t.polygons hf (hkey hq)
    rw [hq] at this
    exact this

theorem pieces_mapLabels {p : Poly K} {outer : Dict ℕ (ℕ × Int)} {t : MSurf ℕ (Poly K)} (h : IsTriangulation p outer t)
    (hnd : outer.keys.Nodup) {f : ℕ → L} (hf : ∀ a ∈ t.polygons.keys, ∀ b ∈ t.polygons.keys, f a = f b → a = b) :
    Pieces p (t.mapLabels f).polygons.get (fun x (j : ℕ) => (t.mapLabels f).oppositeEdge x j)
      (outer.map (fun x => (x.1, (f x.2.1, x.2.2)))) := by
  have hget : ∀ e, Dict.get (outer.map (fun x => (x.1, (f x.2.1, x.2.2))) : Dict ℕ (L × Int)) e =
      (outer.get e).map (fun x => (f x.1, x.2)) := by
    intro e
    by_cases he : e ∈ outer.keys
    · exact Dict.get_map id (fun x : ℕ × Int => (f x.1, x.2)) outer (fun _ _ _ _ h => h) he
    · have h1 := (Dict.get_eq_none_iff outer e).2 he
      rw [h1]
      refine (Dict.get_eq_none_iff _ e).2 ?_
      have := Dict.keys_map id (fun x : ℕ × Int => (f x.1, x.2)) outer
      simp only [id] at this
      rw [this]
      simpa using he
  have hkey : ∀ {l q}, t.polygons.get l = some q → l ∈ t.polygons.keys := by
    intro l q hq
    rw [Dict.mem_keys_iff, hq]; rfl
  have hpiece : ∀ {l q}, t.polygons.get l = some q → (t.mapLabels f).polygons.get (f l) = some q :=
    fun hq => (mapLabels_get hf).2 ⟨_, rfl, hq⟩
  have hpiece' : ∀ {x q}, (t.mapLabels f).polygons.get x = some q → ∃ l, x = f l ∧ t.polygons.get l = some q :=
    fun hx => (mapLabels_get hf).1 hx
  have hlen : ∀ {l q}, t.polygons.get l = some q → q.length = 3 := by
    intro l q hq
    obtain ⟨a, b, c, -, -, -, rfl, -⟩ := h.triangle l q hq
    rfl
  have hno : ∀ {l q} {j : ℕ}, t.polygons.get l = some q → (∀ e, Dict.get (outer.map (fun x => (x.1, (f x.2.1, x.2.2))) : Dict ℕ (L × Int)) e ≠ some (f l, (j : Int))) →
      ∀ e, outer.get e ≠ some (l, (j : Int)) := by
    intro l q j hq hh e he
    refine hh e ?_
    rw [hget, he]
    rfl
  refine ⟨?_, ?_, ?_, ?_, ?_, ?_⟩
  · have := Dict.keys_map id (fun x : ℕ × Int => (f x.1, x.2)) outer
    simp only [id] at this
    rw [this]
    simpa using hnd
  · intro e
    rw [← h.outer_keys e, Dict.mem_keys_iff, Dict.mem_keys_iff, hget, Option.isSome_map]
  · intro e x k hk
    rw [hget, Option.map_eq_some_iff] at hk
    obtain ⟨⟨l, k'⟩, hl, hx⟩ := hk
    simp only [Prod.mk.injEq] at hx
    obtain ⟨rfl, rfl⟩ := hx
    obtain ⟨j, q, rfl, hj, hq, v1, v2, -⟩ := h.outer_edge e l k' hl
    exact ⟨j, q, rfl, hpiece hq, by rw [hlen hq]; exact hj, v1, v2⟩
  · intro e e' x he he'
    rw [hget, Option.map_eq_some_iff] at he he'
    obtain ⟨⟨l, k⟩, hl, hx⟩ := he
    obtain ⟨⟨l', k'⟩, hl', hx'⟩ := he'
    subst hx
    simp only [Prod.mk.injEq] at hx'
    obtain ⟨j, q, -, -, hq, -⟩ := h.outer_edge e l k hl
    obtain ⟨j', q', -, -, hq', -⟩ := h.outer_edge e' l' k' hl'
    have := hf _ (hkey hq') _ (hkey hq) hx'.1
    rw [this, hx'.2] at hl'
    exact h.outer_inj e e' _ hl hl'
  · intro x q hx
    obtain ⟨l, rfl, hq⟩ := hpiece' hx
    obtain ⟨a, b, c, -, -, -, -, hv, -⟩ := h.triangle l q hq
    exact hv
  · intro x q j hx hj hh
    obtain ⟨l, rfl, hq⟩ := hpiece' hx
    rw [hlen hq] at hj
    obtain ⟨l', j', q', ho, hq', hj', -, v1, v2⟩ := h.inner_edge l q j hq hj (hno hq hh)
    have hG := h.reachable.ginv
    have e1 : t.IsEdge l j := ⟨q, hq, by change j < q.length; rw [hlen hq]; exact hj⟩
    have e2 : t.IsEdge l' j' := ⟨q', hq', by change j' < q'.length; rw [hlen hq']; exact hj'⟩
    obtain ⟨k, hk, ho'⟩ := hG.inv l j l' j' ho
    have : j' = k := by exact_mod_cast hk
    subst this
    refine ⟨f l', j', q', ?_, hpiece hq', by rw [hlen hq']; exact hj', ?_, ?_, v1, v2⟩
    · rw [mapLabels_oppositeEdge hG.toShape hf e1, ho]; rfl
    · intro e he
      rw [hget, Option.map_eq_some_iff] at he
      obtain ⟨⟨l2, k2⟩, hl2, hx⟩ := he
      simp only [Prod.mk.injEq] at hx
      obtain ⟨j3, q3, hk3, -, hq3, -, -, hn⟩ := h.outer_edge e l2 k2 hl2
      have hll := hf _ (hkey hq3) _ (hkey hq') hx.1
      subst hll
      have : j3 = j' := by have := hx.2; rw [hk3] at this; exact_mod_cast this
      subst this
      rw [hn] at ho'
      exact absurd ho' (by simp)
    · rw [mapLabels_oppositeEdge hG.toShape hf e2, ho']; rfl

theorem labels_length {p : Poly K} {outer : Dict ℕ (ℕ × Int)} {t : MSurf ℕ (Poly K)} (h : IsTriangulation p outer t) :
    t.polygons.length = p.length - 2 := by
  have h1 : t.polygons.keys.Perm (List.range (p.length - 2)) := by
    refine (List.perm_ext_iff_of_nodup h.reachable.ginv.nodupP List.nodup_range).2 fun l => ?_
    rw [h.labels, List.mem_range]
    omega
  have := h1.length_eq
  simpa [Dict.keys] using this

variable [LabelNum L] [TupleLabel L]

theorem tag_inj {l l' : L} {k k' : ℕ} (h : tag l k = tag l' k') : l = l' ∧ k = k' := by
  have h1 := (TupleLabel.untag_iff (tag l k) l k).2 rfl
  rw [h, (TupleLabel.untag_iff (tag l' k') l' k').2 rfl] at h1
  simpa [eq_comm] using h1

/-- What `_triangulate` returns for a polygon. -/
theorem triangulateAt_spec {p : Poly K} (hv : p.Valid) (l : L) : ∃ t outer, triangulateAt p l = .ok (t, outer) ∧
    Pieces p t.polygons.get (fun x (j : ℕ) => t.oppositeEdge x j) outer ∧
    (∀ x q, t.polygons.get x = some q → q.length = 3) ∧
    (∀ x, x ∈ t.polygons.keys ↔ (p.length = 3 ∧ x = l ∨ 3 < p.length ∧ ∃ k, k + 2 < p.length ∧ x = tag l k)) ∧
    (∀ q : Vec K, (p.pointPosition q = .outside ↔ ∀ x r, t.polygons.get x = some r → r.pointPosition q = .outside) ∧
      ∀ x x' r r', x ≠ x' → t.polygons.get x = some r → t.polygons.get x' = some r' → r.pointPosition q = .interior →
        r'.pointPosition q = .outside) := by
  obtain ⟨outer, t, hr, ⟨h, hpos⟩, hnd⟩ := wp_ok (wp_mono (wp_and (wp_and (C11_triangulate hv) (C61_triangulate hv)) (triangulate_nodup p _))
    (fun _ _ h => h) (fun _ _ h => h.1.1))
  have hlen := labels_length h
  have hn : 3 ≤ p.length := hv.1
  have hkeys := h.labels
  obtain ⟨f, hf, hfi, hfk⟩ : ∃ f : ℕ → L, (if t.polygons.length = 1 then fun _ => l else tag l) = f ∧
      (∀ a ∈ t.polygons.keys, ∀ b ∈ t.polygons.keys, f a = f b → a = b) ∧
      (∀ x, (∃ a ∈ t.polygons.keys, f a = x) ↔ (p.length = 3 ∧ x = l ∨ 3 < p.length ∧ ∃ k, k + 2 < p.length ∧ x = tag l k)) := by
    by_cases h3 : p.length = 3
    · refine ⟨_, if_pos (by omega), fun a ha b hb _ => ?_, fun x => ?_⟩
      · rw [hkeys] at ha hb
        omega
      · constructor
        · rintro ⟨a, -, rfl⟩
          exact Or.inl ⟨h3, rfl⟩
        · rintro (⟨-, rfl⟩ | ⟨h4, -⟩)
          · exact ⟨0, (hkeys 0).2 (by omega), rfl⟩
          · omega
    · refine ⟨_, if_neg (by omega), fun a ha b hb hab => (tag_inj hab).2, fun x => ?_⟩
      constructor
      · rintro ⟨a, ha, rfl⟩
        exact Or.inr ⟨by omega, a, (hkeys a).1 ha, rfl⟩
      · rintro (⟨h4, -⟩ | ⟨-, k, hk, rfl⟩)
        · omega
        · exact ⟨k, (hkeys k).2 hk, rfl⟩
  refine ⟨t.mapLabels f, outer.map (fun x => (x.1, (f x.2.1, x.2.2))), ?_, pieces_mapLabels h hnd hfi, ?_, ?_, fun q => ⟨?_, ?_⟩⟩
  · unfold triangulateAt
    rw [hr]
    simp only [hf]
  · intro x q hx
    obtain ⟨l, -, hq⟩ := (mapLabels_get hfi).1 hx
    obtain ⟨a, b, c, -, -, -, rfl, -⟩ := h.triangle l q hq
    rfl
  · intro x
    rw [← hfk]
    have := Dict.keys_map f (id : Poly K → Poly K) t.polygons
    rw [show (t.mapLabels f).polygons.keys = _ from this, List.mem_map]
  · rw [(hpos q).1]
    constructor
    · intro hh x r hx
      obtain ⟨l, rfl, hl⟩ := (mapLabels_get hfi).1 hx
      exact hh l r hl
    · intro hh l r hl
      exact hh (f l) r ((mapLabels_get hfi).2 ⟨l, rfl, hl⟩)
  · intro x x' r r' hne hx hx'
    obtain ⟨l, rfl, hl⟩ := (mapLabels_get hfi).1 hx
    obtain ⟨l', rfl, hl'⟩ := (mapLabels_get hfi).1 hx'
    exact (hpos q).2 l l' r r' (fun e => hne (by rw [e])) hl hl'

end MSurf
end Flat
