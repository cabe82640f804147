import Verif.Lemmas.Rebuild
import Verif.Props.Equality

/-!
# C47: membership, length and iteration of the views of labels, polygons, edges and gluings
-/

namespace Flat
namespace MSurf
variable {L K : Type} [LinearOrder L] [LabelNum L] [Field K] [LinearOrder K] [IsStrictOrderedRing K]

/-- **C47**, labels: membership and length of `labels()` agree with the iteration, and the labels are those
that have a polygon. -/
theorem C47_labels {s : MSurf L (Poly K)} (h : Reachable s) :
    ∃ ls, s.labels = .ok ls ∧ ls.Nodup ∧ s.labelsLen = ls.length ∧
      (∀ l, s.labelsContains l = true ↔ l ∈ ls) ∧ (∀ l, l ∈ ls ↔ ∃ p, s.polygon l = .ok p) := by
  obtain ⟨ls, hls, hln, hlm⟩ := labels_spec h.ginv h.rootsOK
  refine ⟨ls, hls, hln, ?_, fun l => ?_, fun l => ?_⟩
  · have : ls.Perm s.polygons.keys := (List.perm_ext_iff_of_nodup hln h.ginv.nodupP).2 hlm
    rw [this.length_eq]
    simp [labelsLen, Dict.keys]
  · simp [labelsContains, hlm]
  · rw [hlm, Dict.mem_keys_iff, Option.isSome_iff_exists]
    simp only [polygon_ok]

/-- **C47**, polygons: iterating over `polygons()` yields the polygon of each label, in the order of the labels,
and their number is the length of the view. -/
theorem C47_polygons {s : MSurf L (Poly K)} (h : Reachable s) :
    ∃ ls ps, s.labels = .ok ls ∧ s.polygonList = .ok ps ∧ s.polygonsLen = ps.length ∧
      List.Forall₂ (fun l p => s.polygon l = .ok p) ls ps := by
  obtain ⟨ls, hls, hln, hlen, -, hlm⟩ := C47_labels h
  have : ∃ ps, ls.mapM s.polygon = .ok ps ∧ List.Forall₂ (fun l p => s.polygon l = .ok p) ls ps := by
    clear hls hlen hln
    have hlm' : ∀ l ∈ ls, ∃ p, s.polygon l = .ok p := fun l hl => (hlm l).1 hl
    clear hlm
    induction ls with
    | nil => exact ⟨[], rfl, .nil⟩
    | cons l ls ih =>
      obtain ⟨ps, h1, h2⟩ := ih (fun x hx => hlm' x (by simp [hx]))
      obtain ⟨p, hp⟩ := hlm' l (by simp)
      exact ⟨p :: ps, by rw [mapM_ok_iff]; exact .cons hp h2, .cons hp h2⟩
  obtain ⟨ps, h1, h2⟩ := this
  refine ⟨ls, ps, hls, ?_, ?_, h2⟩
  · unfold polygonList
    simp only [bind, Except.bind, hls, h1]
  · rw [← h2.length_eq, ← hlen]; rfl

/-- **C47**, edges: iterating over `edges()` yields each pair of a label and an index of an edge of its polygon
exactly once. -/
theorem C47_edges {s : MSurf L (Poly K)} (h : Reachable s) :
    ∃ es, s.edgeList = .ok es ∧ es.Nodup ∧
      ∀ l i, (l, i) ∈ es ↔ ∃ p, s.polygon l = .ok p ∧ 0 ≤ i ∧ i < (p.length : Int) := by
  obtain ⟨ls, ps, h1, h2, -, h3⟩ := C47_polygons h
  obtain ⟨ls', h1', hln, -, -, hlm⟩ := C47_labels h
  rw [h1] at h1'
  injection h1' with h1'
  subst h1'
  refine ⟨_, by unfold edgeList; simp only [bind, Except.bind, h1, h2]; rfl, ?_, ?_⟩
  · clear h1 h2 hlm
    induction h3 with
    | nil => simp
    | @cons l p ls ps hp h3 ih =>
      simp only [List.zip_cons_cons, List.map_cons, List.flatten_cons]
      rw [List.nodup_cons] at hln
      rw [List.nodup_append]
      refine ⟨List.nodup_range.map (fun a b hab => by simpa using hab), ih hln.2, ?_⟩
      rintro ⟨a, i⟩ ha ⟨b, j⟩ hb hab
      injection hab with hab hij
      subst hab
      rw [List.mem_map] at ha
      obtain ⟨e, _, he⟩ := ha
      injection he with he
      subst he
      rw [List.mem_flatten] at hb
      obtain ⟨x, hx, hb⟩ := hb
      rw [List.mem_map] at hx
      obtain ⟨⟨l', p'⟩, hz, rfl⟩ := hx
      rw [List.mem_map] at hb
      obtain ⟨_, _, hb⟩ := hb
      injection hb with hb
      dsimp only at hb
      subst hb
      exact hln.1 (List.of_mem_zip hz).1
  · intro l i
    have hz : ∀ l p, (l, p) ∈ ls.zip ps ↔ s.polygon l = .ok p := by
      intro l p
      constructor
      · intro hz
        clear h1 h2 hlm hln
        induction h3 with
        | nil => simp at hz
        | cons hp h3 ih =>
          simp only [List.zip_cons_cons, List.mem_cons] at hz
          rcases hz with hz | hz
          · injection hz with hz1 hz2; rw [hz1, hz2]; exact hp
          · exact ih hz
      · intro hp
        have hl := (hlm l).2 ⟨p, hp⟩
        clear h1 h2 hlm hln
        induction h3 with
        | nil => simp at hl
        | @cons l' p' ls ps hp' h3 ih =>
          simp only [List.zip_cons_cons, List.mem_cons]
          rcases List.mem_cons.1 hl with rfl | hl
          · left; rw [hp] at hp'; injection hp' with hp'; rw [hp']
          · exact Or.inr (ih hl)
    rw [List.mem_flatten]
    constructor
    · rintro ⟨x, hx, hi⟩
      rw [List.mem_map] at hx
      obtain ⟨⟨l', p'⟩, hz', rfl⟩ := hx
      rw [List.mem_map] at hi
      obtain ⟨e, he, hi⟩ := hi
      injection hi with hi1 hi2
      dsimp only at hi1
      subst hi1 hi2
      exact ⟨p', (hz _ _).1 hz', by omega, by rw [List.mem_range] at he; exact_mod_cast he⟩
    · rintro ⟨p, hp, h0, hi⟩
      refine ⟨_, List.mem_map.2 ⟨(l, p), (hz l p).2 hp, rfl⟩, ?_⟩
      rw [List.mem_map]
      refine ⟨i.toNat, ?_, ?_⟩
      · rw [List.mem_range]
        show i.toNat < p.length
        omega
      · dsimp only; rw [Int.toNat_of_nonneg h0]

/-- **C47**, gluings: iterating over `gluings()` yields exactly the pairs of an edge and its opposite edge, in
particular each pair in both directions. -/
theorem C47_gluings {s : MSurf L (Poly K)} (h : Reachable s) :
    ∃ gs es, s.gluingPairs = .ok gs ∧ s.edgeList = .ok es ∧
      (∀ x y, (x, y) ∈ gs ↔ x ∈ es ∧ s.oppositeEdge x.1 x.2 = .ok (some y)) ∧
      (∀ x y, (x, y) ∈ gs ↔ (y, x) ∈ gs) := by
  obtain ⟨gs, hgs, hgm⟩ := gluingPairs_spec h.ginv h.rootsOK
  obtain ⟨es, hes, -, hem⟩ := C47_edges h
  refine ⟨gs, es, hgs, hes, ?_, ?_⟩
  · rintro ⟨l, i⟩ y
    rw [hgm, hem]
    dsimp only
    constructor
    · rintro ⟨e, rfl, ho⟩
      have hE := opp_isEdge h.ginv.toShape ho
      obtain ⟨p, hp, he⟩ := hE
      refine ⟨⟨p, polygon_ok.2 hp, by omega, by exact_mod_cast he⟩, ?_⟩
      rw [oppositeEdge_eq_opp h.ginv.toShape ⟨p, hp, he⟩, ho]
    · rintro ⟨⟨p, hp, h0, hi⟩, ho⟩
      refine ⟨i.toNat, (Int.toNat_of_nonneg h0).symm, ?_⟩
      have : s.IsEdge l i.toNat := ⟨p, polygon_ok.1 hp, by show i.toNat < p.length; omega⟩
      rw [← Int.toNat_of_nonneg h0, oppositeEdge_eq_opp h.ginv.toShape this] at ho
      injection ho
  · have : ∀ x y, (x, y) ∈ gs → (y, x) ∈ gs := by
      rintro ⟨l, i⟩ ⟨l', i'⟩ hxy
      rw [hgm] at hxy ⊢
      obtain ⟨e, he, ho⟩ := hxy
      dsimp only at he ho
      obtain ⟨k, rfl, hk⟩ := h.ginv.inv _ _ _ _ ho
      exact ⟨k, rfl, by rw [he]; exact hk⟩
    exact fun x y => ⟨this x y, this y x⟩

/-- The hypotheses of the theorems on views are satisfiable. -/
example : ∃ gs es, exTorus.gluingPairs = .ok gs ∧ exTorus.edgeList = .ok es ∧
      (∀ x y, (x, y) ∈ gs ↔ x ∈ es ∧ exTorus.oppositeEdge x.1 x.2 = .ok (some y)) ∧
      (∀ x y, (x, y) ∈ gs ↔ (y, x) ∈ gs) := C47_gluings exTorus_reachable

/-- **C47** fails for `x in edges()` on every surface: no edge that the iteration yields is reported to be a
member. -/
theorem C47_edges_contains_violation {s : MSurf L (Poly K)} (h : Reachable s) (es : List (L × Int))
    (hes : s.edgeList = .ok es) (x : L × Int) (hx : x ∈ es) : s.edgesContains x = .ok false := by
  obtain ⟨es', hes', -, hem⟩ := C47_edges h
  rw [hes] at hes'
  injection hes' with hes'
  subst hes'
  obtain ⟨l, i⟩ := x
  obtain ⟨p, hp, h0, hi⟩ := (hem l i).1 hx
  unfold edgesContains
  split_ifs
  · dsimp only
    rw [hp]
    simp only [bind, Except.bind, pure, Except.pure]
    congr 1
    have : ¬ (nv p : Int) < i := by
      show ¬ (p.length : Int) < i
      omega
    simp [this]
  · rfl

/-- **C47** fails for `x in gluings()` likewise. -/
theorem C47_gluings_contains_violation {s : MSurf L (Poly K)} (h : Reachable s)
    (gs : List ((L × Int) × (L × Int))) (hgs : s.gluingPairs = .ok gs) (x : (L × Int) × (L × Int)) (hx : x ∈ gs) :
    s.gluingsContains x.1 x.2 = .ok false := by
  obtain ⟨gs', es, hgs', hes, hgm, -⟩ := C47_gluings h
  rw [hgs] at hgs'
  injection hgs' with hgs'
  subst hgs'
  have := C47_edges_contains_violation h es hes x.1 ((hgm x.1 x.2).1 hx).1
  unfold gluingsContains
  rw [this]
  rfl

/-- **C47** fails in the other direction: `(0, 7)` is reported to be an edge of a triangle. -/
theorem C47_edges_contains_violation_spurious :
    Reachable exTorus ∧ exTorus.edgesContains (0, 7) = .ok true ∧ exTorus.polygon 0 = .ok tri ∧ tri.length = 3 :=
  ⟨exTorus_reachable, by decide +kernel, by decide +kernel, rfl⟩

/-- **C21.** `set_immutable` never fails, and keeps the labels and roots in their order. -/
theorem C21_set_immutable_succeeds {s : MSurf L (Poly K)} (h : Reachable s) :
    ∃ t, setImmutable s = .ok () t ∧ t.mutable = false ∧ t.labels = s.labels ∧ t.rootsList = s.rootsList := by
  obtain ⟨_, t, ht, -⟩ := wp_ok (setImmutable_ok h.ginv h.rootsOK)
  refine ⟨t, ht, ?_⟩
  cases hm : s.mutable with
  | true =>
    have hstep := Reachable.step s .setImmutable h hm trivial (fun l t gl he => by cases he)
    have he : stateOf (Op.run .setImmutable s) = t := by
      show stateOf (setImmutable s) = t
      rw [ht]; rfl
    rw [he] at hstep
    obtain ⟨rs, h1, rfl⟩ := setImmutable_result hm ht
    have hroots := hstep.immutable_roots rfl
    have hc : SameContent { s with roots := rs, mutable := false } s := ⟨fun _ => rfl, fun _ => rfl⟩
    refine ⟨rfl, ?_, by rw [hroots, h1]⟩
    unfold labels components
    rw [hroots, h1]
    simp only [bind, Except.bind]
    congr 1
    congr 1
    funext r
    exact hc.component hstep.ginv.toShape h.ginv.toShape r
  | false =>
    unfold setImmutable at ht
    simp only [bind, EStateM.bind, get, getThe, MonadStateOf.get, EStateM.get, hm] at ht
    injection ht with _ ht
    subst ht
    exact ⟨hm, rfl, rfl⟩

example : ∃ t, setImmutable exTorus = .ok () t ∧ t.mutable = false ∧ t.labels = exTorus.labels ∧
    t.rootsList = exTorus.rootsList := C21_set_immutable_succeeds exTorus_reachable

/-- **C21.** `set_roots` succeeds exactly for labels of polygons, at most one in each component (the caller
gets a `KeyError` or `ValueError` otherwise, and the roots are kept). -/
theorem C21_set_roots_iff {s : MSurf L (Poly K)} (h : Reachable s) (hm : s.mutable = true) (rs : List L) :
    (∃ t, setRoots rs s = .ok () t) ↔
      (∀ r ∈ rs, ∃ p, s.polygon r = .ok p) ∧
        rs.Pairwise (fun a b => ∀ c, s.component a = .ok c → b ∉ c) := by
  have hkeys : ∀ r, (∃ p, s.polygon r = .ok p) ↔ r ∈ s.polygons.keys := by
    intro r
    rw [Dict.mem_keys_iff, Option.isSome_iff_exists]
    simp only [polygon_ok]
  constructor
  · rintro ⟨t, ht⟩
    have h1 := setRoots_roots h.ginv h.rootsOK rs
    have h2 := setRoots_frame rs s
    unfold wp at h1 h2
    rw [ht] at h1 h2
    obtain ⟨rfl, -⟩ := h2
    have hr : RootsOK { s with roots := rs } := h1
    refine ⟨fun r hrr => (hkeys r).2 (hr.mem r hrr), ?_⟩
    refine (List.Pairwise.and_mem.1 hr.sep).imp ?_
    rintro a b ⟨ha, hb, hab⟩ c hc hbc
    obtain ⟨ls, h3, -, h4⟩ := component_spec h.ginv (hr.mem a ha)
    rw [hc] at h3
    injection h3 with h3
    subst h3
    exact hab ((conn_congr (s := s) (fun _ _ => rfl)).2 ((h4 b).1 hbc))
  · rintro ⟨h1, h2⟩
    have hmem : ∀ r ∈ rs, r ∈ s.polygons.keys := fun r hr => (hkeys r).1 (h1 r hr)
    obtain ⟨_, t, ht, -⟩ := wp_ok (setRoots_ok h.ginv h.rootsOK hm rs hmem (by
      refine (List.Pairwise.and_mem.1 h2).imp ?_
      rintro a b ⟨ha, hb, hab⟩ hc
      obtain ⟨ls, h3, -, h4⟩ := component_spec h.ginv (hmem a ha)
      exact hab _ h3 ((h4 b).2 hc)))
    exact ⟨t, ht⟩

example : ∃ t, setRoots [1] exTorus = .ok () t :=
  (C21_set_roots_iff exTorus_reachable (by decide +kernel) [1]).2
    ⟨fun r hr => ⟨tri, by simp only [List.mem_singleton] at hr; subst hr; decide +kernel⟩, by simp⟩

end MSurf
end Flat
