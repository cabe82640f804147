import Verif.Model.SurfaceViews
import Verif.Lemmas.Composite

/-!
# Surfaces with the same polygons and gluings: everything observable agrees
-/

namespace Flat

namespace Dict
variable {L V : Type*} [DecidableEq L]

/-- Two dictionaries with the same entries differ by a permutation. -/
theorem perm_of_get {d d' : Dict L V} (hd : d.keys.Nodup) (hd' : d'.keys.Nodup)
    (h : ∀ k, d.get k = d'.get k) : d.Perm d' := by
  refine (List.perm_ext_iff_of_nodup hd.of_map hd'.of_map).2 fun x => ?_
  constructor
  · intro hx
    have := get_of_mem d hd x.1 x.2 hx
    rw [h] at this
    exact mem_of_get d' x.1 x.2 this
  · intro hx
    have := get_of_mem d' hd' x.1 x.2 hx
    rw [← h] at this
    exact mem_of_get d x.1 x.2 this

theorem get_of_perm {d d' : Dict L V} (hd : d.keys.Nodup) (h : d.Perm d') (k : L) : d.get k = d'.get k := by
  have hd' : d'.keys.Nodup := (h.map Prod.fst).nodup_iff.1 hd
  cases hg : d.get k with
  | none =>
    symm
    rw [get_eq_none_iff] at hg ⊢
    intro hk
    exact hg ((h.map Prod.fst).mem_iff.2 hk)
  | some v =>
    symm
    exact get_of_mem d' hd' k v (h.mem_iff.1 (mem_of_get d k v hg))

variable [DecidableEq V]

/-- Equality of dictionaries is equality of all entries. -/
theorem pyEq_iff {d d' : Dict L V} (hd : d.keys.Nodup) (hd' : d'.keys.Nodup) :
    d.pyEq d' = true ↔ ∀ k, d.get k = d'.get k := by
  unfold pyEq
  rw [Bool.and_eq_true, List.all_eq_true]
  simp only [decide_eq_true_eq]
  constructor
  · rintro ⟨hl, h⟩ 
    have hsub : d ⊆ d' := fun x hx => mem_of_get d' x.1 x.2 (h x hx)
    have hp : d.Perm d' := (List.subperm_of_subset hd.of_map hsub).perm_of_length_le (by omega)
    exact get_of_perm hd hp
  · intro h
    exact ⟨(perm_of_get hd hd' h).length_eq, fun x hx => by rw [← h]; exact get_of_mem d hd x.1 x.2 hx⟩

end Dict

namespace MSurf
variable {L P : Type} [LinearOrder L] [NumVertices P]

/-- The same polygons and gluings (in dictionaries with possibly different order). -/
structure SameContent (s t : MSurf L P) : Prop where
  polygons : ∀ l, s.polygons.get l = t.polygons.get l
  gluings : ∀ l, s.gluings.get l = t.gluings.get l

theorem SameContent.symm {s t : MSurf L P} (h : SameContent s t) : SameContent t s :=
  ⟨fun l => (h.polygons l).symm, fun l => (h.gluings l).symm⟩

variable {s t : MSurf L P}

theorem SameContent.polygon (h : SameContent s t) (l : L) : s.polygon l = t.polygon l := by
  unfold MSurf.polygon; rw [h.polygons]

theorem SameContent.oppositeEdge (h : SameContent s t) (l : L) (e : Int) :
    s.oppositeEdge l e = t.oppositeEdge l e := by
  unfold MSurf.oppositeEdge; rw [h.gluings]

theorem SameContent.opp (h : SameContent s t) (l : L) (e : ℕ) : s.opp l e = t.opp l e := by
  unfold MSurf.opp; rw [h.gluings]

theorem SameContent.crossLabels (h : SameContent s t) (l : L) : s.crossLabels l = t.crossLabels l := by
  unfold MSurf.crossLabels
  rw [h.polygons]
  simp only [h.oppositeEdge]

theorem SameContent.bfs (h : SameContent s t) (n : ℕ) (seen pending : List L) :
    s.bfs n seen pending = t.bfs n seen pending := by
  induction n generalizing seen pending with
  | zero => cases pending <;> simp [MSurf.bfs]
  | succ n ih =>
    cases pending with
    | nil => simp [MSurf.bfs]
    | cons a b => simp only [MSurf.bfs, h.crossLabels, ih]

theorem SameContent.perm (h : SameContent s t) (hs : Shape s) (ht : Shape t) : s.polygons.Perm t.polygons :=
  Dict.perm_of_get hs.nodupP ht.nodupP h.polygons

theorem SameContent.keys (h : SameContent s t) (hs : Shape s) (ht : Shape t) :
    s.polygons.keys.Perm t.polygons.keys := (h.perm hs ht).map _

theorem SameContent.component (h : SameContent s t) (hs : Shape s) (ht : Shape t) (r : L) :
    s.component r = t.component r := by
  unfold MSurf.component fuel
  rw [h.bfs, ((h.perm hs ht).map (fun x => nv x.2)).sum_eq]

omit [NumVertices P] in
theorem removeLabels_perm (labels labels' c : List L) (h : labels.Perm labels') :
    (∃ e, removeLabels labels c = .error e ∧ removeLabels labels' c = .error e) ∨
    (∃ r r', removeLabels labels c = .ok r ∧ removeLabels labels' c = .ok r' ∧ r.Perm r') := by
  induction c generalizing labels labels' with
  | nil => exact Or.inr ⟨labels, labels', rfl, rfl, h⟩
  | cons a c ih =>
    unfold removeLabels
    by_cases ha : a ∈ labels
    · rw [if_pos ha, if_pos (h.mem_iff.1 ha)]
      exact ih _ _ (h.erase a)
    · rw [if_neg ha, if_neg (fun h' => ha (h.mem_iff.2 h'))]
      exact Or.inl ⟨_, rfl, rfl⟩

theorem SameContent.removeComponents (h : SameContent s t) (hs : Shape s) (ht : Shape t) (rs : List L)
    (labels labels' : List L) (hl : labels.Perm labels') :
    (∃ e, s.removeComponents labels rs = .error e ∧ t.removeComponents labels' rs = .error e) ∨
    (∃ r r', s.removeComponents labels rs = .ok r ∧ t.removeComponents labels' rs = .ok r' ∧ r.Perm r') := by
  induction rs generalizing labels labels' with
  | nil => exact Or.inr ⟨labels, labels', rfl, rfl, hl⟩
  | cons a rs ih =>
    simp only [MSurf.removeComponents, bind, Except.bind, h.component hs ht]
    cases hc : t.component a with
    | error e => exact Or.inl ⟨e, rfl, rfl⟩
    | ok c =>
      dsimp only
      rcases removeLabels_perm labels labels' c hl with ⟨e, h1, h2⟩ | ⟨r, r', h1, h2, h3⟩
      · rw [h1, h2]; exact Or.inl ⟨e, rfl, rfl⟩
      · rw [h1, h2]; exact ih r r' h3

omit [NumVertices P] in
theorem minLabel_le {ls : List L} {m : L} (h : minLabel ls = .ok m) : ∀ x ∈ ls, m ≤ x := by
  cases ls with
  | nil => cases h
  | cons a l =>
    injection h with h
    subst h
    have key : ∀ (l : List L) (a : L), l.foldl min a ≤ a ∧ ∀ x ∈ l, l.foldl min a ≤ x := by
      intro l
      induction l with
      | nil => intro a; simp
      | cons b l ih =>
        intro a
        rw [List.foldl_cons]
        obtain ⟨h1, h2⟩ := ih (min a b)
        refine ⟨h1.trans (min_le_left _ _), fun x hx => ?_⟩
        rcases List.mem_cons.1 hx with rfl | hx
        · exact h1.trans (min_le_right _ _)
        · exact h2 x hx
    intro x hx
    rcases List.mem_cons.1 hx with rfl | hx
    · exact (key l x).1
    · exact (key l a).2 x hx

omit [NumVertices P] in
theorem minLabel_perm (ls ls' : List L) (h : ls.Perm ls') : minLabel ls = minLabel ls' := by
  by_cases hn : ls = []
  · subst hn
    rw [List.nil_perm.1 h]
  · have hn' : ls' ≠ [] := fun h' => hn (by rw [h'] at h; exact List.perm_nil.1 h)
    obtain ⟨m, hm, h1⟩ := minLabel_spec hn
    obtain ⟨m', hm', h2⟩ := minLabel_spec hn'
    rw [h1, h2, le_antisymm (minLabel_le h1 m' (h.mem_iff.2 hm')) (minLabel_le h2 m (h.mem_iff.1 hm))]

theorem SameContent.remainingRoots (h : SameContent s t) (hs : Shape s) (ht : Shape t) (n : ℕ)
    (labels labels' : List L) (hl : labels.Perm labels') :
    s.remainingRoots n labels = t.remainingRoots n labels' := by
  induction n generalizing labels labels' with
  | zero =>
    cases labels with
    | nil => rw [List.nil_perm.1 hl]; simp [MSurf.remainingRoots]
    | cons a b =>
      cases labels' with
      | nil => exact absurd (List.perm_nil.1 hl) (by simp)
      | cons a' b' => simp [MSurf.remainingRoots]
  | succ n ih =>
    cases labels with
    | nil => rw [List.nil_perm.1 hl]; simp [MSurf.remainingRoots]
    | cons a b =>
      cases labels' with
      | nil => exact absurd (List.perm_nil.1 hl) (by simp)
      | cons a' b' =>
        simp only [MSurf.remainingRoots, bind, Except.bind, minLabel_perm _ _ hl, h.component hs ht]
        cases minLabel (a' :: b') with
        | error e => rfl
        | ok m =>
          dsimp only
          cases t.component m with
          | error e => rfl
          | ok c =>
            dsimp only
            rcases removeLabels_perm _ _ c hl with ⟨e, h1, h2⟩ | ⟨r, r', h1, h2, h3⟩
            · rw [h1, h2]
            · rw [h1, h2]
              dsimp only
              rw [ih r r' h3]

theorem SameContent.rootsList (h : SameContent s t) (hs : Shape s) (ht : Shape t) (hr : s.roots = t.roots) :
    s.rootsList = t.rootsList := by
  simp only [MSurf.rootsList, bind, Except.bind, hr]
  rcases h.removeComponents hs ht t.roots _ _ (h.keys hs ht) with ⟨e, h1, h2⟩ | ⟨r, r', h1, h2, h3⟩
  · rw [h1, h2]
  · rw [h1, h2]
    dsimp only
    rw [h3.length_eq, h.remainingRoots hs ht _ _ _ h3]

theorem SameContent.components (h : SameContent s t) (hs : Shape s) (ht : Shape t) (hr : s.roots = t.roots) :
    s.components = t.components := by
  have : s.component = t.component := funext (h.component hs ht)
  simp only [MSurf.components, h.rootsList hs ht hr, this]

theorem SameContent.labels (h : SameContent s t) (hs : Shape s) (ht : Shape t) (hr : s.roots = t.roots) :
    s.labels = t.labels := by
  simp only [MSurf.labels, h.components hs ht hr]

theorem SameContent.gluingPairs (h : SameContent s t) (hs : Shape s) (ht : Shape t) (hr : s.roots = t.roots) :
    s.gluingPairs = t.gluingPairs := by
  simp only [MSurf.gluingPairs, oppositeEdges, h.labels hs ht hr, h.polygon, h.oppositeEdge]

theorem SameContent.polygonList (h : SameContent s t) (hs : Shape s) (ht : Shape t) (hr : s.roots = t.roots) :
    s.polygonList = t.polygonList := by
  have : s.polygon = t.polygon := funext h.polygon
  simp only [MSurf.polygonList, h.labels hs ht hr, this]

theorem SameContent.hashKey (h : SameContent s t) (hs : Shape s) (ht : Shape t) (hr : s.roots = t.roots)
    (hm : s.mutable = t.mutable) : s.hashKey = t.hashKey := by
  simp only [MSurf.hashKey, h.labels hs ht hr, h.polygonList hs ht hr, h.gluingPairs hs ht hr, hr, hm]

/-- The content is determined by the answers of `polygon` and `opposite_edge`. -/
theorem sameContent_iff (hs : Shape s) (ht : Shape t) :
    SameContent s t ↔ (∀ l, s.polygon l = t.polygon l) ∧
      ∀ l (e : ℕ), s.oppositeEdge l (e : Int) = t.oppositeEdge l (e : Int) := by
  refine ⟨fun h => ⟨h.polygon, fun l e => h.oppositeEdge l e⟩, fun ⟨h1, h2⟩ => ?_⟩
  have hp : ∀ l, s.polygons.get l = t.polygons.get l := by
    intro l
    have := h1 l
    unfold MSurf.polygon at this
    cases ha : s.polygons.get l <;> cases hb : t.polygons.get l <;> simp_all
  refine ⟨hp, fun l => ?_⟩
  have l1 := hs.len l
  have l2 := ht.len l
  rw [hp] at l1
  have l3 := l1.trans l2.symm
  have h3 := h2 l
  unfold MSurf.oppositeEdge at h3
  cases ha : s.gluings.get l with
  | none =>
    cases hb : t.gluings.get l with
    | none => rfl
    | some g => simp [ha, hb] at l3
  | some g =>
    cases hb : t.gluings.get l with
    | none => simp [ha, hb] at l3
    | some g' =>
      simp only [ha, hb, Option.map_some, Option.some.injEq] at l3
      simp only [ha, hb] at h3
      congr 1
      refine List.ext_getElem l3 fun e h4 h5 => ?_
      have := h3 e
      simp only [pyGet, pyIndex_natCast, h4, h5, if_true, List.getElem?_eq_getElem, Except.ok.injEq] at this
      exact this

end MSurf
end Flat
