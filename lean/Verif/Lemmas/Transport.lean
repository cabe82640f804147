import Verif.Lemmas.Rebuild

/-!
# Traversal of relabeled surfaces
-/

namespace Flat
namespace MSurf
variable {L P : Type} [LinearOrder L] [NumVertices P]

/-- More fuel does not change a finished traversal. -/
theorem bfs_mono {s : MSurf L P} {n : ℕ} {seen pending r : List L} (h : s.bfs n seen pending = .ok r) (m : ℕ)
    (hm : n ≤ m) : s.bfs m seen pending = .ok r := by
  induction n generalizing seen pending r m with
  | zero =>
    cases pending with
    | nil => simp only [bfs] at h ⊢; exact h
    | cons a b => simp [bfs] at h
  | succ n ih =>
    obtain ⟨m, rfl⟩ : ∃ k, m = k + 1 := ⟨m - 1, by omega⟩
    cases pending with
    | nil => simp only [bfs] at h ⊢; exact h
    | cons a b =>
      simp only [bfs] at h ⊢
      split_ifs at h ⊢ with ha
      · exact ih h m (by omega)
      · cases hc : s.crossLabels a with
        | error e => rw [hc] at h; cases h
        | ok cs =>
          rw [hc] at h
          dsimp only at h ⊢
          cases hb : s.bfs n (a :: seen) (b ++ cs) with
          | error e => rw [hb] at h; cases h
          | ok ls =>
            rw [hb] at h
            rw [ih hb m (by omega)]
            exact h

/-- `t` is `s` with the labels replaced by their images under `f`. -/
structure Relabeled (f : L → L) (s t : MSurf L P) : Prop where
  inj : ∀ a ∈ s.polygons.keys, ∀ b ∈ s.polygons.keys, f a = f b → a = b
  polygons : ∀ l ∈ s.polygons.keys, t.polygons.get (f l) = s.polygons.get l
  opp : ∀ l ∈ s.polygons.keys, ∀ e, t.opp (f l) e = (s.opp l e).map (fun c => (f c.1, c.2))
  keys : ∀ l, l ∈ t.polygons.keys ↔ ∃ l' ∈ s.polygons.keys, l = f l'

variable {f : L → L} {s t : MSurf L P}

theorem Relabeled.isEdge (h : Relabeled f s t) {l : L} (hl : l ∈ s.polygons.keys) (e : ℕ) :
    t.IsEdge (f l) e ↔ s.IsEdge l e := by unfold IsEdge; rw [h.polygons l hl]

theorem Relabeled.oppositeEdge (h : Relabeled f s t) (hs : Shape s) (ht : Shape t) {l : L}
    (hl : l ∈ s.polygons.keys) (e : ℕ) :
    t.oppositeEdge (f l) (e : Int) = (s.oppositeEdge l (e : Int)).map (Option.map (fun c => (f c.1, c.2))) := by
  by_cases he : s.IsEdge l e
  · rw [oppositeEdge_eq_opp ht ((h.isEdge hl e).2 he), oppositeEdge_eq_opp hs he, h.opp l hl]
    rfl
  · rw [oppositeEdge_error ht (fun h' => he ((h.isEdge hl e).1 h')), oppositeEdge_error hs he,
      if_pos hl, if_pos ((h.keys _).2 ⟨l, hl, rfl⟩)]
    rfl

theorem Relabeled.crossLabels (h : Relabeled f s t) (hs : GInv s) (ht : Shape t) {l : L}
    (hl : l ∈ s.polygons.keys) : ∃ cs, s.crossLabels l = .ok cs ∧ t.crossLabels (f l) = .ok (cs.map f) ∧
      ∀ c ∈ cs, c ∈ s.polygons.keys := by
  have hl' := hl
  rw [Dict.mem_keys_iff] at hl'
  obtain ⟨p, hp⟩ := Option.isSome_iff_exists.1 hl'
  have h1 : (List.range (nv p)).mapM (fun (e : ℕ) => s.oppositeEdge l e) =
      .ok ((List.range (nv p)).map (fun e => s.opp l e)) := by
    rw [mapM_ok_iff, List.forall₂_map_right_iff]
    exact List.forall₂_same.2 fun e he => oppositeEdge_eq_opp hs.toShape ⟨p, hp, by simpa using he⟩
  have h2 : (List.range (nv p)).mapM (fun (e : ℕ) => t.oppositeEdge (f l) e) =
      .ok ((List.range (nv p)).map (fun e => t.opp (f l) e)) := by
    rw [mapM_ok_iff, List.forall₂_map_right_iff]
    exact List.forall₂_same.2 fun e he => oppositeEdge_eq_opp ht ⟨p, by rw [h.polygons l hl, hp], by simpa using he⟩
  refine ⟨((List.range (nv p)).map (fun e => s.opp l e)).filterMap (fun c => c.map Prod.fst), ?_, ?_, ?_⟩
  · unfold MSurf.crossLabels
    rw [hp]
    simp only [bind, Except.bind, h1]
    rfl
  · unfold MSurf.crossLabels
    rw [h.polygons l hl, hp]
    simp only [bind, Except.bind, h2]
    change Except.ok _ = Except.ok _
    congr 1
    rw [List.map_filterMap, List.filterMap_map, List.filterMap_map]
    apply List.filterMap_congr
    intro e _
    simp only [Function.comp]
    rw [h.opp l hl]
    cases s.opp l e <;> rfl
  · intro c hc
    rw [List.mem_filterMap] at hc
    obtain ⟨o, ho, hoc⟩ := hc
    rw [List.mem_map] at ho
    obtain ⟨e, _, rfl⟩ := ho
    rw [Option.map_eq_some_iff] at hoc
    obtain ⟨x, hx, rfl⟩ := hoc
    obtain ⟨k, _, hk⟩ := hs.inv _ _ _ _ hx
    exact isEdge_mem (opp_isEdge hs.toShape hk)

theorem Relabeled.bfs (h : Relabeled f s t) (hs : GInv s) (ht : Shape t) (n : ℕ) (seen pending : List L)
    (h1 : ∀ l ∈ seen, l ∈ s.polygons.keys) (h2 : ∀ l ∈ pending, l ∈ s.polygons.keys) :
    t.bfs n (seen.map f) (pending.map f) = (s.bfs n seen pending).map (List.map f) := by
  induction n generalizing seen pending with
  | zero => cases pending <;> simp [MSurf.bfs, Except.map]
  | succ n ih =>
    cases pending with
    | nil => simp [MSurf.bfs, Except.map]
    | cons a b =>
      have ha := h2 a (by simp)
      have hb : ∀ l ∈ b, l ∈ s.polygons.keys := fun l hl => h2 l (by simp [hl])
      simp only [MSurf.bfs, List.map_cons]
      have hiff : f a ∈ seen.map f ↔ a ∈ seen := by
        rw [List.mem_map]
        constructor
        · rintro ⟨x, hx, hxa⟩
          rwa [← h.inj x (h1 x hx) a ha hxa]
        · exact fun hx => ⟨a, hx, rfl⟩
      by_cases hseen : a ∈ seen
      · rw [if_pos hseen, if_pos (hiff.2 hseen), ih _ _ h1 hb]
      · rw [if_neg hseen, if_neg (fun h' => hseen (hiff.1 h'))]
        obtain ⟨cs, e1, e2, e3⟩ := h.crossLabels hs ht ha
        rw [e1, e2]
        dsimp only
        have := ih (a :: seen) (b ++ cs) (by
            intro l hl
            rcases List.mem_cons.1 hl with rfl | hl
            · exact ha
            · exact h1 l hl) (by
            intro l hl
            rcases List.mem_append.1 hl with hl | hl
            · exact hb l hl
            · exact e3 l hl)
        rw [List.map_cons, List.map_append] at this
        rw [this]
        cases s.bfs n (a :: seen) (b ++ cs) <;> rfl

theorem Relabeled.component (h : Relabeled f s t) (hs : GInv s) (ht : GInv t) {r : L}
    (hr : r ∈ s.polygons.keys) {c : List L} (hc : s.component r = .ok c) : t.component (f r) = .ok (c.map f) := by
  obtain ⟨c', hc', _⟩ := component_spec ht ((h.keys (f r)).2 ⟨r, hr, rfl⟩)
  rw [hc']
  unfold MSurf.component at hc hc'
  have e1 := bfs_mono hc (max s.fuel t.fuel) (le_max_left _ _)
  have e2 := bfs_mono hc' (max s.fuel t.fuel) (le_max_right _ _)
  have e3 := h.bfs hs ht.toShape (max s.fuel t.fuel) [] [r] (by simp) (by simpa using hr)
  rw [e1] at e3
  simp only [List.map_nil, List.map_cons] at e3
  rw [e2] at e3
  exact e3

theorem Relabeled.components (h : Relabeled f s t) (hs : GInv s) (ht : GInv t) {rs : List L}
    (hrs : s.rootsList = .ok rs) (hmem : ∀ r ∈ rs, r ∈ s.polygons.keys) (hts : t.rootsList = .ok (rs.map f))
    {cs : List (List L)} (hcs : s.components = .ok cs) : t.components = .ok (cs.map (List.map f)) := by
  unfold MSurf.components at hcs ⊢
  rw [hrs] at hcs
  rw [hts]
  simp only [bind, Except.bind] at hcs ⊢
  rw [mapM_ok_iff] at hcs ⊢
  rw [List.forall₂_map_left_iff, List.forall₂_map_right_iff]
  clear hrs hts
  induction hcs with
  | nil => exact .nil
  | cons h1 h2 ih =>
    exact .cons (h.component hs ht (hmem _ (by simp)) h1) (ih (fun r hr => hmem r (by simp [hr])))

theorem Relabeled.labels (h : Relabeled f s t) (hs : GInv s) (ht : GInv t) {rs : List L}
    (hrs : s.rootsList = .ok rs) (hmem : ∀ r ∈ rs, r ∈ s.polygons.keys) (hts : t.rootsList = .ok (rs.map f))
    {ls : List L} (hls : s.labels = .ok ls) : t.labels = .ok (ls.map f) := by
  unfold MSurf.labels at hls ⊢
  cases hcs : s.components with
  | error e => rw [hcs] at hls; cases hls
  | ok cs =>
    rw [hcs] at hls
    rw [h.components hs ht hrs hmem hts hcs]
    simp only [bind, Except.bind, pure, Except.pure] at hls ⊢
    injection hls with hls
    rw [← hls, List.map_flatten]

theorem Relabeled.conn (h : Relabeled f s t) (hs : GInv s) {a b : L} (ha : a ∈ s.polygons.keys)
    (hc : t.Conn (f a) b) : ∃ b', b = f b' ∧ b' ∈ s.polygons.keys ∧ s.Conn a b' := by
  induction hc with
  | refl => exact ⟨a, rfl, ha, Relation.ReflTransGen.refl⟩
  | tail _ hstep ih =>
    obtain ⟨b', rfl, hb', hc'⟩ := ih
    obtain ⟨e, e', ho⟩ := hstep
    rw [h.opp b' hb', Option.map_eq_some_iff] at ho
    obtain ⟨⟨x, y⟩, hx, hxe⟩ := ho
    injection hxe with h1 h2
    obtain ⟨k, _, hk⟩ := hs.inv _ _ _ _ hx
    exact ⟨x, h1.symm, isEdge_mem (opp_isEdge hs.toShape hk), hc'.tail ⟨e, y, hx⟩⟩

theorem Relabeled.conn' (h : Relabeled f s t) (hs : GInv s) {a b : L} (ha : a ∈ s.polygons.keys)
    (hc : s.Conn a b) : t.Conn (f a) (f b) ∧ b ∈ s.polygons.keys := by
  induction hc with
  | refl => exact ⟨Relation.ReflTransGen.refl, ha⟩
  | tail _ hstep ih =>
    obtain ⟨e, e', ho⟩ := hstep
    obtain ⟨k, _, hk⟩ := hs.inv _ _ _ _ ho
    refine ⟨ih.1.tail ⟨e, e', ?_⟩, isEdge_mem (opp_isEdge hs.toShape hk)⟩
    rw [h.opp _ ih.2, ho]; rfl

end MSurf
end Flat
