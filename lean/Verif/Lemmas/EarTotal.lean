import Verif.Lemmas.EarExists
import Verif.Props.Triangulate

/-!
# Clipping ears never gets stuck
-/

namespace Flat
namespace Poly
variable {K : Type} [Field K] [LinearOrder K] [IsStrictOrderedRing K]

/-- Consecutive sides only meet at their common vertex. -/
theorem Valid.consecutive {p : Poly K} (h : p.Valid) (i : ℕ) {q : Vec K} (h1 : q ∈ p.side i) (h2 : q ∈ p.side (i + 1)) :
    q = p.vertex (i + 1) := by
  obtain ⟨t, t0, t1, ht⟩ := h1
  obtain ⟨r, r0, r1, hr⟩ := h2
  have e : (1 - t) • p.edge i = -(r • p.edge (i + 1)) := by
    rw [ht] at hr
    have a1 := congrArg Prod.fst hr
    have a2 := congrArg Prod.snd hr
    simp only [Prod.fst_add, Prod.snd_add, Prod.smul_fst, Prod.smul_snd, Prod.fst_sub, Prod.snd_sub, smul_eq_mul] at a1 a2
    unfold edge
    ext <;> simp <;> linarith
  have := corner_unique (h.edge_ne i) (h.edge_ne (i + 1)) (h.turn i) (by linarith) r0 e
  rw [hr, this.2]
  simp

/-- The polygons that can be created are simple. -/
theorem Valid.isSimplePoly {p : Poly K} (h : p.Valid) : Simple p.vertex (List.range p.length) := by
  have h3 := h.len3
  have hside : ∀ x ∈ cyc (List.range p.length), segPts (p.vertex x.1, p.vertex x.2) = p.side x.1 := by
    intro x hx
    rw [(mem_cyc_range.1 hx).2, vertex_mod]
    rfl
  have key : ∀ i j, i < p.length → j < p.length → i ≠ j → ∀ q, q ∈ p.side i → q ∈ p.side j →
      (j = (i + 1) % p.length ∧ q = p.vertex j) ∨ (i = (j + 1) % p.length ∧ q = p.vertex i) := by
    intro i j hi hj hij q hqi hqj
    by_cases hA : Apart p.length i j
    · have := h.simple i j hA
      exact absurd (Set.mem_inter hqi hqj) (by rw [this]; exact Set.notMem_empty _)
    · have : j = (i + 1) % p.length ∨ i = (j + 1) % p.length := by
        unfold Apart at hA
        rw [Nat.mod_eq_of_lt hi, Nat.mod_eq_of_lt hj] at hA
        by_contra hh
        rw [not_or] at hh
        exact hA ⟨hij, fun e => hh.1 e.symm, hh.2⟩
      rcases this with e | e
      · refine Or.inl ⟨e, ?_⟩
        rw [e, side_mod] at hqj
        rw [e, vertex_mod]
        exact h.consecutive i hqi hqj
      · refine Or.inr ⟨e, ?_⟩
        rw [e, side_mod] at hqi
        rw [e, vertex_mod]
        exact h.consecutive j hqj hqi
  refine ⟨List.nodup_range, by simpa using h3, ?_, ?_⟩
  · intro a ha b hb hab
    rw [List.mem_range] at ha hb
    by_contra hne
    have hna : ∀ i, p.vertex (i + 1) ≠ p.vertex i := fun i e => h.edge_ne i (by unfold edge; rw [e, sub_self])
    rcases key a b ha hb hne (p.vertex a) (left_mem_segPts _ _) (by rw [hab]; exact left_mem_segPts _ _) with ⟨e, -⟩ | ⟨e, -⟩
    · rw [e, vertex_mod] at hab
      exact hna a hab.symm
    · rw [e, vertex_mod] at hab
      exact hna b hab
  · intro x hx y hy hxy q hqx hqy
    rw [hside x hx] at hqx
    rw [hside y hy] at hqy
    obtain ⟨x1, x2⟩ := mem_cyc_range.1 hx
    obtain ⟨y1, y2⟩ := mem_cyc_range.1 hy
    have hne : x.1 ≠ y.1 := by
      intro e
      exact hxy (Prod.ext e (by rw [x2, y2, e]))
    rcases key x.1 y.1 x1 y1 hne q hqx hqy with ⟨e, hq⟩ | ⟨e, hq⟩
    · exact ⟨y.1, Or.inr (by rw [x2, e]), Or.inl rfl, hq⟩
    · exact ⟨x.1, Or.inl rfl, Or.inr (by rw [y2, e]), hq⟩

/-- The orientation of the triangles is that of the polygon. -/
theorem Valid.exists_tri {p : Poly K} (h : p.Valid) : ∃ T, Tri p.vertex 1 (List.range p.length) T := by
  obtain ⟨s, hs, T, hT⟩ := h.isSimplePoly.exists_tri
  suffices s = 1 by subst this; exact ⟨T, hT⟩
  rcases hs with rfl | rfl
  · rfl
  exfalso
  have e2 := perm_sum hT.perm (fun a b => ccw (p.vertex a) (p.vertex b)) (fun a b => by simp only [ccw]; ring)
  have e3 : ((List.range p.length).map (fun i => ccw (p.vertex i) (p.vertex ((i + 1) % p.length)))).sum = 2 * p.area := by
    rw [area_sum]
    congr 1
    refine List.map_congr_left fun i _ => ?_
    rw [vertex_mod]
  rw [e3] at e2
  have e4 : ∀ x ∈ T, ((tEdges x).map (fun x => ccw (p.vertex x.1) (p.vertex x.2))).sum ≤ 0 := by
    rintro ⟨a, b, c⟩ hx
    have := hT.pos a b c (Or.inl hx)
    simp only [tEdges, List.map_cons, List.map_nil, List.sum_cons, List.sum_nil]
    simp only [ori, ccw, Prod.fst_sub, Prod.snd_sub] at this ⊢
    linarith
  have e5 : ((T.flatMap tEdges).map (fun x => ccw (p.vertex x.1) (p.vertex x.2))).sum ≤ 0 := by
    clear e2 hT
    induction T with
    | nil => simp
    | cons x T ih =>
      rw [List.flatMap_cons, List.map_append, List.sum_append]
      have a1 := e4 x (by simp)
      have a2 := ih (fun y hy => e4 y (by simp [hy]))
      linarith
  have := h.area_pos
  linarith

theorem isEar_iff {p : Poly K} {u : List ℕ} {a b c : ℕ} : isEar p u a b c = true ↔
    0 < ori 1 (p.vertex a) (p.vertex b) (p.vertex c) ∧
    ∀ z ∈ u, z ∉ [a, b, c] → ¬ InTri 1 (p.vertex a) (p.vertex b) (p.vertex c) (p.vertex z) := by
  unfold isEar InTri ori
  rw [Bool.and_eq_true, decide_eq_true_eq, not_le, one_mul, Bool.not_eq_true', List.any_eq_false]
  refine and_congr_right fun _ => ?_
  simp only [List.mem_filter, decide_eq_true_eq, and_imp, Bool.and_eq_true, not_and, one_mul, ge_iff_le]

/-- There is an ear. -/
theorem findEar_some {p : Poly K} {u : List ℕ} (hu : 3 < u.length) (hS : Simple p.vertex u) {T : List Triple}
    (hT : Tri p.vertex 1 u T) : ∃ i, findEar p u = some i := by
  obtain ⟨a, b, c, ht, hab, hbc⟩ := hT.exists_ear hS.nodup
  obtain ⟨i, hi, rfl⟩ := List.mem_iff_getElem.1 (mem_cyc hab).1
  rw [← Option.isSome_iff_exists]
  unfold findEar
  rw [List.find?_isSome]
  refine ⟨i, List.mem_range.2 hi, ?_⟩
  obtain ⟨a, b', c', d, r, h1, h2, -⟩ := erase_rotated hu hi
  have hc1 : (a, b') ∈ cyc u := by
    have : List.Perm (cyc u) (cyc (a :: b' :: c' :: d :: r)) := cyc_perm ⟨i, h1⟩
    rw [this.mem_iff, cyc_cons]; simp
  have hc2 : (b', c') ∈ cyc u := by
    have : List.Perm (cyc u) (cyc (a :: b' :: c' :: d :: r)) := cyc_perm ⟨i, h1⟩
    rw [this.mem_iff, cyc_cons]; simp
  have ha : a = u[i] := by
    have := congrArg Prod.fst h2
    unfold corners at this
    simp only [List.getD_eq_getElem?_getD, List.getElem?_eq_getElem hi, Option.getD_some] at this
    exact this.symm
  subst ha
  obtain rfl := next_unique hS.nodup hab hc1
  obtain rfl := next_unique hS.nodup hbc hc2
  rw [h2]
  refine isEar_iff.2 ⟨hT.pos _ _ _ ht, fun z hz hz' hi => hz' ?_⟩
  rcases hT.empty _ _ _ ht z hz hi with rfl | rfl | rfl <;> simp

/-- Clipping ears works. -/
theorem earLoop_total {p : Poly K} (u : List ℕ) (hS : Simple p.vertex u) (hT : ∃ T, Tri p.vertex 1 u T) (t : Dict Triple ℕ)
    (ht : ∀ x ∈ Dict.keys t, 0 < ccw (p.vertex x.2.1 - p.vertex x.1) (p.vertex x.2.2 - p.vertex x.1)) :
    ∃ t', earLoop p u t = .ok t' ∧
      ∀ x ∈ Dict.keys t', 0 < ccw (p.vertex x.2.1 - p.vertex x.1) (p.vertex x.2.2 - p.vertex x.1) := by
  generalize hm : u.length = m
  induction m using Nat.strong_induction_on generalizing u t with
  | _ m ih =>
    obtain ⟨T, hT⟩ := hT
    unfold earLoop
    split_ifs with hu
    · obtain ⟨i, hf⟩ := findEar_some hu hS hT
      rw [hf]
      dsimp only
      have hi : i < u.length := List.mem_range.1 (List.mem_of_find?_eq_some hf)
      have he := List.find?_some hf
      obtain ⟨a, b, c, d, r, h1, h2, h3⟩ := erase_rotated hu hi
      rw [h2] at he ⊢
      have hrot : u ~r a :: b :: c :: d :: r := ⟨i, h1⟩
      have hS' := hS.rotated hrot
      obtain ⟨e1, e2⟩ := isEar_iff.1 he
      obtain ⟨g1, T', g2⟩ := hS'.clip e1 (fun z hz => by
        refine e2 z (hrot.mem_iff.2 ?_) ?_
        · simp only [List.mem_cons] at hz ⊢; tauto
        · have := hS'.nodup
          rintro hh
          simp only [List.mem_cons, List.not_mem_nil, or_false] at hh
          rcases hh with rfl | rfl | rfl <;> simp only [List.nodup_cons, List.mem_cons, not_or] at this hz <;> tauto)
        (hT.rotated hrot)
      refine ih _ (by rw [← hm, List.length_eraseIdx_of_lt (Nat.mod_lt _ (by omega))]; omega) _ (g1.rotated h3.symm)
        ⟨T', g2.rotated h3.symm⟩ _ ?_ rfl
      intro x hx
      rcases (Dict.mem_keys_set _ _ _ _).1 hx with rfl | hx
      · simpa [ori] using e1
      · exact ht x hx
    · refine ⟨_, rfl, ?_⟩
      intro x hx
      rcases (Dict.mem_keys_set _ _ _ _).1 hx with rfl | hx
      · have h3 := hS.len
        match u, hu, h3, hS, hT with
        | [a, b, c], _, _, hS, hT =>
          have hab : (a, b) ∈ cyc [a, b, c] := by rw [cyc_cons]; simp
          obtain ⟨z, hz⟩ := hT.boundary hab
          have hpos := hT.pos _ _ _ hz
          have hm := hT.mem _ _ _ hz.rot.rot
          simp only [List.mem_cons, List.not_mem_nil, or_false] at hm
          rcases hm with rfl | rfl | rfl
          · exact absurd hpos (by rw [ori_left]; exact lt_irrefl _)
          · exact absurd hpos (by rw [ori_right]; exact lt_irrefl _)
          · simpa [ori] using hpos
        | [], _, h, _, _ | [_], _, h, _, _ | [_, _], _, h, _, _ => simp at h
        | _ :: _ :: _ :: _ :: _, h, _, _, _ => simp at h
      · exact ht x hx

end Poly
end Flat
