import Verif.Lemmas.Disjoint
import Verif.Props.PolygonCheck
import Verif.Props.Centroid
import Mathlib.Combinatorics.Pigeonhole

/-!
# Every simple polygon has an ear
-/

namespace Flat
namespace Poly
variable {K : Type} [Field K] [LinearOrder K] [IsStrictOrderedRing K]

/-- Some triangle contains two edges of the polygon. -/
theorem Tri.exists_ear {f : ℕ → Vec K} {s : K} {u : List ℕ} {T : List Triple} (h : Tri f s u T) (hu : u.Nodup) :
    ∃ a b c, Rot T a b c ∧ (a, b) ∈ cyc u ∧ (b, c) ∈ cyc u := by
  classical
  have hex : ∀ x ∈ cyc u, ∃ t ∈ T, x ∈ tEdges t := fun x hx => by
    obtain ⟨D, hD⟩ := h.perm
    exact List.mem_flatMap.1 (hD.mem_iff.2 (by simp [hx]))
  choose! g hg using hex
  have hcard : T.toFinset.card < (cyc u).toFinset.card := by
    rw [List.toFinset_card_of_nodup (cyc_nodup hu)]
    have h1 := List.toFinset_card_le T
    have h2 : (cyc u).length = u.length := by simp [cyc]
    have := h.len
    omega
  obtain ⟨x, hx, y, hy, hne, hxy⟩ := Finset.exists_ne_map_eq_of_card_lt_of_maps_to hcard (f := g)
    (fun x hx => by
      rw [Finset.mem_coe, List.mem_toFinset] at hx ⊢
      exact (hg x hx).1)
  rw [List.mem_toFinset] at hx hy
  obtain ⟨ht, hx'⟩ := hg x hx
  have hy' := (hg y hy).2
  rw [← hxy] at hy'
  generalize g x = t at *
  obtain ⟨a, b, c⟩ := t
  simp only [tEdges, List.mem_cons, List.not_mem_nil, or_false] at hx' hy'
  have r1 : Rot T a b c := Or.inl ht
  rcases hx' with rfl | rfl | rfl <;> rcases hy' with rfl | rfl | rfl
  · exact absurd rfl hne
  · exact ⟨a, b, c, r1, hx, hy⟩
  · exact ⟨c, a, b, r1.rot.rot, hy, hx⟩
  · exact ⟨a, b, c, r1, hy, hx⟩
  · exact absurd rfl hne
  · exact ⟨b, c, a, r1.rot, hx, hy⟩
  · exact ⟨c, a, b, r1.rot.rot, hx, hy⟩
  · exact ⟨b, c, a, r1.rot, hy, hx⟩
  · exact absurd rfl hne

/-- A segment from a corner into the triangle leaves it through the opposite side. -/
theorem exit_opposite {s : K} {a b c z : Vec K} (hD : 0 < ori s a b c) (h1 : 0 < ori s a b z) (h2 : 0 < ori s c a z)
    (h3 : ¬ InTri s a b c z) : ∃ r, r ∈ segPts (a, z) ∧ r ∈ segPts (b, c) := by
  have hneg : ori s b c z < 0 := by
    by_contra hh
    exact h3 ⟨h1.le, not_lt.1 hh, h2.le⟩
  have hbca : ori s b c a = ori s a b c := ori_rot _ _ _ _
  have hd : 0 < ori s a b c - ori s b c z := by linarith
  have t0 : 0 < ori s a b c / (ori s a b c - ori s b c z) := div_pos hD hd
  have t1 : ori s a b c / (ori s a b c - ori s b c z) ≤ 1 := (div_le_one hd).2 (by linarith)
  have tz : ori s a b c + ori s a b c / (ori s a b c - ori s b c z) * (ori s b c z - ori s a b c) = 0 := by
    field_simp
    ring
  generalize ori s a b c / (ori s a b c - ori s b c z) = t at *
  refine ⟨a + t • (z - a), ⟨t, t0.le, t1, rfl⟩, ?_⟩
  have hz : ori s b c (a + t • (z - a)) = 0 := by rw [ori_lin, hbca, tz]
  refine side_of_zero (c := a) (by rw [hbca]; exact hD) ⟨hz.ge, ?_, ?_⟩ hz
  · rw [ori_lin, ori_right]
    nlinarith
  · rw [ori_lin, ori_left]
    nlinarith

/-- Clipping an ear. -/
theorem Simple.clip {f : ℕ → Vec K} {a b c d : ℕ} {r : List ℕ} (h : Simple f (a :: b :: c :: d :: r))
    (hpos : 0 < ori 1 (f a) (f b) (f c))
    (hempty : ∀ z ∈ d :: r, ¬ InTri 1 (f a) (f b) (f c) (f z)) {T : List Triple} (hT : Tri f 1 (a :: b :: c :: d :: r) T) :
    Simple f (a :: c :: d :: r) ∧ ∃ T', Tri f 1 (a :: c :: d :: r) T' := by
  have hnd := h.nodup
  obtain ⟨hab, hbc, hac⟩ : a ≠ b ∧ b ≠ c ∧ a ≠ c := by
    simp only [List.nodup_cons, List.mem_cons, not_or] at hnd
    exact ⟨hnd.1.1, hnd.2.1.1, hnd.1.2.1⟩
  have hinn : (a, b) ∈ cyc (a :: b :: c :: d :: r) := by rw [cyc_cons]; simp
  have hout : (b, c) ∈ cyc (a :: b :: c :: d :: r) := by rw [cyc_cons]; simp
  have hcd : (c, d) ∈ cyc (a :: b :: c :: d :: r) := by rw [cyc_cons]; simp
  have hcor : Corner f (a :: b :: c :: d :: r) 1 a b c := ⟨h, hinn, hout, hpos⟩
  have hempty' : ∀ z ∈ a :: b :: c :: d :: r, InTri 1 (f a) (f b) (f c) (f z) → z = a ∨ z = b ∨ z = c := by
    intro z hz hi
    simp only [List.mem_cons] at hz
    rcases hz with rfl | rfl | rfl | hz
    · simp
    · simp
    · simp
    · exact absurd hi (hempty z (by simpa using hz))
  have hca : (c, a) ∉ cyc (a :: b :: c :: d :: r) := by
    intro hh
    have := next_unique hnd hh hcd
    subst this
    simp at hnd
  have hba : (b, a) ∉ cyc (a :: b :: c :: d :: r) := fun hh => hac (next_unique hnd hh hout)
  have hcb : (c, b) ∉ cyc (a :: b :: c :: d :: r) := fun hh => hac (prev_unique hnd hinn hh)
  have hchord := hcor.chord hca hempty'
  have hr1 : (a :: b :: c :: d :: r) ~r (c :: (d :: r) ++ a :: [b]) := List.isRotated_append (l := [a, b]) (l' := c :: d :: r)
  have hr2 : (c :: (d :: r) ++ [a]) ~r (a :: c :: d :: r) := List.isRotated_append (l := c :: d :: r) (l' := [a])
  have hs1 : Simple f (a :: c :: d :: r) :=
    ((h.rotated hr1).split (by simp) (hchord.rotated hr1).symm).rotated hr2
  refine ⟨hs1, ?_⟩
  obtain ⟨s1, hss, T1, hT1⟩ := hs1.exists_tri
  have hmem1 : ∀ x ∈ cyc (a :: b :: c :: d :: r), x ≠ (a, b) → x ≠ (b, c) → x ∈ cyc (a :: c :: d :: r) := by
    intro x hx x1 x2
    rw [cyc_cons] at hx ⊢
    simp only [List.cons_append, List.zip_cons_cons, List.mem_cons] at hx ⊢
    tauto
  have hac' : (a, c) ∈ cyc (a :: c :: d :: r) := by rw [cyc_cons]; simp
  -- an extreme vertex other than `b`
  obtain ⟨H, x, hH, hxu, hxb, hx⟩ : ∃ (H : Vec K → Prop) (x : ℕ), Cone H ∧ x ∈ a :: b :: c :: d :: r ∧ x ≠ b ∧
      ∀ z ∈ a :: b :: c :: d :: r, z ≠ x → H (f z - f x) := by
    obtain ⟨v, hvu, hv⟩ := exists_extreme lexPos_cone lexPos_total f (a :: b :: c :: d :: r) (by simp) h.inj
    by_cases hvb : v = b
    · obtain ⟨w, hwu, hw⟩ := exists_extreme lexNeg_cone (fun v hv => by rw [neg_neg]; exact (lexPos_total v hv).symm) f
        (a :: b :: c :: d :: r) (by simp) h.inj
      refine ⟨_, w, lexNeg_cone, hwu, ?_, hw⟩
      rintro rfl
      subst hvb
      have h1 := hv a (by simp) hab
      have h2 := hw a (by simp) hab
      have := lexPos_cone.add _ _ h1 h2
      rw [add_neg_cancel] at this
      exact lexPos_cone.zero this
    · exact ⟨_, v, lexPos_cone, hvu, hvb, hv⟩
  have hx1 : ∀ z ∈ a :: c :: d :: r, z ≠ x → H (f z - f x) := fun z hz => hx z (by
    simp only [List.mem_cons] at hz ⊢; tauto)
  obtain ⟨prv, hp⟩ := exists_prev hxu
  obtain ⟨nxt, hn⟩ := exists_next hxu
  have hfan := (hT.fan hnd hH hx hp hn).2
  have hs : s1 = 1 := by
    by_cases hxa : x = a
    · subst hxa
      obtain rfl : nxt = b := next_unique hnd hn hinn
      have hp1 : (prv, x) ∈ cyc (x :: c :: d :: r) := by
        refine hmem1 _ hp ?_ ?_
        · intro e; exact hab (Prod.mk.inj e).2
        · intro e; exact hac (Prod.mk.inj e).2
      have hfan1 := (hT1.fan hs1.nodup hH hx1 hp1 hac').2
      rcases hss with rfl | rfl
      · rfl
      exfalso
      rw [ori_neg] at hfan1
      have hprv : prv ∈ x :: nxt :: c :: d :: r := (mem_cyc hp).1
      have hni : ¬ InTri 1 (f x) (f nxt) (f c) (f prv) := by
        intro hi
        rcases hempty' prv hprv hi with rfl | rfl | rfl
        · exact hab (next_unique hnd hp hinn)
        · exact hba hp
        · exact hca hp
      obtain ⟨q, hq1, hq2⟩ := exit_opposite hpos hfan (by rw [ori_flip]; linarith) hni
      obtain ⟨e, he1, he2, -⟩ := h.meet _ hp _ hout (by
        intro e; exact hac (Prod.mk.inj e).2) q (segPts_comm hq1) hq2
      rcases he1 with rfl | rfl <;> rcases he2 with h' | h'
      · dsimp only at h'; subst h'; exact hba hp
      · dsimp only at h'; subst h'; exact hca hp
      · exact hab h'
      · exact hac h'
    · by_cases hxc : x = c
      · subst hxc
        obtain rfl : prv = b := prev_unique hnd hp hout
        have hn1 : (x, nxt) ∈ cyc (a :: x :: d :: r) := by
          refine hmem1 _ hn ?_ ?_
          · intro e; exact hxa (Prod.mk.inj e).1
          · intro e; exact hbc (Prod.mk.inj e).1.symm
        have hfan1 := (hT1.fan hs1.nodup hH hx1 hac' hn1).2
        rcases hss with rfl | rfl
        · rfl
        exfalso
        rw [ori_neg] at hfan1
        have hnx : nxt ∈ a :: prv :: x :: d :: r := (mem_cyc hn).2
        have hni : ¬ InTri 1 (f x) (f a) (f prv) (f nxt) := by
          intro hi
          rcases hempty' nxt hnx hi.rot with rfl | rfl | rfl
          · exact hca hn
          · exact hcb hn
          · exact hbc (prev_unique hnd hn hout).symm
        obtain ⟨q, hq1, hq2⟩ := exit_opposite (s := 1) (a := f x) (b := f a) (c := f prv) (by rw [← ori_rot]; exact hpos)
          (by rw [ori_swap]; linarith) (by rw [← ori_rot]; exact hfan) hni
        obtain ⟨e, he1, he2, -⟩ := h.meet _ hn _ hinn (by
          intro e; exact hac (Prod.mk.inj e).1.symm) q hq1 hq2
        rcases he1 with rfl | rfl <;> rcases he2 with h' | h'
        · exact hac h'.symm
        · exact hbc h'.symm
        · dsimp only at h'; subst h'; exact hca hn
        · dsimp only at h'; subst h'; exact hcb hn
      · have hp1 : (prv, x) ∈ cyc (a :: c :: d :: r) := by
          refine hmem1 _ hp ?_ ?_
          · intro e; exact hxb (Prod.mk.inj e).2
          · intro e; exact hxc (Prod.mk.inj e).2
        have hn1 : (x, nxt) ∈ cyc (a :: c :: d :: r) := by
          refine hmem1 _ hn ?_ ?_
          · intro e; exact hxa (Prod.mk.inj e).1
          · intro e; exact hxb (Prod.mk.inj e).1
        exact sign_unique (Or.inl rfl) hss hfan (hT1.fan hs1.nodup hH hx1 hp1 hn1).2
  subst hs
  exact ⟨T1, hT1⟩

end Poly
end Flat
