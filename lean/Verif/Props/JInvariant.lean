import Verif.Lemmas.JInvariant
import Verif.Props.DelaunayEnergy
import Verif.Props.Normalize
import Mathlib.Algebra.BigOperators.Ring.Finset

/-!
# C93: the Kenyon-Smillie J-invariant
-/

namespace Flat
namespace Poly
variable {K : Type} [Field K] [LinearOrder K] [IsStrictOrderedRing K]

/-- **C93.** The J-invariant of a polygon does not depend on its position in the plane. -/
theorem C93_translate {N : Coords K} (h : N.Additive) (p : Poly K) (u : Vec K) : (p.translate u).jInvariant N = p.jInvariant N := by
  have hc : (p.translate u).isConvex false = p.isConvex false := by
    by_cases hp : p = []
    · subst hp; rfl
    · have hl : (p.translate u).length = p.length := by simp [translate]
      unfold isConvex
      rw [hl]
      simp only [edge_translate p hp]
  unfold jInvariant
  rw [hc, jLoop_eq, jLoop_eq, jSum_translate h]

/-- **C93.** The J-invariant of a polygon does not depend on the vertex where the list of its vertices starts. -/
theorem C93_rotate (N : Coords K) (p : Poly K) (k : ℕ) : jInvariant N (List.rotate p k) = p.jInvariant N := by
  have hc : isConvex (List.rotate p k) false = p.isConvex false := by
    by_cases hp : p = []
    · subst hp; simp
    · have hne : List.rotate p k ≠ [] := by simpa using hp
      have he : ∀ i, edge (List.rotate p k) i = p.edge (i + k) := fun i => by
        unfold edge
        rw [vertex_rotate, vertex_rotate, Nat.add_right_comm]
      rw [Bool.eq_iff_iff, isConvex_iff _ hne, isConvex_iff _ hp]
      simp only [Bool.false_eq_true, if_false, he]
      refine ⟨fun h i => ?_, fun h i => by rw [Nat.add_right_comm]; exact h (i + k)⟩
      have hpos : 0 < p.length := List.length_pos_iff.2 hp
      have := h (i + (p.length * k - k))
      have e1 : i + (p.length * k - k) + k = i + p.length * k := by
        have := Nat.le_mul_of_pos_left k hpos
        omega
      rw [Nat.add_right_comm _ 1 k, e1, edge_congr p (show (i + p.length * k) % p.length = i % p.length by simp),
        edge_congr p (show (i + p.length * k + 1) % p.length = (i + 1) % p.length by rw [Nat.add_right_comm]; simp)] at this
      exact this
  unfold jInvariant
  rw [hc, jLoop_eq, jLoop_eq, cycSum_rotate]

/-- **C93.** Cutting a polygon along the diagonal from `x` to `y`: the invariants of the two pieces add up to the invariant of the polygon. -/
theorem C93_cut (N : Coords K) (x y : Vec K) (l m : List (Vec K)) {J J1 J2 : JInv} (h : jInvariant N (x :: l ++ y :: m) = .ok J)
    (h1 : jInvariant N (y :: x :: l) = .ok J1) (h2 : jInvariant N (x :: y :: m) = .ok J2) : J = J1 + J2 := by
  unfold jInvariant at h h1 h2
  split_ifs at h h1 h2
  rw [jLoop_eq] at h h1 h2
  injection h with h
  injection h1 with h1
  injection h2 with h2
  rw [← h, ← h1, ← h2]
  exact cycSum_cut _ _ _ _ _ (by rw [jTerm_swap N x y, add_neg_cancel])

/-- **C93.** The entries of the J-invariant as sums over the edges of the polygon. -/
theorem C93_entries {N : Coords K} {p : Poly K} {J : JInv} (h : p.jInvariant N = .ok J) {i j : ℕ} (hi : i < N.degree) (hj : j < N.degree) :
    (i < j → J.1 i j = ∑ k ∈ Finset.range p.length,
      (N.toV (p.vertex k).1 i * N.toV (p.vertex (k + 1)).1 j - N.toV (p.vertex k).1 j * N.toV (p.vertex (k + 1)).1 i)) ∧
    (i < j → J.2.1 i j = ∑ k ∈ Finset.range p.length,
      (N.toV (p.vertex k).2 i * N.toV (p.vertex (k + 1)).2 j - N.toV (p.vertex k).2 j * N.toV (p.vertex (k + 1)).2 i)) ∧
    J.2.2 j i = ∑ k ∈ Finset.range p.length,
      (N.toV (p.vertex k).1 i * N.toV (p.vertex (k + 1)).2 j - N.toV (p.vertex (k + 1)).1 i * N.toV (p.vertex k).2 j) := by
  unfold jInvariant at h
  split_ifs at h
  injection h with h
  subst h
  have key : ∀ n, ((i < j → ((List.range n).foldl (p.jStep N) 0).1 i j = ∑ k ∈ Finset.range n,
      (N.toV (p.vertex k).1 i * N.toV (p.vertex (k + 1)).1 j - N.toV (p.vertex k).1 j * N.toV (p.vertex (k + 1)).1 i)) ∧
    (i < j → ((List.range n).foldl (p.jStep N) 0).2.1 i j = ∑ k ∈ Finset.range n,
      (N.toV (p.vertex k).2 i * N.toV (p.vertex (k + 1)).2 j - N.toV (p.vertex k).2 j * N.toV (p.vertex (k + 1)).2 i)) ∧
    ((List.range n).foldl (p.jStep N) 0).2.2 j i = ∑ k ∈ Finset.range n,
      (N.toV (p.vertex k).1 i * N.toV (p.vertex (k + 1)).2 j - N.toV (p.vertex (k + 1)).1 i * N.toV (p.vertex k).2 j)) := by
    intro n
    induction n with
    | zero => exact ⟨fun _ => rfl, fun _ => rfl, rfl⟩
    | succ n ih =>
      rw [List.range_succ, List.foldl_append, Finset.sum_range_succ, Finset.sum_range_succ, Finset.sum_range_succ]
      simp only [List.foldl_cons, List.foldl_nil]
      generalize (List.range n).foldl (p.jStep N) 0 = J at ih ⊢
      refine ⟨fun hij => ?_, fun hij => ?_, ?_⟩
      · rw [← ih.1 hij]
        simp only [jStep, Pi.add_apply, wedgeProduct, if_pos (And.intro hij hj)]
      · rw [← ih.2.1 hij]
        simp only [jStep, Pi.add_apply, wedgeProduct, if_pos (And.intro hij hj)]
      · rw [← ih.2.2]
        simp only [jStep, Pi.add_apply, Pi.sub_apply, tensorProduct, if_pos (And.intro hj hi)]
        ring
  exact key p.length

/-- **C93.** The J-invariant determines the area: when `e` is the basis of the number field that is used by `to_V`, the area is half the sum of
the entries of `Jxy` multiplied by the products of the basis. -/
theorem C93_area {N : Coords K} {e : ℕ → K} (he : ∀ x : K, x = ∑ i ∈ Finset.range N.degree, (N.toV x i : K) * e i) {p : Poly K} {J : JInv}
    (h : p.jInvariant N = .ok J) :
    2 * p.area = ∑ j ∈ Finset.range N.degree, ∑ i ∈ Finset.range N.degree, (J.2.2 j i : K) * (e i * e j) := by
  unfold jInvariant at h
  split_ifs at h
  injection h with h
  rw [jLoop_eq] at h
  subst h
  rw [two_area, map_cycSum (fun J : JInv => ∑ j ∈ Finset.range N.degree, ∑ i ∈ Finset.range N.degree, (J.2.2 j i : K) * (e i * e j))
    (by simp) (fun x y => by
      rw [← Finset.sum_add_distrib]
      refine Finset.sum_congr rfl fun j _ => ?_
      rw [← Finset.sum_add_distrib]
      refine Finset.sum_congr rfl fun i _ => ?_
      simp only [Prod.snd_add, Pi.add_apply, Rat.cast_add]
      ring)]
  refine cycSum_congr (fun v w => ?_) p
  have key : ∀ a b : K, ∑ j ∈ Finset.range N.degree, ∑ i ∈ Finset.range N.degree, ((tensorProduct N.degree (N.toV a) (N.toV b) j i : ℚ) : K) * (e i * e j) = a * b := by
    intro a b
    conv_rhs => rw [he a, he b, Finset.sum_mul_sum, Finset.sum_comm]
    refine Finset.sum_congr rfl fun j hj => Finset.sum_congr rfl fun i hi => ?_
    unfold tensorProduct
    rw [if_pos ⟨Finset.mem_range.1 hj, Finset.mem_range.1 hi⟩]
    push_cast
    ring
  have h1 := key v.1 w.2
  have h2 := key w.1 v.2
  simp only [jTerm, Pi.sub_apply, Rat.cast_sub, sub_mul, Finset.sum_sub_distrib]
  rw [h1, h2]
  simp only [ccw]
  ring

end Poly

namespace MSurf
variable {L K : Type} [LinearOrder L] [LabelNum L] [Field K] [LinearOrder K] [IsStrictOrderedRing K]

/-- All edges are glued by translations. -/
def Translates (s : MSurf L (Poly K)) : Prop :=
  ∀ l (e : ℕ) l' (e' : ℕ) P P', s.oppositeEdge l e = .ok (some (l', (e' : Int))) → s.polygon l = .ok P → s.polygon l' = .ok P' →
    P.edge e = -P'.edge e'

theorem translates_iff {s : MSurf L (Poly K)} (h : GInv s) : s.Translates ↔
    ∀ l (e : ℕ) l' (e' : ℕ), s.opp l e = some (l', (e' : Int)) → (s.polyAt l).edge e = -(s.polyAt l').edge e' := by
  constructor
  · intro ht l e l' e' ho
    obtain ⟨P, hP, -⟩ := opp_isEdge h.toShape ho
    obtain ⟨k, hk, ho'⟩ := h.inv _ _ _ _ ho
    obtain ⟨P', hP', -⟩ := opp_isEdge h.toShape ho'
    rw [polyAt_eq hP, polyAt_eq hP']
    exact ht l e l' e' P P' (by rw [oppositeEdge_eq_opp h.toShape (opp_isEdge h.toShape ho), ho]) (polygon_ok.2 hP) (polygon_ok.2 hP')
  · intro ht l e l' e' P P' ho hP hP'
    rw [polygon_ok] at hP hP'
    have hE : s.IsEdge l e := by
      by_contra hn
      rw [oppositeEdge_error h.toShape hn] at ho
      cases ho
    rw [oppositeEdge_eq_opp h.toShape hE] at ho
    injection ho with ho
    have := ht l e l' e' ho
    rwa [polyAt_eq hP, polyAt_eq hP'] at this

/-- A flip of a triangulated translation surface. -/
theorem flip_translation {s t : MSurf L (Poly K)} (hs : Good s) (ht : Triangulated s) (htr : s.Translates) {l0 : L} {d0 : ℕ}
    (hf : triangleFlip l0 d0 s = .ok () t) :
    Good t ∧ Triangulated t ∧ t.Translates ∧ (∀ l, l ∈ t.polygons.keys ↔ l ∈ s.polygons.keys) ∧
      ∃ l1, l0 ≠ l1 ∧ l0 ∈ s.polygons.keys ∧ l1 ∈ s.polygons.keys ∧ (∀ l, l ≠ l0 → l ≠ l1 → t.polyAt l = s.polyAt l) ∧
        ∀ N : Coords K, N.Additive → cycSum (jTerm N) (t.polyAt l0) + cycSum (jTerm N) (t.polyAt l1) =
          cycSum (jTerm N) (s.polyAt l0) + cycSum (jTerm N) (s.polyAt l1) := by
  obtain ⟨l1, d1, P0, P1, ho, hp0, hp1, h0, h1⟩ := triangleFlip_pre hs.1 l0 d0 hf
  have spec := triangleFlip_spec hs l0 l1 d0 d1 P0 P1 hp0 hp1 h0 h1 ho
  unfold wp at spec
  rw [hf] at spec
  obtain ⟨hg, -, hd, ⟨g, hT, hsign, hwf, hgm, hturn, Q0, Q1, hq0, hq1, hv0, hv1, e01, e02, e00, e11, e12, e10, hpol⟩, hgl, hopp⟩ := spec
  rw [translates_iff hs.1] at htr
  have hdiag := htr _ _ _ _ ho
  rw [polyAt_eq hp0, polyAt_eq hp1] at hdiag
  obtain ⟨-, a1⟩ := ht _ _ (polygon_ok.2 hp1)
  have hne1 : P1.edge d1 ≠ 0 := edge_ne_zero_of_area h1 a1 d1
  have hfix : ∀ w, g.derivative.mulVec w = w := fun w => by
    have := rotScale_fixes hsign hne1 1 (by rw [hgm, hdiag, neg_neg, one_smul]) w
    rwa [one_smul] at this
  simp only [hfix] at e02 e00 e11 e10 hturn
  have hl : l0 ≠ l1 := by
    rintro rfl
    obtain rfl := hd rfl
    rw [hp0] at hp1
    injection hp1 with hp1
    subst hp1
    refine hne1 ?_
    generalize P0.edge d0 = v at hdiag
    obtain ⟨v1, v2⟩ := v
    simp only [Prod.ext_iff, Prod.fst_neg, Prod.snd_neg] at hdiag
    ext
    · show v1 = 0; linarith [hdiag.1]
    · show v2 = 0; linarith [hdiag.2]
  have ho' := opp_back hs.1 ho
  have hd0 : d0 < 3 := lt_three_of_opp hs.1 hp0 h0 ho
  have hd1 : d1 < 3 := lt_three_of_opp hs.1 hp1 h1 ho'
  have tp0 : t.polygons.get l0 = some Q0 := by rw [hpol, if_neg hl, if_pos rfl]
  have tp1 : t.polygons.get l1 = some Q1 := by rw [hpol, if_pos rfl]
  have hoth : ∀ l, l ≠ l0 → l ≠ l1 → t.polygons.get l = s.polygons.get l := fun l k0 k1 => by rw [hpol, if_neg k1, if_neg k0]
  have B0 := area_of_length_three Q0 hq0 d0
  have B1 := area_of_length_three Q1 hq1 d1
  rw [e01, e02] at B0
  rw [e11, e12] at B1
  obtain ⟨t1, t2, t3, t4⟩ := hturn
  have hkeys : ∀ l, l ∈ t.polygons.keys ↔ l ∈ s.polygons.keys := fun l => by
    rw [Dict.mem_keys_iff, Dict.mem_keys_iff]
    by_cases m0 : l = l0
    · rw [m0, tp0, hp0]; simp
    by_cases m1 : l = l1
    · rw [m1, tp1, hp1]; simp
    rw [hoth l m0 m1]
  have hmod : ∀ (P : Poly K) (h : P.length = 3) (i : ℕ), P.edge (i % 3) = P.edge i := fun P h i => by rw [← h, Poly.edge_mod]
  have hedge : ∀ x : L × ℕ, FlipEdge l0 d0 l1 d1 x →
      (t.polyAt x.1).edge x.2 = (s.polyAt (flipOld l0 d0 l1 d1 x).1).edge (flipOld l0 d0 l1 d1 x).2 := by
    rintro ⟨l, e⟩ hx
    obtain ⟨v1, v2, v3, v4⟩ := flipOld_values hd0 hd1 hd
    by_cases m0 : l = l0
    · subst m0
      have := hx.1 rfl
      dsimp only at this ⊢
      have he : e = (d0 + 1) % 3 ∨ e = (d0 + 2) % 3 := by omega
      rcases he with rfl | rfl
      · rw [v1]
        dsimp only
        rw [polyAt_eq tp0, polyAt_eq hp0, hmod Q0 hq0, hmod P0 h0, e01]
      · rw [v2]
        dsimp only
        rw [polyAt_eq tp0, polyAt_eq hp1, hmod Q0 hq0, hmod P1 h1, e02]
    by_cases m1 : l = l1
    · subst m1
      have := hx.2 rfl
      dsimp only at this ⊢
      have he : e = (d1 + 1) % 3 ∨ e = (d1 + 2) % 3 := by omega
      rcases he with rfl | rfl
      · rw [v3]
        dsimp only
        rw [polyAt_eq tp1, polyAt_eq hp1, hmod Q1 hq1, hmod P1 h1, e11]
      · rw [v4]
        dsimp only
        rw [polyAt_eq tp1, polyAt_eq hp0, hmod Q1 hq1, hmod P0 h0, e12]
    have hold : flipOld l0 d0 l1 d1 (l, e) = (l, e) := by
      unfold flipOld
      rw [if_neg, if_neg, if_neg, if_neg] <;> simp [m0, m1]
    rw [hold]
    unfold polyAt
    rw [hoth l m0 m1]
  refine ⟨hg, ?_, ?_, hkeys, l1, hl, ?_, ?_, ?_, ?_⟩
  · intro l P hP
    rw [polygon_ok] at hP
    by_cases m0 : l = l0
    · rw [m0, tp0] at hP; injection hP with hP; subst hP; exact ⟨hq0, by linarith⟩
    by_cases m1 : l = l1
    · rw [m1, tp1] at hP; injection hP with hP; subst hP; exact ⟨hq1, by linarith⟩
    rw [hoth l m0 m1] at hP
    exact ht l P (polygon_ok.2 hP)
  · rw [translates_iff hg.1]
    intro l e l' e' hc
    obtain ⟨k, hk, hcase⟩ := (hopp _ _ _).1 hc
    dsimp only at hk hcase
    rw [Int.natCast_inj] at hk
    subst hk
    rcases hcase with ⟨c1, c2⟩ | ⟨c1, c2⟩ | ⟨c1, c2, c3⟩
    · injection c1 with c1 c1'
      injection c2 with c2 c2'
      subst c1 c1' c2 c2'
      rw [polyAt_eq tp0, polyAt_eq tp1, e00, e10]
    · injection c1 with c1 c1'
      injection c2 with c2 c2'
      subst c1 c1' c2 c2'
      rw [polyAt_eq tp0, polyAt_eq tp1, e00, e10, neg_neg]
    · have := htr _ _ _ _ c3
      rw [← hedge _ c1, ← hedge _ c2] at this
      exact this
  · rw [Dict.mem_keys_iff, hp0]; rfl
  · rw [Dict.mem_keys_iff, hp1]; rfl
  · intro l m0 m1
    unfold polyAt
    rw [hoth l m0 m1]
  · intro N hN
    rw [polyAt_eq tp0, polyAt_eq tp1, polyAt_eq hp0, polyAt_eq hp1, Poly.jSum_three hN hq0 d0, Poly.jSum_three hN hq1 d1,
      Poly.jSum_three hN h0 d0, Poly.jSum_three hN h1 d1, e01, e02, e11, e12]
    refine jTerm_flip hN ?_
    have s0 := edge_succ_three P0 h0 d0
    have s1 := edge_succ_three P1 h1 d1
    rw [s0, s1, neg_neg] at hdiag
    exact neg_eq_iff_eq_neg.1 hdiag

/-- The invariant of a triangulated surface. -/
theorem jInvariant_triangulated {N : Coords K} (hN : N.isQQ = false) {s : MSurf L (Poly K)} (hs : GInv s) (hr : RootsOK s) (ht : Triangulated s)
    {ls : List L} (hn : ls.Nodup) (hne : ls ≠ []) (hm : ∀ l, l ∈ ls ↔ l ∈ s.polygons.keys) :
    s.jInvariant N = .ok (ls.map (fun l => cycSum (jTerm N) (s.polyAt l))).sum := by
  have hp : ∀ l ∈ ls, s.polygon l = .ok (s.polyAt l) := fun l hl => by
    have := (hm l).1 hl
    rw [Dict.mem_keys_iff] at this
    obtain ⟨p, hp⟩ := Option.isSome_iff_exists.1 this
    rw [polyAt_eq hp]
    exact polygon_ok.2 hp
  exact jInvariant_spec hN hs hr ls hn hne hm _ hp fun l hl => Poly.isConvex_three (ht l _ (hp l hl)).1 (ht l _ (hp l hl)).2

/-- **C93.** Flipping an edge does not change the J-invariant of a translation surface. -/
theorem C93_flip {N : Coords K} (hQ : N.isQQ = false) (hN : N.Additive) {s t : MSurf L (Poly K)} (hs : Reachable s) (hm : s.mutable = true)
    (ht : Triangulated s) (htr : s.Translates) {l : L} {e : ℕ} (hf : triangleFlip l e s = .ok () t) :
    ∃ J, s.jInvariant N = .ok J ∧ t.jInvariant N = .ok J := by
  have hg : Good s := ⟨hs.ginv, hm, hs.rootsOK⟩
  obtain ⟨k1, k2, -, k4, l1, hne, m0, m1, hoth, hsum⟩ := flip_translation hg ht htr hf
  obtain ⟨ls, -, hn, hmem⟩ := labels_spec hg.1 hg.2.2
  have hls : ls ≠ [] := fun h => by
    have := (hmem l).2 m0
    rw [h] at this
    cases this
  refine ⟨_, jInvariant_triangulated hQ hg.1 hg.2.2 ht hn hls hmem, ?_⟩
  rw [jInvariant_triangulated hQ k1.1 k1.2.2 k2 hn hls fun x => by rw [hmem, k4]]
  congr 1
  have p1 := List.perm_cons_erase ((hmem l).2 m0)
  have hn' := (p1.nodup_iff.1 hn)
  have p2 := List.perm_cons_erase (l := ls.erase l) (a := l1) ((List.mem_erase_of_ne hne.symm).2 ((hmem l1).2 m1))
  have p3 : ls.Perm (l :: l1 :: (ls.erase l).erase l1) := p1.trans (p2.cons l)
  rw [(p3.map _).sum_eq, (p3.map _).sum_eq]
  simp only [List.map_cons, List.sum_cons]
  rw [← add_assoc, ← add_assoc, hsum N hN]
  congr 2
  refine List.map_congr_left fun x hx => ?_
  have hn3 := p3.nodup_iff.1 hn
  simp only [List.nodup_cons, List.mem_cons, not_or] at hn3
  rw [hoth x (fun h => hn3.1.2 (h ▸ hx)) (fun h => hn3.2.1 (h ▸ hx))]

/-- One flip of any edge. -/
def AnyFlip (s t : MSurf L (Poly K)) : Prop := ∃ l e, triangleFlip l e s = .ok () t

/-- **C93.** All triangulations of a translation surface that are related by flips have the same J-invariant. -/
theorem C93_flips {N : Coords K} (hQ : N.isQQ = false) (hN : N.Additive) {s t : MSurf L (Poly K)} (hs : Reachable s) (hm : s.mutable = true)
    (ht : Triangulated s) (htr : s.Translates) (hne : s.polygons.keys ≠ []) (hf : Relation.ReflTransGen AnyFlip s t) :
    ∃ J, s.jInvariant N = .ok J ∧ t.jInvariant N = .ok J ∧ Triangulated t ∧ t.Translates := by
  suffices h : Reachable t ∧ t.mutable = true ∧ Triangulated t ∧ t.Translates ∧ ∃ J, s.jInvariant N = .ok J ∧ t.jInvariant N = .ok J by
    obtain ⟨-, -, h3, h4, J, h5, h6⟩ := h
    exact ⟨J, h5, h6, h3, h4⟩
  induction hf with
  | refl =>
    refine ⟨hs, hm, ht, htr, ?_⟩
    obtain ⟨ls, -, hn, hmem⟩ := labels_spec hs.ginv hs.rootsOK
    have hls : ls ≠ [] := fun h => by
      obtain ⟨x, hx⟩ := List.exists_mem_of_ne_nil _ hne
      have := (hmem x).2 hx
      rw [h] at this
      cases this
    have := jInvariant_triangulated hQ hs.ginv hs.rootsOK ht hn hls hmem
    exact ⟨_, this, this⟩
  | tail _ hstep ih =>
    obtain ⟨h1, h2, h3, h4, J, h5, h6⟩ := ih
    obtain ⟨l, e, hf⟩ := hstep
    obtain ⟨k1, k2, k3, -⟩ := flip_translation ⟨h1.ginv, h2, h1.rootsOK⟩ h3 h4 hf
    obtain ⟨J', h7, h8⟩ := C93_flip hQ hN h1 h2 h3 h4 hf
    rw [h6] at h7
    injection h7 with h7
    subst h7
    refine ⟨?_, k1.2.1, k2, k3, J, h5, h8⟩
    have := Reachable.step _ (.triangleFlip l e) h1 h2 trivial (by simp)
    simp only [Op.run, hf, stateOf] at this
    exact this

/-- **C93, violated.** A surface whose first polygon is not convex has no J-invariant, whatever the field is. -/
theorem C93_reflex (N : Coords K) {s : MSurf L (Poly K)} {l : L} {ls : List L} {p : Poly K} (hl : s.labels = .ok (l :: ls))
    (hp : s.polygon l = .ok p) (hc : p.isConvex false = false) : s.jInvariant N = .error .attributeError := by
  simp only [jInvariant, hl, hp, Poly.jInvariant, hc, bind, Except.bind, if_true]

/-- A translation surface without boundary that has no J-invariant. -/
theorem C93_violation (N : Coords ℚ) : ∃ s : MSurf ℕ (Poly ℚ), Reachable s ∧ s.labels = .ok [0] ∧ s.polygon 0 = .ok exReflexPoly ∧
    exReflexPoly.Valid ∧ (∀ e : Fin 8, ∃ e' : Fin 8, s.oppositeEdge 0 e = .ok (some (0, e')) ∧ exReflexPoly.edge e = -exReflexPoly.edge e') ∧
    s.jInvariant N = .error .attributeError := by
  have hl : exReflex.labels = .ok [0] := by decide +kernel
  have hp : exReflex.polygon 0 = .ok exReflexPoly := by decide +kernel
  exact ⟨exReflex, exReflex_reachable, hl, hp, exReflexPoly_valid, by decide +kernel, C93_reflex N hl hp (by decide +kernel)⟩

/-- A field with coordinates. -/
def exCoords : Coords ℚ := ⟨false, 1, fun x _ => x⟩

theorem exCoords_additive : exCoords.Additive := fun x y i => rfl

theorem exSkew_translates : exSkew.Translates := by
  rw [translates_iff exSkew_reachable.ginv]
  intro l e l' e' ho
  obtain ⟨P, hP, he⟩ := opp_isEdge exSkew_reachable.ginv.toShape ho
  have hl : l ∈ exSkew.polygons.keys := by rw [Dict.mem_keys_iff, hP]; rfl
  have h3 := (exSkew_triangulated l P (polygon_ok.2 hP)).1
  have he' : e < 3 := by
    have : nv P = 3 := h3
    omega
  have hk : exSkew.polygons.keys = [0, 1] := by decide +kernel
  rw [hk] at hl
  have key : ∀ l ∈ [0, 1], ∀ e < 3, ∀ c, exSkew.opp l (e : ℕ) = some c →
      (exSkew.polyAt l).edge e = -(exSkew.polyAt c.1).edge c.2.toNat := by
    intro l hl e he c hc
    have : ∀ l ∈ [0, 1], ∀ e < 3, (match exSkew.opp l (e : ℕ) with
      | some c => decide ((exSkew.polyAt l).edge e = -(exSkew.polyAt c.1).edge c.2.toNat)
      | none => true) = true := by decide +kernel
    have := this l hl e he
    rw [hc] at this
    exact of_decide_eq_true this
  exact key l hl e he' _ ho

/-- The hypotheses are satisfiable: a flip of a torus. -/
example : ∃ t J, triangleFlip 0 2 exSkew = .ok () t ∧ exSkew.jInvariant exCoords = .ok J ∧ t.jInvariant exCoords = .ok J ∧ J.2.2 0 0 = 2 := by
  obtain ⟨t, ht⟩ := exSkew_flips
  obtain ⟨J, h1, h2⟩ := C93_flip (N := exCoords) rfl exCoords_additive exSkew_reachable (by decide +kernel) exSkew_triangulated exSkew_translates ht
  refine ⟨t, J, ht, h1, h2, ?_⟩
  have : (exSkew.jInvariant exCoords).toOption.map (fun J => J.2.2 0 0) = some 2 := by decide +kernel
  rw [h1] at this
  exact Option.some.inj this

example : ∃ t J, Relation.ReflTransGen AnyFlip exSkew t ∧ t ≠ exSkew ∧ exSkew.jInvariant exCoords = .ok J ∧ t.jInvariant exCoords = .ok J := by
  obtain ⟨t, ht⟩ := exSkew_flips
  have hc : Relation.ReflTransGen AnyFlip exSkew t := .single ⟨0, 2, ht⟩
  obtain ⟨J, h1, h2, -⟩ := C93_flips (N := exCoords) rfl exCoords_additive exSkew_reachable (by decide +kernel) exSkew_triangulated
    exSkew_translates (by decide +kernel) hc
  refine ⟨t, J, hc, ?_, h1, h2⟩
  rintro rfl
  have := C29_after_flip exSkew_reachable (by decide +kernel) exSkew_flip ht
  rw [exSkew_flip] at this
  cases this

end MSurf

namespace Poly

theorem exCoords_returns {p : Poly ℚ} (h : p.isConvex false = true) : ∃ J, p.jInvariant MSurf.exCoords = .ok J := by
  unfold jInvariant
  rw [h, if_neg (by simp), if_neg (by simp [MSurf.exCoords])]
  exact ⟨_, rfl⟩

example : ∃ J, jInvariant MSurf.exCoords MSurf.tri = .ok J ∧ 2 * MSurf.tri.area =
    ∑ j ∈ Finset.range 1, ∑ i ∈ Finset.range 1, (J.2.2 j i : ℚ) * (1 * 1) := by
  obtain ⟨J, hJ⟩ := exCoords_returns (p := MSurf.tri) (by decide +kernel)
  exact ⟨J, hJ, C93_area (N := MSurf.exCoords) (e := fun _ => 1) (fun x => by simp [MSurf.exCoords]) hJ⟩

example : ∃ J J1 J2, jInvariant MSurf.exCoords [(0, 0), (1, 0), (1, 1), (0, 1)] = .ok J ∧
    jInvariant MSurf.exCoords [(1, 1), (0, 0), (1, 0)] = .ok J1 ∧ jInvariant MSurf.exCoords [(0, 0), (1, 1), (0, 1)] = .ok J2 ∧ J = J1 + J2 := by
  obtain ⟨J, h⟩ := exCoords_returns (p := [(0, 0), (1, 0), (1, 1), (0, 1)]) (by decide +kernel)
  obtain ⟨J1, h1⟩ := exCoords_returns (p := [(1, 1), (0, 0), (1, 0)]) (by decide +kernel)
  obtain ⟨J2, h2⟩ := exCoords_returns (p := [(0, 0), (1, 1), (0, 1)]) (by decide +kernel)
  exact ⟨J, J1, J2, h, h1, h2, C93_cut MSurf.exCoords (0, 0) (1, 1) [(1, 0)] [(0, 1)] h h1 h2⟩

end Poly
end Flat
