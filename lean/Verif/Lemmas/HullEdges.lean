import Verif.Lemmas.GrahamScan
import Verif.Props.HyperbolicPolygon
import Mathlib.Analysis.Convex.Combination

/-!
# The edges of a convex hull

Helper lemmas about `Verif.Model.HyperbolicHull`: the half spaces of the edges that the Graham scan finds.
-/

namespace Flat
namespace Hyp

variable {K F : Type} [Field K] [LinearOrder K] [IsStrictOrderedRing K] [Field F] [LinearOrder F] [IsStrictOrderedRing F]

/-- The half space to the left of the line through two points. -/
def edgeGeo (p q : K × K) : Geo K := ⟨-((p.2 - q.2) * p.1 + (q.1 - p.1) * p.2), p.2 - q.2, q.1 - p.1⟩

theorem val_edgeGeo (p q z : K × K) : (edgeGeo p q).val z = area p q z := by simp only [Geo.val, edgeGeo, area]; ring

theorem val_edgeGeo_map (f : K →+* F) (p q : K × K) (z : F × F) : ((edgeGeo p q).map f).val z = area (mapPt f p) (mapPt f q) z := by
  simp only [Geo.val, edgeGeo, area, Geo.map, mapPt, map_neg, map_add, map_mul, map_sub]; ring

theorem area_map (f : K →+* F) (p q z : K × K) : area (mapPt f p) (mapPt f q) (mapPt f z) = f (area p q z) := by
  simp only [area, mapPt, map_mul, map_sub]

theorem edgeGeo_valid {p q : K × K} (hp : InDisk p) (hq : InDisk q) (hne : p ≠ q) : (edgeGeo p q).Valid := by
  unfold InDisk at hp hq
  have hpos : 0 < (p.1 - q.1) * (p.1 - q.1) + (p.2 - q.2) * (p.2 - q.2) := by
    by_cases h : p.1 = q.1
    · have h2 : p.2 ≠ q.2 := fun h2 => hne (Prod.ext h h2)
      have := mul_self_pos.mpr (sub_ne_zero.mpr h2)
      nlinarith [mul_self_nonneg (p.1 - q.1)]
    · have := mul_self_pos.mpr (sub_ne_zero.mpr h)
      nlinarith [mul_self_nonneg (p.2 - q.2)]
  simp only [Geo.Valid, edgeGeo]
  set A := p.1 * p.1 + p.2 * p.2 with hA
  set B := q.1 * q.1 + q.2 * q.2 with hB
  set d := p.1 * q.1 + p.2 * q.2 with hd
  have e : (p.1 - q.1) * (p.1 - q.1) + (p.2 - q.2) * (p.2 - q.2) = A + B - 2 * d := by rw [hA, hB, hd]; ring
  rw [e] at hpos
  have key : (1 - A) * (1 - B) < (1 - d) * (1 - d) := by
    have h1 : ((1 - A) + (1 - B)) / 2 < 1 - d := by linarith
    have h0 : 0 ≤ ((1 - A) + (1 - B)) / 2 := by linarith
    have h2 := mul_self_lt_mul_self h0 h1
    nlinarith [mul_self_nonneg (A - B)]
  have e2 : (p.2 - q.2) * (p.2 - q.2) + (q.1 - p.1) * (q.1 - p.1) - -((p.2 - q.2) * p.1 + (q.1 - p.1) * p.2) * -((p.2 - q.2) * p.1 + (q.1 - p.1) * p.2) = (1 - d) * (1 - d) - (1 - A) * (1 - B) := by
    rw [hA, hB, hd]; ring
  linarith

theorem geodesicThrough_coords {sqrt : K → Option K} {p q : K × K} (hp : InDisk p) (hq : InDisk q) (hne : p ≠ q) : geodesicThrough sqrt (.coords p.1 p.2) (.coords q.1 q.2) true = .ok (edgeGeo p q) := by
  have h : (p.1 == q.1 && p.2 == q.2) = false := by
    rw [Bool.eq_false_iff]
    intro h
    simp only [Bool.and_eq_true, beq_iff_eq] at h
    exact hne (Prod.ext h.1 h.2)
  have hc := Geo.check_ok.2 (edgeGeo_valid hp hq hne)
  unfold edgeGeo at hc
  simp only [geodesicThrough, Pt.eq, h, bind, Except.bind, Bool.false_eq_true, if_false, geodesicThrough.through, Pt.klein, geodesic, if_true, hc, pure, Except.pure, edgeGeo]

/-- The half spaces of consecutive edges. -/
def edgesFrom (last : K × K) : List (K × K) → List (Geo K)
  | [] => []
  | p :: l => edgeGeo last p :: edgesFrom p l

theorem hullEdges_eq (sqrt : K → Option K) : ∀ (l : List (K × K)) (last : K × K), InDisk last → (∀ p ∈ l, InDisk p) → List.IsChain (· ≠ ·) (last :: l) → hullEdges sqrt last l = .ok (edgesFrom last l)
  | [], _, _, _, _ => rfl
  | p :: l, last, h1, h2, h3 => by
    have h3 := List.isChain_cons_cons.mp h3
    simp only [hullEdges, geodesicThrough_coords h1 (h2 p (by simp)) h3.1, hullEdges_eq sqrt l p (h2 p (by simp)) (fun q hq => h2 q (List.mem_cons_of_mem _ hq)) h3.2, bind, Except.bind, pure, Except.pure, edgesFrom]

theorem edgesFrom_valid : ∀ (l : List (K × K)) (last : K × K), InDisk last → (∀ p ∈ l, InDisk p) → List.IsChain (· ≠ ·) (last :: l) → ∀ g ∈ edgesFrom last l, g.Valid
  | [], _, _, _, _ => by simp [edgesFrom]
  | p :: l, last, h1, h2, h3 => by
    have h3 := List.isChain_cons_cons.mp h3
    intro g hg
    rcases List.mem_cons.mp hg with rfl | hg
    · exact edgeGeo_valid h1 (h2 p (by simp)) h3.1
    · exact edgesFrom_valid l p (h2 p (by simp)) (fun q hq => h2 q (List.mem_cons_of_mem _ hq)) h3.2 g hg

theorem edgesFrom_inAll (f : K →+* F) (z : F × F) : ∀ (l : List (K × K)) (last : K × K), InAll f (edgesFrom last l) z ↔ List.IsChain (fun p q => 0 ≤ area (mapPt f p) (mapPt f q) z) (last :: l)
  | [], _ => by simp [edgesFrom, InAll]
  | p :: l, last => by
    rw [List.isChain_cons_cons, ← edgesFrom_inAll f z l p]
    simp only [InAll, edgesFrom, List.mem_cons, forall_eq_or_imp, val_edgeGeo_map]

/-! ### The fan -/

theorem convex_halfplane (g : Geo F) : Convex F {z : F × F | 0 ≤ g.val z} := by
  intro x hx y hy a b ha hb hab
  simp only [Set.mem_setOf_eq] at hx hy ⊢
  have e : g.val (a • x + b • y) = a * g.val x + b * g.val y := by
    simp only [Geo.val, Prod.fst_add, Prod.snd_add, Prod.smul_fst, Prod.smul_snd, smul_eq_mul]
    linear_combination (-g.a) * hab
  rw [e]
  exact add_nonneg (mul_nonneg ha hx) (mul_nonneg hb hy)

theorem triangle_mem {S : Set (F × F)} (hS : Convex F S) {A B C z : F × F} (hA : A ∈ S) (hB : B ∈ S) (hC : C ∈ S) (h : 0 < area A B C) (h1 : 0 ≤ area A B z) (h2 : 0 ≤ area B C z) (h3 : 0 ≤ area C A z) : z ∈ S := by
  have hsum : area B C z + area C A z + area A B z = area A B C := by simp only [area]; ring
  have key := hS.sum_mem (t := Finset.univ) (w := ![area B C z / area A B C, area C A z / area A B C, area A B z / area A B C]) (z := ![A, B, C])
    (by
      intro i _
      fin_cases i
      · exact div_nonneg h2 h.le
      · exact div_nonneg h3 h.le
      · exact div_nonneg h1 h.le)
    (by
      rw [Fin.sum_univ_three]
      simp only [Matrix.cons_val_zero, Matrix.cons_val_one, Matrix.cons_val]
      rw [← add_div, ← add_div, hsum, div_self h.ne'])
    (by
      intro i _
      fin_cases i
      · exact hA
      · exact hB
      · exact hC)
  rw [Fin.sum_univ_three] at key
  simp only [Matrix.cons_val_zero, Matrix.cons_val_one, Matrix.cons_val] at key
  convert key using 1
  have e1 : area A B C * z.1 = area B C z * A.1 + area C A z * B.1 + area A B z * C.1 := by simp only [area]; ring
  have e2 : area A B C * z.2 = area B C z * A.2 + area C A z * B.2 + area A B z * C.2 := by simp only [area]; ring
  generalize area A B C = s at *
  generalize area B C z = a at *
  generalize area C A z = b at *
  generalize area A B z = c at *
  ext
  · simp only [Prod.fst_add, Prod.smul_fst, smul_eq_mul]
    field_simp
    linarith
  · simp only [Prod.snd_add, Prod.smul_snd, smul_eq_mul]
    field_simp
    linarith

/-- A point to the left of all the edges is in one of the triangles of the fan. -/
theorem fan_mem {α : Type} (m : α → F × F) {S : Set (F × F)} (hS : Convex F S) {O : α} (hO : m O ∈ S) {z : F × F} : ∀ (l : List α) (a b : α), (∀ x ∈ a :: b :: l, m x ∈ S) → (a :: b :: l).Pairwise (fun x y => 0 < area (m O) (m x) (m y)) →
    0 ≤ area (m O) (m a) z → List.IsChain (fun p q => 0 ≤ area (m p) (m q) z) (a :: b :: l) → (∀ last, (a :: b :: l).getLast? = some last → 0 ≤ area (m last) (m O) z) → z ∈ S := by
  intro l
  induction l with
  | nil =>
    intro a b hl hp h1 h2 h3
    have hab : 0 < area (m O) (m a) (m b) := (List.pairwise_cons.mp hp).1 b (by simp)
    exact triangle_mem hS hO (hl a (by simp)) (hl b (by simp)) hab h1 (List.isChain_cons_cons.mp h2).1 (h3 b (by simp))
  | cons c l ih =>
    intro a b hl hp h1 h2 h3
    have hab : 0 < area (m O) (m a) (m b) := (List.pairwise_cons.mp hp).1 b (by simp)
    by_cases hb : 0 ≤ area (m O) (m b) z
    · exact ih b c (fun x hx => hl x (List.mem_cons_of_mem _ hx)) (List.pairwise_cons.mp hp).2 hb (List.isChain_cons_cons.mp h2).2 (fun last h => h3 last (by rw [List.getLast?_cons_cons]; exact h))
    · have e : area (m b) (m O) z = -area (m O) (m b) z := by simp only [area]; ring
      exact triangle_mem hS hO (hl a (by simp)) (hl b (by simp)) hab h1 (List.isChain_cons_cons.mp h2).1 (by rw [e]; linarith [not_le.mp hb])

/-- Vertices of a convex polygon in counterclockwise order. -/
def Conv3 (L : List (K × K)) : Prop := ∀ a b c, [a, b, c].Sublist L → 0 < area a b c

theorem ConvexPos.area_pos : ∀ {H : List (K × K)}, ConvexPos H → ∀ {a b c}, [c, b, a].Sublist H → 0 < area a b c
  | [], _, _, _, _, hs => by simp at hs
  | v :: H, hC, a, b, c, hs => by
    cases hs with
    | cons _ hs => exact ConvexPos.area_pos hC.2 hs
    | cons_cons _ hs =>
      have := hC.1.sublist hs
      exact (List.pairwise_cons.mp this).1 a (by simp)

theorem conv3_of {O : K × K} {H : List (K × K)} (hA : H.Pairwise fun b a => 0 < area O a b) (hC : ConvexPos H) : Conv3 (O :: H.reverse) := by
  intro a b c hs
  cases hs with
  | cons _ hs => exact hC.area_pos (by simpa using List.reverse_sublist.mpr hs)
  | cons_cons _ hs =>
    have h : [c, b].Sublist H := by simpa using List.reverse_sublist.mpr hs
    exact (List.pairwise_cons.mp (hA.sublist h)).1 b (by simp)

theorem Conv3.chain : ∀ (suf pre : List (K × K)), Conv3 (pre ++ suf) → List.IsChain (fun p q => ∀ x ∈ pre ++ suf, 0 ≤ area p q x) suf
  | [], _, _ => .nil
  | [_], _, _ => .singleton _
  | p :: q :: l, pre, h => by
    have e : pre ++ p :: q :: l = (pre ++ [p]) ++ q :: l := by simp
    refine List.isChain_cons_cons.mpr ⟨fun x hx => ?_, ?_⟩
    · rcases List.mem_append.mp hx with hx | hx
      · have hs : [x, p, q].Sublist (pre ++ p :: q :: l) :=
          List.Sublist.append (List.singleton_sublist.mpr hx) (List.Sublist.cons_cons _ (List.Sublist.cons_cons _ (List.nil_sublist _)))
        have := h x p q hs
        have e : area p q x = area x p q := by simp only [area]; ring
        rw [e]; exact this.le
      · rcases List.mem_cons.mp hx with rfl | hx
        · have e : area x q x = 0 := by simp only [area]; ring
          exact e.ge
        rcases List.mem_cons.mp hx with rfl | hx
        · have e : area p x x = 0 := by simp only [area]; ring
          exact e.ge
        · have hs : [p, q, x].Sublist (pre ++ p :: q :: l) :=
            (List.Sublist.cons_cons _ (List.Sublist.cons_cons _ (List.singleton_sublist.mpr hx))).trans (List.sublist_append_right _ _)
          exact (h p q x hs).le
    · rw [e] at h ⊢
      exact Conv3.chain (q :: l) (pre ++ [p]) h

/-! ### The half spaces of a convex hull -/

theorem minCoords_spec : ∀ (l : List (K × K)) (p : K × K), minCoords p l ∈ p :: l ∧ ∀ x ∈ p :: l, x = minCoords p l ∨ After (minCoords p l) x := by
  have tr : ∀ {a b c : K × K}, After a b → After b c → After a c := by
    rintro a b c (h | ⟨h, h'⟩) (k | ⟨k, k'⟩)
    · exact .inl (h.trans k)
    · exact .inl (k ▸ h)
    · exact .inl (h ▸ k)
    · exact .inr ⟨h.trans k, h'.trans k'⟩
  intro l
  induction l with
  | nil => intro p; simp [minCoords]
  | cons q l ih =>
    intro p
    have hlt : ∀ a b : K × K, coordsLt a b = true ↔ After a b := by
      intro a b
      simp [coordsLt, After]
    have e : minCoords p (q :: l) = minCoords (if coordsLt q p then q else p) l := rfl
    rw [e]
    by_cases h : coordsLt q p = true
    · rw [if_pos h]
      obtain ⟨h1, h2⟩ := ih q
      refine ⟨List.mem_cons_of_mem _ h1, fun x hx => ?_⟩
      rcases List.mem_cons.mp hx with rfl | hx
      · right
        rcases h2 q (by simp) with h3 | h3
        · rw [← h3]; exact (hlt _ _).1 h
        · exact tr h3 ((hlt _ _).1 h)
      · exact h2 x hx
    · rw [if_neg h]
      obtain ⟨h1, h2⟩ := ih p
      have hq : q = p ∨ After p q := by
        rw [hlt] at h
        simp only [After, not_or, not_lt, not_and] at h
        rcases h.1.lt_or_eq with h3 | h3
        · exact .inr (.inl h3)
        · rcases (h.2 h3.symm).lt_or_eq with h4 | h4
          · exact .inr (.inr ⟨h3, h4⟩)
          · exact .inl (Prod.ext h3.symm h4.symm)
      refine ⟨?_, fun x hx => ?_⟩
      · rcases List.mem_cons.mp h1 with h1 | h1
        · rw [h1]; simp
        · simp [h1]
      · rcases List.mem_cons.mp hx with rfl | hx
        · exact h2 x (by simp)
        · rcases List.mem_cons.mp hx with rfl | hx
          · rcases hq with rfl | hq
            · exact h2 x (by simp)
            · right
              rcases h2 p (by simp) with h3 | h3
              · rw [← h3]; exact hq
              · exact tr h3 hq
          · exact h2 x (List.mem_cons_of_mem _ hx)

/-- What is known about the half spaces of the convex hull of some points. -/
theorem hullHalfSpaces_spec (sqrt : K → Option K) {V : List (K × K)} (hV : ∀ p ∈ V, InDisk p) (hne : V ≠ []) :
    ∃ l, hullHalfSpaces sqrt V = .ok l ∧ l ≠ [] ∧ (∀ g ∈ l, g.Valid) ∧
      ((∃ p, l = pointHalfSpaces p ∧ ∀ q, q ∈ V ↔ q = p) ∨
       (∃ p ∈ V, ∃ q ∈ V, p ≠ q ∧ (∀ x ∈ V, area p q x = 0) ∧ ∀ (F : Type) [Field F] [LinearOrder F] [IsStrictOrderedRing F] (f : K →+* F), StrictMono f → ∀ z : F × F, InAll f l z ↔ area (mapPt f p) (mapPt f q) z = 0) ∨
       ((∃ p ∈ V, ∃ q ∈ V, ∃ x ∈ V, area p q x ≠ 0) ∧ ∀ (F : Type) [Field F] [LinearOrder F] [IsStrictOrderedRing F] (f : K →+* F), StrictMono f → ∀ z : F × F, InAll f l z ↔ z ∈ convexHull F (mapPt f '' {p | p ∈ V}))) := by
  have hmem : ∀ x, x ∈ V.dedup ↔ x ∈ V := fun x => List.mem_dedup
  have hnd := List.nodup_dedup V
  unfold hullHalfSpaces
  rcases hD : V.dedup with _ | ⟨p, l⟩
  · exfalso
    obtain ⟨x, hx⟩ := List.exists_mem_of_ne_nil _ hne
    have := (hmem x).2 hx
    rw [hD] at this
    cases this
  rw [hD] at hmem hnd
  match l, hmem, hnd with
  | [], hmem, hnd =>
    have hp : (ConvexSet.point p).Reduced := hV p ((hmem p).1 (by simp))
    obtain ⟨s1, s2, -, -⟩ := halfSpaces_spec hp
    exact ⟨pointHalfSpaces p, rfl, s1, s2, .inl ⟨p, rfl, fun q => by rw [← hmem]; simp⟩⟩
  | p' :: l, hmem, hnd =>
    simp only
    obtain ⟨r1, r2⟩ := minCoords_spec (p' :: l) p
    generalize hr : minCoords p (p' :: l) = r at r1 r2
    obtain ⟨m, m1, m2, m3, m4⟩ := sortSlope_spec hnd r1 r2
    rw [m1]
    obtain ⟨a, m', hm⟩ : ∃ a m', m = a :: m' := by
      rcases m with _ | ⟨a, m'⟩
      · exfalso
        by_cases h : p = r
        · have : p' ∈ ([] : List (K × K)) := (m2 p').2 ⟨by simp, fun h' => by
            rw [List.nodup_cons] at hnd
            exact hnd.1 (by rw [h, ← h']; simp)⟩
          cases this
        · have : p ∈ ([] : List (K × K)) := (m2 p).2 ⟨by simp, h⟩
          cases this
      · exact ⟨a, m', rfl⟩
    have hane : ∀ x ∈ m, x ≠ r := fun x hx => ((m2 x).1 hx).2
    have hdrop : dropCollinear r (r :: m) = r :: dropCollinear r m := by
      rw [hm]
      conv_lhs => unfold dropCollinear
      rw [if_neg]
      unfold slopeEq
      rw [if_pos ⟨sub_self _, sub_self _⟩]
      simp only [decide_eq_true_eq]
      rintro ⟨h1, h2⟩
      exact hane a (by rw [hm]; simp) (Prod.ext (sub_eq_zero.mp h1) (sub_eq_zero.mp h2))
    obtain ⟨t1, t2, t3, t4⟩ := dropCollinear_spec m3 m4
    have t4 := t4 (by rw [hm]; simp)
    rw [hdrop]
    set T := dropCollinear r m with hT
    obtain ⟨H, g1, g2, g3, g4, g5, g6, g7⟩ := scan_spec (O := r) T [] [] List.Pairwise.nil trivial t1 (by simp) (by simp)
    have g6 := g6 t4
    have hscan : grahamScan (r :: T) = H ++ [r] := g1
    rw [hscan]
    obtain ⟨last, H', hH⟩ := List.exists_cons_of_ne_nil g6
    have hlast : (H ++ [r]).getLast? = some r := by simp
    have hrV : r ∈ V := (hmem r).1 r1
    have hTV : ∀ x ∈ T, x ∈ V := fun x hx => (hmem x).1 ((m2 x).1 (t2 x hx)).1
    have hHT : ∀ x ∈ H, x ∈ T := fun x hx => (g4 x hx).resolve_left (by simp)
    have hHV : ∀ x ∈ H, x ∈ V := fun x hx => hTV x (hHT x hx)
    have hHr : ∀ x ∈ H, x ≠ r := fun x hx => hane x (t2 x (hHT x hx))
    have hdom : ∀ x ∈ V, Dominated (H ++ [r]) x := by
      intro x hx
      by_cases h : x = r
      · exact dominated_of_mem (by simp [h])
      · refine Dominated.trans (fun y hy => ?_) (t3 x ((m2 x).2 ⟨(hmem x).2 hx, h⟩))
        rcases List.mem_append.mp hy with hy | hy
        · exact g5 y (by simpa using hy)
        · exact dominated_of_mem (by simp at hy; simp [hy])
    have hlastH : last ∈ H := by rw [hH]; simp
    have hchain : List.IsChain (· ≠ ·) (last :: r :: H.reverse) := by
      refine List.isChain_cons_cons.mpr ⟨hHr last hlastH, List.Pairwise.isChain ?_⟩
      refine List.pairwise_cons.mpr ⟨fun x hx => (hHr x (by simpa using hx)).symm, ?_⟩
      rw [List.pairwise_reverse]
      refine g2.imp ?_
      intro b a h hab
      rw [hab] at h
      have : area r b b = 0 := by simp only [area]; ring
      rw [this] at h
      exact lt_irrefl _ h
    have hdisk : ∀ x ∈ r :: H.reverse, InDisk x := by
      intro x hx
      rcases List.mem_cons.mp hx with rfl | hx
      · exact hV x hrV
      · exact hV x (hHV x (by simpa using hx))
    have hedges := hullEdges_eq sqrt (r :: H.reverse) last (hV _ (hHV _ hlastH)) hdisk hchain
    have hvalid := edgesFrom_valid (r :: H.reverse) last (hV _ (hHV _ hlastH)) hdisk hchain
    have hs := orderedSet_spec halfSpaceOrder (fun g hg => (hvalid g hg).proper)
    refine ⟨orderedSet halfSpaceLt (edgesFrom last (r :: H.reverse)), ?_, ?_, fun g hg => hvalid g (hs.sub g hg), .inr ?_⟩
    · rw [hlast]
      have : H ++ [r] = last :: (H' ++ [r]) := by rw [hH]; rfl
      have hrev : (last :: (H' ++ [r])).reverse = r :: H.reverse := by rw [← this]; simp
      rw [this]
      simp only [ne_eq, not_true_eq_false, if_false, hrev, hedges, bind, Except.bind, pure, Except.pure]
    · intro h
      obtain ⟨k, hk, -⟩ := hs.all (edgeGeo last r) (by simp [edgesFrom])
      rw [h] at hk
      cases hk
    by_cases hlen : 2 ≤ T.length
    · right
      have hH2 := g7 (.inl hlen)
      have hc3 := conv3_of g2 g3
      obtain ⟨b, H'', hH''⟩ : ∃ b H'', H' = b :: H'' := by
        rcases H' with _ | ⟨b, H''⟩
        · rw [hH] at hH2; simp at hH2
        · exact ⟨b, H'', rfl⟩
      refine ⟨⟨r, hrV, b, hHV b (by rw [hH, hH'']; simp), last, hHV _ hlastH, ?_⟩, fun F _ _ _ f hf z => ?_⟩
      · rw [hH, hH''] at g2
        exact ((List.pairwise_cons.mp g2).1 b (by simp)).ne'
      rw [sortedOf_inAll hf hs z, edgesFrom_inAll]
      have hch := Conv3.chain (r :: H.reverse) [] hc3
      constructor
      · intro hz
        obtain ⟨z1, z2⟩ := List.isChain_cons_cons.mp hz
        have hfw : ∃ c d l', H.reverse = c :: d :: l' := by
          rcases hRv : H.reverse with _ | ⟨c, _ | ⟨d, l'⟩⟩
          · have := congrArg List.length hRv; rw [List.length_reverse, List.length_nil] at this; omega
          · have := congrArg List.length hRv; rw [List.length_reverse, List.length_singleton] at this; omega
          · exact ⟨c, d, l', rfl⟩
        obtain ⟨c, d, l', hfw⟩ := hfw
        rw [hfw] at z2
        obtain ⟨z2, z3⟩ := List.isChain_cons_cons.mp z2
        refine fan_mem (mapPt f) (convex_convexHull F (mapPt f '' {p | p ∈ V})) (O := r) (subset_convexHull _ _ ⟨r, hrV, rfl⟩) l' c d ?_ ?_ z2 z3 ?_
        · intro x hx
          rw [← hfw] at hx
          exact subset_convexHull _ _ ⟨x, hHV x (by simpa using hx), rfl⟩
        · rw [← hfw, List.pairwise_reverse]
          refine g2.imp fun h => ?_
          rw [area_map]
          exact (pos_map hf).2 h
        · intro w hw
          rw [← hfw, List.getLast?_reverse, hH] at hw
          simp only [List.head?_cons, Option.some.injEq] at hw
          rw [← hw]
          exact z1
      · intro hz
        have hall : List.IsChain (fun p q => ∀ x ∈ r :: H.reverse, 0 ≤ area p q x) (last :: r :: H.reverse) := by
          refine List.isChain_cons_cons.mpr ⟨fun x hx => ?_, hch⟩
          have e : area last r x = area r x last := by simp only [area]; ring
          rw [e]
          rcases List.mem_cons.mp hx with rfl | hx
          · have : area x x last = 0 := by simp only [area]; ring
            exact this.ge
          · have hx' : x ∈ H := by simpa using hx
            rw [hH] at hx'
            rcases List.mem_cons.mp hx' with rfl | hx'
            · have : area r x x = 0 := by simp only [area]; ring
              exact this.ge
            · rw [hH] at g2
              exact ((List.pairwise_cons.mp g2).1 x hx').le
        refine hall.imp fun a b hab => ?_
        rw [← val_edgeGeo_map]
        refine convexHull_min (s := mapPt f '' {p | p ∈ V}) ?_ (convex_halfplane ((edgeGeo a b).map f)) hz
        rintro _ ⟨x, hx, rfl⟩
        simp only [Set.mem_setOf_eq, val_mapPt]
        refine (nonneg_map hf).2 (hdom x hx _ fun q hq => ?_)
        rw [val_edgeGeo]
        exact hab q (by rcases List.mem_append.mp hq with h | h
                        · exact List.mem_cons_of_mem _ (by simpa using h)
                        · simp at h; simp [h])
    · left
      obtain ⟨t, hTt⟩ : ∃ t, T = [t] := by
        rcases hTT : T with _ | ⟨t, _ | ⟨t', T'⟩⟩
        · exact absurd hTT t4
        · exact ⟨t, rfl⟩
        · rw [hTT] at hlen; simp at hlen
      have hlt : last = t := by have := hHT last hlastH; rw [hTt] at this; simpa using this
      have hH1 : H = [t] := by
        rcases H' with _ | ⟨b, H''⟩
        · rw [hH, hlt]
        · exfalso
          have hb := hHT b (by rw [hH]; simp)
          rw [hTt] at hb
          simp only [List.mem_singleton] at hb
          rw [hH, hlt, hb] at g2
          have := (List.pairwise_cons.mp g2).1 t (by simp)
          have e : area r t t = 0 := by simp only [area]; ring
          rw [e] at this
          exact lt_irrefl _ this
      have htV : t ∈ V := hHV t (by rw [hH1]; simp)
      refine ⟨r, hrV, t, htV, (hHr t (by rw [hH1]; simp)).symm, fun x hx => ?_, fun F _ _ _ f hf z => ?_⟩
      · have h := hdom x hx
        rw [hH1] at h
        have e0 : area r t t = 0 := by simp only [area]; ring
        have e1 : area r t r = 0 := by simp only [area]; ring
        have e2 : area t r t = 0 := by simp only [area]; ring
        have e3 : area t r r = 0 := by simp only [area]; ring
        have h1 := h (edgeGeo r t) (by simp [val_edgeGeo, e0, e1])
        have h2 := h (edgeGeo t r) (by simp [val_edgeGeo, e2, e3])
        rw [val_edgeGeo] at h1 h2
        have e : area t r x = -area r t x := by simp only [area]; ring
        rw [e] at h2
        linarith
      · rw [sortedOf_inAll hf hs z, hlt, hH1]
        simp only [InAll, List.reverse_singleton, edgesFrom, List.mem_cons, List.not_mem_nil, or_false, forall_eq_or_imp, forall_eq, val_edgeGeo_map]
        have e : area (mapPt f t) (mapPt f r) z = -area (mapPt f r) (mapPt f t) z := by simp only [area]; ring
        rw [e]
        constructor
        · rintro ⟨h1, h2⟩; linarith
        · intro h; rw [h]; simp

end Hyp
end Flat
