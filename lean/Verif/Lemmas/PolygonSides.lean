import Verif.Model.HyperbolicEdges
import Verif.Lemmas.HullSets

/-!
# Sides of hyperbolic polygons

Helper lemmas about `Verif.Model.HyperbolicEdges`: the half spaces of a normalized polygon form a cycle and each of them contributes an edge.
-/

namespace Flat
namespace Hyp

section Sorted

variable {α : Type} {lt : α → α → Bool}

theorem mergeTwo_sorted : ∀ (n : ℕ) (A B merged : List α), A.length + B.length ≤ n → (∀ a ∈ A, ∀ b ∈ B, lt a b = true) → mergeTwo lt n A B merged = A.reverse ++ (B.reverse ++ merged)
  | n, [], B, merged, _, _ => by unfold mergeTwo; simp
  | n, a :: A, [], merged, _, _ => by unfold mergeTwo; simp
  | 0, a :: A, b :: B, merged, h, _ => by simp at h
  | n + 1, a :: A, b :: B, merged, h, hl => by
    rw [mergeTwo, if_pos (hl a (by simp) b (by simp)), mergeTwo_sorted n (a :: A) B (b :: merged) (by simp at h ⊢; omega) fun x hx y hy => hl x hx y (by simp [hy])]
    simp

theorem merge2_sorted {A B : List α} (h : (A ++ B).Pairwise fun x y => lt x y = true) : merge2 lt A B = A ++ B := by
  rw [merge2, mergeTwo_sorted _ _ _ _ (by simp)]
  · simp
  · intro a ha b hb
    exact (List.pairwise_append.mp h).2.2 a (by simpa using ha) b (by simpa using hb)

theorem mergeAll_sorted : ∀ (n : ℕ) (sets : List (List α)), sets.length ≤ n + 1 → sets.flatten.Pairwise (fun x y => lt x y = true) → mergeAll lt n sets = sets.flatten
  | n, [], _, _ => by unfold mergeAll; simp
  | n, [s], _, _ => by unfold mergeAll; simp
  | n, [A, B], _, h => by
    unfold mergeAll
    rw [merge2_sorted (by simpa using h)]
    simp
  | 0, a :: b :: c :: l, h, _ => by simp at h
  | n + 1, a :: b :: c :: l, h, hs => by
    have e : ((a :: b :: c :: l).take ((a :: b :: c :: l).length / 2)).flatten ++ ((a :: b :: c :: l).drop ((a :: b :: c :: l).length / 2)).flatten = (a :: b :: c :: l).flatten := by
      rw [← List.flatten_append, List.take_append_drop]
    have hl : (a :: b :: c :: l).length = l.length + 3 := by simp
    rw [hl] at h
    rw [mergeAll, mergeAll_sorted n, mergeAll_sorted n, merge2_sorted, e]
    · rwa [e]
    · rw [List.length_drop, hl]; omega
    · rw [← e] at hs; exact (List.pairwise_append.mp hs).2.1
    · rw [List.length_take, hl]; omega
    · rw [← e] at hs; exact (List.pairwise_append.mp hs).1
    · simp
    · simp
    · simp

/-- An ordered set of entries that are sorted already. -/
theorem orderedSet_sorted {l : List α} (h : l.Pairwise fun x y => lt x y = true) : orderedSet lt l = l := by
  have hfl : (l.map fun e => [e]).flatten = l := by
    clear h
    induction l with
    | nil => rfl
    | cons a l ih => simpa using ih
  rw [orderedSet, mergeAll_sorted _ _ (by simp) (by rwa [hfl]), hfl]

end Sorted

variable {K F : Type} [Field K] [LinearOrder K] [IsStrictOrderedRing K] [Field F] [LinearOrder F] [IsStrictOrderedRing F]

/-- A small step does not leave half planes that contain the point in their interior. -/
theorem small_step (p d : K × K) : ∀ (L : List (Geo K)), (∀ g ∈ L, 0 < g.val p) → ∃ ε, 0 < ε ∧ ∀ t, 0 ≤ t → t ≤ ε → ∀ g ∈ L, 0 < g.val (shift p d t)
  | [], _ => ⟨1, one_pos, by simp⟩
  | h :: L, hp => by
    obtain ⟨ε, h1, h2⟩ := small_step p d L fun g hg => hp g (by simp [hg])
    have h0 := hp h (by simp)
    set m := h.b * d.1 + h.c * d.2
    have hm : 0 < |m| + 1 := by positivity
    refine ⟨min ε (h.val p / (2 * (|m| + 1))), lt_min h1 (by positivity), fun t t0 t1 g hg => ?_⟩
    rcases List.mem_cons.mp hg with rfl | hg
    · rw [val_shift]
      have t2 : t ≤ g.val p / (2 * (|m| + 1)) := t1.trans (min_le_right _ _)
      rw [le_div_iff₀ (by positivity)] at t2
      have : -|m| ≤ m := neg_abs_le m
      nlinarith [mul_le_mul_of_nonneg_left this t0]
    · exact h2 t t0 (t1.trans (min_le_left _ _)) g hg

/-- Each side of a normalized polygon has two points that are in the open disk and in the interior of the other half spaces. -/
theorem side_points {l : List (Geo K)} (hl : (ConvexSet.polygon l).Reduced) {g : Geo K} (hg : g ∈ l) :
    ∃ p q : K × K, p ≠ q ∧ g.val p = 0 ∧ g.val q = 0 ∧ p.1 * p.1 + p.2 * p.2 < 1 ∧ q.1 * q.1 + q.2 * q.2 < 1 ∧ ∀ h ∈ l, h ≠ g → 0 < h.val p ∧ 0 < h.val q := by
  obtain ⟨-, -, ⟨y, yf, hy⟩, hirr⟩ := hl
  obtain ⟨vg, x, xd, xg, hx⟩ := hirr g hg
  have hyg := hy g hg
  have hd : 0 < g.val y - g.val x := by linarith
  set t := g.val y / (g.val y - g.val x) with ht
  have t0 : 0 < t := div_pos hyg hd
  have t1 : t < 1 := by rw [ht, div_lt_one hd]; linarith
  have hv : ∀ (h : Geo K), h.val (shift y (x.1 - y.1, x.2 - y.2) t) = (1 - t) * h.val y + t * h.val x := by
    intro h; simp only [Geo.val, shift]; ring
  have hp0 : g.val (shift y (x.1 - y.1, x.2 - y.2) t) = 0 := by
    rw [hv, ht]
    field_simp
    ring
  have hpf := shift_finite yf xd t0.le t1
  have hpos : ∀ h ∈ l, h ≠ g → 0 < h.val (shift y (x.1 - y.1, x.2 - y.2) t) := by
    intro h hh hne
    rw [hv]
    have := mul_pos (show 0 < 1 - t by linarith) (hy h hh)
    have := mul_nonneg t0.le (hx h hh hne)
    linarith
  generalize shift y (x.1 - y.1, x.2 - y.2) t = p at hp0 hpf hpos
  obtain ⟨ε, e1, -, e2⟩ := small_finite hpf (g.c, -g.b)
  obtain ⟨δ, d1, d2⟩ := small_step p (g.c, -g.b) (l.filter fun h => h ≠ g) (by simpa using hpos)
  have hm : 0 < min ε δ := lt_min e1 d1
  refine ⟨p, shift p (g.c, -g.b) (min ε δ), fun he => ?_, hp0, ?_, hpf, e2 _ hm.le (min_le_left _ _), fun h hh hne => ⟨hpos h hh hne, d2 _ hm.le (min_le_right _ _) h (by simp [hh, hne])⟩⟩
  · have := congrArg g.pos he
    rw [pos_shift] at this
    have hn := vg.proper.norm
    nlinarith [mul_pos hm hn]
  · rw [val_shift, hp0]; ring

/-- The half spaces of a normalized polygon are sorted by the directions of their normals. -/
theorem polygon_dirLt {l : List (Geo K)} (hl : (ConvexSet.polygon l).Reduced) : l.Pairwise DirLt := by
  have hl' := hl
  obtain ⟨-, hs, -, hirr⟩ := hl
  refine List.Pairwise.imp_of_mem ?_ hs
  intro g h hg hh hlt
  rcases (halfSpaceLt_iff (hirr g hg).1.proper (hirr h hh).1.proper).1 hlt with hd | ⟨-, s, s0, hb, hc, ha⟩
  · exact hd
  · exfalso
    obtain ⟨-, x, -, hx, hot⟩ := hirr h hh
    have hne : g ≠ h := by
      rintro rfl
      rw [halfSpaceLt_irrefl (hirr g hg).1.proper] at hlt
      simp at hlt
    have := hot g hg hne
    have e : h.val x = s * g.val x + (h.a - s * g.a) := by simp only [Geo.val, hb, hc]; ring
    rw [e] at hx
    have := mul_nonneg s0.le this
    linarith

theorem polygon_cyc {l : List (Geo K)} (hl : (ConvexSet.polygon l).Reduced) : Cyc l.length (seqOf l) := by
  have hcl := cycList_of_sorted (fun g hg => (hl.2.2.2 g hg).1) (polygon_dirLt hl)
  have hne : l ≠ [] := by rintro rfl; simp [ConvexSet.Reduced] at hl
  have hpos : 0 < l.length := List.length_pos_iff.mpr hne
  have hd := hcl.dir hne
  refine ⟨hd.pos, hd.per, hd.valid, hd.dist, hd.tri, fun i => ?_⟩
  obtain ⟨p, q, hpq, p0, q0, -, -, hin⟩ := side_points hl (seqOf_mem hpos (i + 1))
  have hn : ∀ h ∈ l, 0 ≤ h.val p ∧ 0 ≤ h.val q := fun h hh => by
    by_cases he : h = seqOf l (i + 1)
    · rw [he, p0, q0]; simp
    · exact ⟨(hin h hh he).1.le, (hin h hh he).2.le⟩
  have mA := seqOf_mem hpos i
  have mC := seqOf_mem hpos (i + 2)
  exact locCond_of_edge hpq p0 q0 ⟨(hn _ mA).1, (hn _ mC).1⟩ ⟨(hn _ mA).2, (hn _ mC).2⟩

/-- The edges of a normalized polygon. -/
theorem polygon_diskEdges {l : List (Geo K)} (hl : (ConvexSet.polygon l).Reduced) : ∃ E, DiskEdges l E ∧ ∀ i, (E i).IsEdge (seqOf l i) := by
  have hc := polygon_cyc hl
  have key : ∀ i, ∃ p q : K × K, p ≠ q ∧ (seqOf l i).val p = 0 ∧ (seqOf l i).val q = 0 ∧ InDisk p ∧ InDisk q ∧ (∀ h ∈ l, 0 ≤ h.val p) ∧ ∀ h ∈ l, 0 ≤ h.val q := by
    intro i
    obtain ⟨p, q, hpq, p0, q0, pf, qf, hin⟩ := side_points hl (seqOf_mem hc.pos i)
    have hn : ∀ h ∈ l, 0 ≤ h.val p ∧ 0 ≤ h.val q := fun h hh => by
      by_cases he : h = seqOf l i
      · rw [he, p0, q0]; simp
      · exact ⟨(hin h hh he).1.le, (hin h hh he).2.le⟩
    exact ⟨p, q, hpq, p0, q0, pf.le, qf.le, fun h hh => (hn h hh).1, fun h hh => (hn h hh).2⟩
  obtain ⟨a, b, hab, -, -, -, -, ha, hb⟩ := key 0
  obtain ⟨E, hE⟩ := exists_diskEdges hc hab ha hb
  refine ⟨E, hE, fun i => ?_⟩
  obtain ⟨p, q, hpq, p0, q0, pd, qd, hp, hq⟩ := key i
  exact hE.isEdge_of_two i hpq ((hE.memK i p).2 ⟨pd, p0, hp⟩) ((hE.memK i q).2 ⟨qd, q0, hq⟩)

/-- Points that are not finite can be ignored when they are the end points of a segment that is not empty and not a point. -/
theorem segment_filter {g : Geo K} {s e : Option (K × K)} {R : ConvexSet K} (h : segment g s e = .ok R) (hR : R.nondegenerate = true) :
    segment g (s.filter finitePoint) (e.filter finitePoint) = .ok R ∧ R = segmentFinal g (s.filter finitePoint) (e.filter finitePoint) := by
  by_cases hu : g.isUltraIdeal = true
  · unfold segment at h
    rw [if_pos hu] at h
    cases h
    simp [ConvexSet.nondegenerate] at hR
  have hdeg : ∀ p : K × K, (if ultraIdealPoint p then ConvexSet.empty else .point p : ConvexSet K).nondegenerate = false := fun p => by
    split_ifs <;> rfl
  have hstop : ∀ (s' : Option (K × K)), segmentStop g s' e = .ok R → segmentStop g s' (e.filter finitePoint) = .ok R ∧ R = segmentFinal g s' (e.filter finitePoint) := by
    intro s' h
    rcases e with _ | q
    · simp only [segmentStop, Except.ok.injEq] at h
      simp [segmentStop, h]
    · by_cases hq : finitePoint q = true
      · simp only [segmentStop, hq, if_true, Except.ok.injEq] at h
        simp [Option.filter, hq, segmentStop, h]
      · rw [Bool.not_eq_true] at hq
        simp only [segmentStop, hq, Bool.false_eq_true, if_false, bind, Except.bind] at h
        cases hp : g.parametrize q with
        | error x => rw [hp] at h; cases h
        | ok t =>
          rw [hp] at h
          simp only [pure, Except.pure] at h
          by_cases ht : sgn t < 0
          · rw [if_pos ht] at h
            cases h
            rw [hdeg] at hR
            simp at hR
          · rw [if_neg ht] at h
            cases h
            simp [Option.filter, hq, segmentStop]
  have hstart : segmentStart g s e = .ok R → segmentStart g (s.filter finitePoint) (e.filter finitePoint) = .ok R ∧ R = segmentFinal g (s.filter finitePoint) (e.filter finitePoint) := by
    intro h
    rcases s with _ | p
    · exact hstop none h
    · by_cases hp : finitePoint p = true
      · simp only [segmentStart, hp, if_true] at h
        have := hstop _ h
        simpa [Option.filter, hp, segmentStart] using this
      · rw [Bool.not_eq_true] at hp
        simp only [segmentStart, hp, Bool.false_eq_true, if_false, bind, Except.bind] at h
        cases hq : g.parametrize p with
        | error x => rw [hq] at h; cases h
        | ok t =>
          rw [hq] at h
          simp only [pure, Except.pure] at h
          by_cases ht : sgn t > 0
          · rw [if_pos ht] at h
            cases h
            rw [hdeg] at hR
            simp at hR
          · rw [if_neg ht] at h
            have := hstop _ h
            simpa [Option.filter, hp, segmentStart] using this
  rcases s with _ | p
  · unfold segment at h ⊢
    rw [if_neg hu] at h ⊢
    exact hstart h
  · rcases e with _ | q
    · unfold segment at h ⊢
      rw [if_neg hu] at h ⊢
      have := hstart h
      cases hf : (some p).filter finitePoint <;> rw [hf] at this <;> exact this
    · unfold segment at h
      rw [if_neg hu] at h
      simp only [bind, Except.bind] at h
      cases h1 : g.parametrize p with
      | error x => rw [h1] at h; cases h
      | ok t =>
        cases h2 : g.parametrize q with
        | error x => rw [h1, h2] at h; cases h
        | ok u =>
          rw [h1, h2] at h
          simp only at h
          by_cases htu : t > u
          · rw [if_pos htu] at h; cases h
          · rw [if_neg htu] at h
            have := hstart h
            unfold segment
            rw [if_neg hu]
            by_cases hp : finitePoint p = true <;> by_cases hq : finitePoint q = true <;> simp only [Option.filter, hp, hq, if_true, Bool.false_eq_true, if_false] at this ⊢
            · simp only [h1, h2, bind, Except.bind, if_neg htu]; exact this
            all_goals exact this

end Hyp
end Flat
