import Verif.Props.Gluing
import Verif.Props.Similarity

/-!
# C04: `edge_transformation` realizes the gluing
-/

namespace Flat

section
variable {K : Type*} [Field K] [LinearOrder K] [IsStrictOrderedRing K]

theorem normSq_ne_zero {v : Vec K} (hv : v ≠ 0) : v.1 * v.1 + v.2 * v.2 ≠ 0 := by
  intro h0
  apply hv
  have h1 := mul_self_nonneg v.1
  have h2 := mul_self_nonneg v.2
  exact Prod.ext (mul_self_eq_zero.1 (by linarith)) (mul_self_eq_zero.1 (by linarith))

/-- The similarity computed from the end points exists when the edges have non-zero length. -/
theorem edgeTransformationPts_isSome (a b aa bb : Vec K) :
    (∃ g, edgeTransformationPts a b aa bb = some g) ↔ a ≠ b ∧ aa ≠ bb := by
  have hz : ∀ x y : Vec K, (y.1 - x.1) * (y.1 - x.1) + (y.2 - x.2) * (y.2 - x.2) = 0 ↔ x = y := by
    intro x y
    constructor
    · intro h
      by_contra hne
      exact normSq_ne_zero (v := y - x) (sub_ne_zero.2 (Ne.symm hne)) h
    · rintro rfl; simp
  unfold edgeTransformationPts Similarity.ofList4
  by_cases h1 : a = b <;> by_cases h2 : aa = bb <;> simp [hz, h1, h2]

/-- What the similarity does. -/
theorem edgeTransformationPts_spec (a b aa bb : Vec K) (g : Similarity K)
    (h : edgeTransformationPts a b aa bb = some g) :
    g.WF ∧ g.sign = 1 ∧ g.call a = aa ∧ g.call b = bb := by
  obtain ⟨hab, haa⟩ := (edgeTransformationPts_isSome a b aa bb).1 ⟨g, h⟩
  have n1 := normSq_ne_zero (v := b - a) (sub_ne_zero.2 (Ne.symm hab))
  have n2 := normSq_ne_zero (v := bb - aa) (sub_ne_zero.2 (Ne.symm haa))
  simp only [Prod.fst_sub, Prod.snd_sub] at n1 n2
  unfold edgeTransformationPts Similarity.ofList4 at h
  rw [if_neg n1, if_neg n2] at h
  simp only [Option.some.injEq] at h
  subst h
  have n1' : (b.1 - a.1) ^ 2 + (b.2 - a.2) ^ 2 ≠ 0 := by
    intro h0; apply n1; linear_combination h0
  have n2' : (bb.1 - aa.1) ^ 2 + (bb.2 - aa.2) ^ 2 ≠ 0 := by
    intro h0; apply n2; linear_combination h0
  refine ⟨⟨?_, Or.inl rfl⟩, rfl, ?_, ?_⟩
  · simp only [Similarity.div, Similarity.det, Int.cast_one, one_mul, neg_mul, mul_neg, sub_neg_eq_add]
    have : ((bb.1 - aa.1) * (b.1 - a.1) + (bb.2 - aa.2) * (b.2 - a.2)) / ((b.1 - a.1) * (b.1 - a.1) + (b.2 - a.2) * (b.2 - a.2)) *
        (((bb.1 - aa.1) * (b.1 - a.1) + (bb.2 - aa.2) * (b.2 - a.2)) / ((b.1 - a.1) * (b.1 - a.1) + (b.2 - a.2) * (b.2 - a.2))) +
        ((bb.2 - aa.2) * (b.1 - a.1) - (bb.1 - aa.1) * (b.2 - a.2)) / ((b.1 - a.1) * (b.1 - a.1) + (b.2 - a.2) * (b.2 - a.2)) *
        (((bb.2 - aa.2) * (b.1 - a.1) - (bb.1 - aa.1) * (b.2 - a.2)) / ((b.1 - a.1) * (b.1 - a.1) + (b.2 - a.2) * (b.2 - a.2))) =
        ((bb.1 - aa.1) ^ 2 + (bb.2 - aa.2) ^ 2) / ((b.1 - a.1) ^ 2 + (b.2 - a.2) ^ 2) := by
      field_simp
      ring
    intro h0
    apply div_ne_zero n2' n1'
    rw [← this]
    linear_combination h0
  · simp only [Similarity.call, Similarity.div, Similarity.det, Int.cast_one, mul_one, if_true]
    apply Prod.ext <;> simp <;> field_simp <;> ring
  · simp only [Similarity.call, Similarity.div, Similarity.det, Int.cast_one, mul_one, if_true]
    apply Prod.ext <;> simp <;> field_simp <;> ring

theorem similarity_unique {g h : Similarity K} (hg : g.sign = 1) (hh : h.sign = 1) {a b : Vec K} (hab : a ≠ b)
    (h1 : g.call a = h.call a) (h2 : g.call b = h.call b) : g = h := by
  have n1 := normSq_ne_zero (v := b - a) (sub_ne_zero.2 (Ne.symm hab))
  simp only [Prod.fst_sub, Prod.snd_sub] at n1
  simp only [Similarity.call, hg, hh, if_true, Prod.mk.injEq] at h1 h2
  obtain ⟨e1, e2⟩ := h1
  obtain ⟨e3, e4⟩ := h2
  have ha : g.a = h.a := by
    apply mul_left_cancel₀ n1
    linear_combination (b.1 - a.1) * (e3 - e1) + (b.2 - a.2) * (e4 - e2)
  have hb : g.b = h.b := by
    apply mul_left_cancel₀ n1
    linear_combination (b.1 - a.1) * (e4 - e2) - (b.2 - a.2) * (e3 - e1)
  rw [ha, hb] at e1 e2
  exact Similarity.ext ha hb (by linear_combination e1) (by linear_combination e2) (hg.trans hh.symm)

theorem call_mul' (g h : Similarity K) (hg : g.sign = 1) (hh : h.sign = 1) (v : Vec K) :
    (g.mul h).call v = g.call (h.call v) := by
  simp only [Similarity.call, Similarity.mul, hg, hh, Int.cast_one, mul_one, if_true]
  apply Prod.ext <;> simp <;> ring

/-- Orientation preserving similarities keep the side of a line. -/
theorem ccw_call {g : Similarity K} (hg : g.sign = 1) (a b x : Vec K) :
    ccw (g.call b - g.call a) (g.call x - g.call a) = (g.a * g.a + g.b * g.b) * ccw (b - a) (x - a) := by
  simp only [Similarity.call, hg, if_true, ccw, Prod.fst_sub, Prod.snd_sub]
  ring

end

namespace MSurf
variable {L K : Type} [LinearOrder L] [LabelNum L] [Field K] [LinearOrder K] [IsStrictOrderedRing K]

/-- **C04.** For every glued pair of non-degenerate edges of every reachable surface,
`edge_transformation` returns an orientation preserving similarity that maps the start of the edge to the
end of the opposite edge and its end to the start of the opposite edge; the transformation of the
opposite edge is its inverse; and points to the left of the edge are mapped to the right of the opposite
edge. -/
theorem C04_edge_transformation {s : MSurf L (Poly K)} (h : Reachable s) (l : L) (e : ℕ) (l' : L) (e' : ℕ)
    (ho : s.oppositeEdge l (e : Int) = .ok (some (l', (e' : Int)))) (q q' : Poly K)
    (hq : s.polygon l = .ok q) (hq' : s.polygon l' = .ok q')
    (hne : q.edge e ≠ 0) (hne' : q'.edge e' ≠ 0) :
    ∃ g g', s.edgeTransformation l e = .ok g ∧ s.edgeTransformation l' e' = .ok g' ∧
      g.WF ∧ g.sign = 1 ∧
      g.call (q.vertex e) = q'.vertex (e' + 1) ∧ g.call (q.vertex (e + 1)) = q'.vertex e' ∧
      g.mul g' = Similarity.one ∧ g'.mul g = Similarity.one ∧
      ∀ x, 0 < ccw (q.edge e) (x - q.vertex e) ↔ ccw (q'.edge e') (g.call x - q'.vertex e') < 0 := by
  obtain ⟨ho', -, -⟩ := C16_gluings_involutive h l e l' e' ho
  have hv : q.vertex e ≠ q.vertex (e + 1) := fun h0 => hne (by unfold Poly.edge; rw [h0, sub_self])
  have hv' : q'.vertex e' ≠ q'.vertex (e' + 1) := fun h0 => hne' (by unfold Poly.edge; rw [h0, sub_self])
  obtain ⟨g, hg⟩ := (edgeTransformationPts_isSome (q.vertex e) (q.vertex (e + 1)) (q'.vertex (e' + 1))
    (q'.vertex e')).2 ⟨hv, hv'.symm⟩
  obtain ⟨g', hg'⟩ := (edgeTransformationPts_isSome (q'.vertex e') (q'.vertex (e' + 1)) (q.vertex (e + 1))
    (q.vertex e)).2 ⟨hv', hv.symm⟩
  obtain ⟨w1, s1, a1, b1⟩ := edgeTransformationPts_spec _ _ _ _ _ hg
  obtain ⟨w2, s2, a2, b2⟩ := edgeTransformationPts_spec _ _ _ _ _ hg'
  have one_call : ∀ x : Vec K, (Similarity.one : Similarity K).call x = x := by
    intro x; simp [Similarity.one, Similarity.call]
  refine ⟨g, g', ?_, ?_, w1, s1, a1, b1, ?_, ?_, fun x => ?_⟩
  · simp [edgeTransformation, oppositeEdge!, hq, hq', ho, hg, bind, Except.bind, pure, Except.pure]
  · simp [edgeTransformation, oppositeEdge!, hq, hq', ho', hg', bind, Except.bind, pure, Except.pure]
  · apply similarity_unique (by simp [Similarity.mul, s1, s2]) rfl hv'
    · rw [call_mul' _ _ s1 s2, a2, b1, one_call]
    · rw [call_mul' _ _ s1 s2, b2, a1, one_call]
  · apply similarity_unique (by simp [Similarity.mul, s1, s2]) rfl hv
    · rw [call_mul' _ _ s2 s1, a1, b2, one_call]
    · rw [call_mul' _ _ s2 s1, b1, a2, one_call]
  · have key : ccw (q'.edge e') (g.call x - q'.vertex e') =
        -((g.a * g.a + g.b * g.b) * ccw (q.edge e) (x - q.vertex e)) := by
      unfold Poly.edge
      rw [← ccw_call s1, a1, b1]
      simp only [ccw, Prod.fst_sub, Prod.snd_sub]
      ring
    have hpos : 0 < g.a * g.a + g.b * g.b :=
      lt_of_le_of_ne (add_nonneg (mul_self_nonneg _) (mul_self_nonneg _)) (Ne.symm w1.1)
    rw [key, neg_lt_zero, mul_pos_iff_of_pos_left hpos]

/-- Uniqueness: there is no other orientation preserving similarity with these values. -/
theorem C04_unique {s : MSurf L (Poly K)} (h : Reachable s) (l : L) (e : ℕ) (l' : L) (e' : ℕ)
    (ho : s.oppositeEdge l (e : Int) = .ok (some (l', (e' : Int)))) (q q' : Poly K)
    (hq : s.polygon l = .ok q) (hq' : s.polygon l' = .ok q')
    (hne : q.edge e ≠ 0) (hne' : q'.edge e' ≠ 0) (g : Similarity K) (hs : g.sign = 1)
    (h1 : g.call (q.vertex e) = q'.vertex (e' + 1)) (h2 : g.call (q.vertex (e + 1)) = q'.vertex e') :
    s.edgeTransformation l e = .ok g := by
  obtain ⟨g0, -, hg0, -, -, s0, a0, b0, -⟩ := C04_edge_transformation h l e l' e' ho q q' hq hq' hne hne'
  rw [hg0]
  have hv : q.vertex e ≠ q.vertex (e + 1) := fun h0 => hne (by unfold Poly.edge; rw [h0, sub_self])
  rw [similarity_unique s0 hs hv (a0.trans h1.symm) (b0.trans h2.symm)]

/-- A boundary edge has no transformation: a `TypeError`. -/
theorem C04_boundary {s : MSurf L (Poly K)} (l : L) (e : ℕ) (q : Poly K) (hq : s.polygon l = .ok q)
    (ho : s.oppositeEdge l (e : Int) = .ok none) : s.edgeTransformation l e = .error .typeError := by
  simp [edgeTransformation, oppositeEdge!, hq, ho, bind, Except.bind]

example : ∃ g, exTorus.edgeTransformation 0 1 = .ok g ∧ g = ⟨-1, 0, 1, 1, 1⟩ ∧
    exTorus.oppositeEdge 0 1 = .ok (some (1, 1)) ∧ Poly.edge tri 1 ≠ 0 := ⟨_, by decide +kernel, rfl, by decide +kernel, by decide +kernel⟩

end MSurf
end Flat
