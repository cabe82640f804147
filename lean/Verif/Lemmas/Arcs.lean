import Verif.Lemmas.Angle
import Mathlib.MeasureTheory.Measure.Lebesgue.Basic
import Mathlib.Topology.Algebra.Order.Archimedean

/-!
# Arcs of a circle

Arcs that do not overlap have a total length of at most a full turn.
-/

namespace Flat
open Real MeasureTheory Set

/-- The directions in `[0, 2π]` on the arc of length `c.2` that starts at the direction `c.1`. -/
def arc (c : ℝ × ℝ) : Set ℝ := if c.1 + c.2 ≤ 2 * π then Ioo c.1 (c.1 + c.2) else Ioo c.1 (2 * π) ∪ Ioo 0 (c.1 + c.2 - 2 * π)

theorem measurableSet_arc (c : ℝ × ℝ) : MeasurableSet (arc c) := by
  unfold arc
  split_ifs
  · exact measurableSet_Ioo
  · exact measurableSet_Ioo.union measurableSet_Ioo

theorem arc_subset {c : ℝ × ℝ} (h0 : 0 ≤ c.1) : arc c ⊆ Icc 0 (2 * π) ∨ c.1 ≥ 2 * π ∨ c.2 ≥ 2 * π := by
  by_cases h2 : c.1 < 2 * π
  · by_cases h3 : c.2 < 2 * π
    · left
      unfold arc
      intro x hx
      split_ifs at hx with h
      · exact ⟨h0.trans hx.1.le, hx.2.le.trans h⟩
      · rcases hx with hx | hx
        · exact ⟨h0.trans hx.1.le, hx.2.le⟩
        · exact ⟨hx.1.le, by linarith [hx.2]⟩
    · right; right; linarith
  · right; left; linarith

theorem volume_arc {c : ℝ × ℝ} (h1 : c.1 < 2 * π) (h2 : 0 ≤ c.2) (h3 : c.2 < 2 * π) : volume (arc c) = ENNReal.ofReal c.2 := by
  unfold arc
  split_ifs with h
  · rw [Real.volume_Ioo]; congr 1; ring
  · push Not at h
    rw [measure_union ?_ measurableSet_Ioo, Real.volume_Ioo, Real.volume_Ioo, ← ENNReal.ofReal_add (by linarith) (by linarith)]
    · congr 1; ring
    · rw [Set.disjoint_left]
      intro x hx hx'
      linarith [hx.1, hx'.2]

/-- Arcs that do not overlap. -/
theorem arcs_le (C : List (ℝ × ℝ)) (hC : ∀ c ∈ C, 0 ≤ c.1 ∧ c.1 < 2 * π ∧ 0 ≤ c.2 ∧ c.2 < 2 * π)
    (hd : C.Pairwise (fun c c' => Disjoint (arc c) (arc c'))) : (C.map Prod.snd).sum ≤ 2 * π := by
  have key : ∀ C : List (ℝ × ℝ), (∀ c ∈ C, 0 ≤ c.1 ∧ c.1 < 2 * π ∧ 0 ≤ c.2 ∧ c.2 < 2 * π) → C.Pairwise (fun c c' => Disjoint (arc c) (arc c')) →
      ENNReal.ofReal (C.map Prod.snd).sum = volume {x | ∃ c ∈ C, x ∈ arc c} ∧ MeasurableSet {x | ∃ c ∈ C, x ∈ arc c} ∧
        0 ≤ (C.map Prod.snd).sum := by
    intro C
    induction C with
    | nil => intro _ _; simp
    | cons c C ih =>
      intro hC hd
      rw [List.pairwise_cons] at hd
      obtain ⟨i1, i2, i3⟩ := ih (fun c' h => hC c' (List.mem_cons_of_mem _ h)) hd.2
      obtain ⟨h0, h1, h2, h3⟩ := hC c List.mem_cons_self
      have he : {x | ∃ c' ∈ c :: C, x ∈ arc c'} = arc c ∪ {x | ∃ c' ∈ C, x ∈ arc c'} := by
        ext x
        simp only [List.mem_cons, exists_eq_or_imp, mem_setOf_eq, mem_union]
      rw [he, List.map_cons, List.sum_cons]
      refine ⟨?_, (measurableSet_arc c).union i2, add_nonneg h2 i3⟩
      rw [measure_union ?_ i2, ← i1, volume_arc h1 h2 h3, ENNReal.ofReal_add h2 i3]
      rw [Set.disjoint_left]
      rintro x hx ⟨c', hc', hx'⟩
      exact Set.disjoint_left.1 (hd.1 c' hc') hx hx'
  obtain ⟨k1, -, k3⟩ := key C hC hd
  have hsub : {x | ∃ c ∈ C, x ∈ arc c} ⊆ Icc 0 (2 * π) := by
    rintro x ⟨c, hc, hx⟩
    obtain ⟨h0, h1, h2, h3⟩ := hC c hc
    rcases arc_subset h0 with h | h | h
    · exact h hx
    · linarith
    · linarith
  have hle := measure_mono (μ := volume) hsub
  rw [← k1, Real.volume_Icc, sub_zero] at hle
  exact (ENNReal.ofReal_le_ofReal_iff (by have := Real.pi_pos; positivity)).1 hle

/-- Directions on an arc that is shorter than half a turn. -/
theorem sin_arc {c : ℝ × ℝ} (h1 : 0 ≤ c.1) (h2 : c.1 < 2 * π) (h3 : c.2 < π) {θ : ℝ} (h : θ ∈ arc c) :
    0 < sin (θ - c.1) ∧ 0 < sin (c.1 + c.2 - θ) := by
  unfold arc at h
  split_ifs at h with hc
  · exact ⟨Real.sin_pos_of_pos_of_lt_pi (by linarith [h.1]) (by linarith [h.2]), Real.sin_pos_of_pos_of_lt_pi (by linarith [h.2]) (by linarith [h.1])⟩
  · push Not at hc
    rcases h with h | h
    · exact ⟨Real.sin_pos_of_pos_of_lt_pi (by linarith [h.1]) (by linarith [h.2]), Real.sin_pos_of_pos_of_lt_pi (by linarith [h.2]) (by linarith [h.1])⟩
    · rw [← Real.sin_add_two_pi, ← Real.sin_sub_two_pi (c.1 + c.2 - θ)]
      exact ⟨Real.sin_pos_of_pos_of_lt_pi (by linarith [h.1]) (by linarith [h.2]), Real.sin_pos_of_pos_of_lt_pi (by linarith [h.2]) (by linarith [h.1])⟩

section
variable {K : Type} [Field K] [LinearOrder K] [IsStrictOrderedRing K] {ι : K →+* ℝ}

/-- Two open sectors that meet have a common vector with rational coordinates. -/
theorem exists_common (hι : StrictMono ι) {x y x' y' : Vec K} {d : ℝ × ℝ} (h1 : 0 < ι x.1 * d.2 - ι x.2 * d.1) (h2 : 0 < d.1 * ι y.2 - d.2 * ι y.1)
    (h3 : 0 < ι x'.1 * d.2 - ι x'.2 * d.1) (h4 : 0 < d.1 * ι y'.2 - d.2 * ι y'.1) :
    ∃ w : Vec K, 0 < ccw x w ∧ 0 < ccw w y ∧ 0 < ccw x' w ∧ 0 < ccw w y' := by
  let U : Set (ℝ × ℝ) := {d | 0 < ι x.1 * d.2 - ι x.2 * d.1} ∩ {d | 0 < d.1 * ι y.2 - d.2 * ι y.1} ∩
    ({d | 0 < ι x'.1 * d.2 - ι x'.2 * d.1} ∩ {d | 0 < d.1 * ι y'.2 - d.2 * ι y'.1})
  have hU : IsOpen U := by
    refine (IsOpen.inter ?_ ?_).inter (IsOpen.inter ?_ ?_) <;> exact isOpen_lt (by fun_prop) (by fun_prop)
  have hdense : DenseRange (Prod.map (fun q : ℚ => (q : ℝ)) (fun q : ℚ => (q : ℝ))) := Rat.denseRange_cast.prodMap Rat.denseRange_cast
  obtain ⟨q, ⟨g1, g2⟩, g3, g4⟩ := hdense.exists_mem_open hU ⟨d, ⟨h1, h2⟩, h3, h4⟩
  have e : ∀ a b : Vec K, ι (ccw a b) = ι a.1 * ι b.2 - ι a.2 * ι b.1 := fun a b => (map_ccw a b).symm
  refine ⟨((q.1 : K), (q.2 : K)), ?_, ?_, ?_, ?_⟩ <;> rw [← hι.lt_iff_lt, map_zero, e] <;> simp only [map_ratCast]
  · exact g1
  · exact g2
  · exact g3
  · exact g4

/-- The direction of a vector as a number. -/
theorem exists_dir (v : Vec K) : ∃ a : ℝ, 0 ≤ a ∧ a < 2 * π ∧ (a : Real.Angle) = vdir ι v := by
  by_cases h : 0 ≤ (cplx ι v).arg
  · exact ⟨_, h, by linarith [Complex.arg_le_pi (cplx ι v), Real.pi_pos], rfl⟩
  · push Not at h
    exact ⟨(cplx ι v).arg + 2 * π, by linarith [Complex.neg_pi_lt_arg (cplx ι v), Real.pi_pos], by linarith, by simp [vdir]⟩

theorem cos_sin_dir {v : Vec K} (hv : v ≠ 0) {a : ℝ} (ha : (a : Real.Angle) = vdir ι v) :
    ι v.1 = ‖cplx ι v‖ * cos a ∧ ι v.2 = ‖cplx ι v‖ * sin a := by
  have n1 := norm_pos_iff.2 (cplx_ne_zero ι hv)
  have hc : cos a = cos (cplx ι v).arg := by rw [← Real.Angle.cos_coe, ha]; rfl
  have hs : sin a = sin (cplx ι v).arg := by rw [← Real.Angle.sin_coe, ha]; rfl
  rw [hc, hs, Complex.cos_arg (cplx_ne_zero ι hv), Complex.sin_arg, mul_div_cancel₀ _ n1.ne', mul_div_cancel₀ _ n1.ne']
  exact ⟨rfl, rfl⟩

/-- Sectors, each smaller than half a turn, that do not meet have a total angle of at most a full turn. -/
theorem sectors_le (hι : StrictMono ι) (C : List (Vec K × Vec K)) (hC : ∀ c ∈ C, 0 < ccw c.1 c.2)
    (hd : C.Pairwise (fun c c' => ¬ ∃ w : Vec K, 0 < ccw c.1 w ∧ 0 < ccw w c.2 ∧ 0 < ccw c'.1 w ∧ 0 < ccw w c'.2)) :
    (C.map (fun c => 2 * π * angleOf ι c.1 c.2)).sum ≤ 2 * π := by
  choose a ha using fun v : Vec K => exists_dir (ι := ι) v
  have hpi := Real.pi_pos
  have := arcs_le (C.map (fun c => (a c.1, 2 * π * angleOf ι c.1 c.2))) ?_ ?_
  · rwa [List.map_map] at this
  · intro c hc
    obtain ⟨c', hc', rfl⟩ := List.mem_map.1 hc
    have h1 := ha c'.1
    have h2 := angleOf_nonneg ι c'.1 c'.2
    have h3 := angleOf_lt_one ι c'.1 c'.2
    exact ⟨h1.1, h1.2.1, by simp only; positivity, by simp only; nlinarith⟩
  · rw [List.pairwise_map]
    refine hd.imp_of_mem (fun {c c'} hc hc' hn => ?_)
    rw [Set.disjoint_left]
    intro θ hθ hθ'
    apply hn
    have spec : ∀ c ∈ C, θ ∈ arc (a c.1, 2 * π * angleOf ι c.1 c.2) → 0 < ι c.1.1 * sin θ - ι c.1.2 * cos θ ∧
        0 < cos θ * ι c.2.2 - sin θ * ι c.2.1 := by
      intro c hc hθ
      have hcc := hC c hc
      have hu : c.1 ≠ 0 := by intro h; rw [h] at hcc; simp [ccw] at hcc
      have hv : c.2 ≠ 0 := by intro h; rw [h] at hcc; simp [ccw] at hcc
      have n1 := norm_pos_iff.2 (cplx_ne_zero ι hu)
      have n2 := norm_pos_iff.2 (cplx_ne_zero ι hv)
      obtain ⟨a1, a2, a3⟩ := ha c.1
      obtain ⟨s1, s2⟩ := sin_arc (c := (a c.1, 2 * π * angleOf ι c.1 c.2)) a1 a2 (by
        have := (angleOf_pos hι hcc).2; simp only; nlinarith) hθ
      obtain ⟨x1, x2⟩ := cos_sin_dir hu a3
      have hy : ((a c.1 + 2 * π * angleOf ι c.1 c.2 : ℝ) : Real.Angle) = vdir ι c.2 := by
        rw [Real.Angle.coe_add, a3, angleOf_vdir ι hu hv]; abel
      obtain ⟨y1, y2⟩ := cos_sin_dir hv hy
      constructor
      · rw [x1, x2, show ‖cplx ι c.1‖ * cos (a c.1) * sin θ - ‖cplx ι c.1‖ * sin (a c.1) * cos θ = ‖cplx ι c.1‖ * sin (θ - a c.1) by
          rw [Real.sin_sub]; ring]
        exact mul_pos n1 s1
      · rw [y1, y2]
        simp only at s2
        rw [Real.sin_sub] at s2
        nlinarith [mul_pos n2 s2]
    obtain ⟨g1, g2⟩ := spec c hc hθ
    obtain ⟨g3, g4⟩ := spec c' hc' hθ'
    exact exists_common hι (d := (cos θ, sin θ)) g1 g2 g3 g4

end
end Flat
