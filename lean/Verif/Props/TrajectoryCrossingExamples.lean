import Verif.Props.TrajectoryCrossings
import Verif.Props.CylinderExamples
import Verif.Props.TangentRotation

/-!
# C85: examples and violations
-/

namespace Flat
namespace RSurf
open Poly

theorem exThree_convex : ∀ l p, True → exThree.polygon l = .ok p → p.StrictlyConvex := by
  intro l p _ hp
  unfold exThree at hp
  injection hp with hp
  subst hp
  set p : Poly ℚ := [(0, 0), (1, 0), (1, 1), (0, 1)] with hpd
  have hlen : p.length = 4 := rfl
  constructor
  · intro i j
    rw [← edge_mod, ← vertex_mod p i, ← vertex_mod p j, hlen]
    have hi : i % 4 < 4 := Nat.mod_lt _ (by omega)
    have hj : j % 4 < 4 := Nat.mod_lt _ (by omega)
    generalize i % 4 = a at hi
    generalize j % 4 = b at hj
    interval_cases a <;> interval_cases b <;> decide +kernel
  · intro i
    rw [← edge_mod p i, ← edge_mod p (i + 1), hlen, Nat.add_mod]
    have hi : i % 4 < 4 := Nat.mod_lt _ (by omega)
    generalize i % 4 = a at hi
    interval_cases a <;> decide +kernel

/-- The edges of the surface that is made of three squares. -/
theorem exThree_darts : ∀ d, exThree.IsDart (fun _ => True) d → d ∈ (List.finRange 3).flatMap (fun l => (List.range 4).map fun e => (l, e)) := by
  rintro ⟨l, e⟩ ⟨-, p, hp, he⟩
  unfold exThree at hp
  injection hp with hp
  subst hp
  have he : e < 4 := he
  simp only [List.mem_flatMap, List.mem_map, List.mem_finRange, List.mem_range, true_and, Prod.mk.injEq]
  exact ⟨l, e, he, rfl, rfl⟩

theorem exThree_tangent' : exThree.IsTangent (fun _ => True) ⟨0, (0, 1 / 2), (1, 0), .edgeInterior 3⟩ := ⟨trivial, by decide +kernel⟩

/-- Two closed trajectories that meet the hypotheses of all theorems; they cross in one point. -/
example : ∃ a b R, exThree.IsTraj (fun _ => True) a ∧ exThree.IsTraj (fun _ => True) b ∧ a.isClosed = true ∧ b.isClosed = true ∧
    exThree.intersections 30 false a.segments b.segments = .ok R ∧ R = [{((1 : Fin 3), ((1 / 2 : ℚ), (1 / 2 : ℚ)))}] ∧
    exThree.surfacePoint 30 (1, ((1 / 2 : ℚ), (1 / 2 : ℚ))) = .ok {((1 : Fin 3), ((1 / 2 : ℚ), (1 / 2 : ℚ)))} := by
  obtain ⟨x, s, h1, -, -, h2⟩ := C67_trajectory exThree_closed exThree_tangent
  obtain ⟨a, l, h3, h4, -⟩ := C67_flow_forward exThree_closed 10 h2
  obtain ⟨y, t, k1, -, -, k2⟩ := C67_trajectory exThree_closed exThree_tangent'
  obtain ⟨b, m, k3, k4, -⟩ := C67_flow_forward exThree_closed 10 k2
  have h : (do
      let x ← exThree.trajectory ⟨0, (3 / 4, 0), (3, 2), .edgeInterior 0⟩
      let a ← exThree.flowForward 10 x
      let y ← exThree.trajectory ⟨0, (0, 1 / 2), (1, 0), .edgeInterior 3⟩
      let b ← exThree.flowForward 10 y
      return (a.isClosed, b.isClosed) : Except Err (Bool × Bool)).toOption = some (true, true) := by decide +kernel
  have h' : (do
      let x ← exThree.trajectory ⟨0, (3 / 4, 0), (3, 2), .edgeInterior 0⟩
      let a ← exThree.flowForward 10 x
      let y ← exThree.trajectory ⟨0, (0, 1 / 2), (1, 0), .edgeInterior 3⟩
      let b ← exThree.flowForward 10 y
      exThree.intersections 30 false a.segments b.segments : Except Err (List (Finset (Fin 3 × Vec ℚ)))).toOption =
      some [{((1 : Fin 3), ((1 / 2 : ℚ), (1 / 2 : ℚ)))}] := by decide +kernel
  obtain ⟨R, hR, -⟩ := C85_defined exThree_closed.bordered (b := b.segments) h4.seg exThree_darts (fuel := 30) (by decide) false
  simp only [h1, h3, k1, k3, bind, Except.bind, pure, Except.pure, Except.toOption] at h h'
  rw [hR] at h'
  injection h with h
  injection h' with h'
  obtain ⟨c1, c2⟩ := Prod.mk.inj h
  exact ⟨a, b, R, h4, k4, c1, c2, hR, h', by decide +kernel⟩

/-- **C85, violated** if a polygon is not convex: the first segment ends at `(1, 3/2)`, but the line through it enters the polygon again and meets the
second segment there. -/
theorem C85_nonconvex_violation :
    let s : Seg Unit ℚ := ⟨⟨(), (1 / 2, 2), (1, -1), .edgeInterior 5⟩, ⟨(), (1, 3 / 2), (-1, 1), .edgeInterior 4⟩⟩
    let t : Seg Unit ℚ := ⟨⟨(), (7 / 4, 0), (0, 1), .edgeInterior 1⟩, ⟨(), (7 / 4, 1), (0, -1), .edgeInterior 3⟩⟩
    exL.segment s.start = .ok s ∧ exL.segment t.start = .ok t ∧ exL.intersections 9 false [s] [t] = .ok [{((), (7 / 4, 3 / 4))}] ∧
      ¬ exL.OnSegment s ((), (7 / 4, 3 / 4)) := by
  refine ⟨by decide +kernel, by decide +kernel, by decide +kernel, ?_⟩
  rintro ⟨-, p, y, o, r, hp, hy, r0, r1, hx⟩
  unfold exL at hp
  injection hp with hp
  subst hp
  rw [show Poly.flowToExit ([(0, 0), (1, 0), (2, 0), (2, 1), (1, 1), (1, 2), (0, 2), (0, 1)] : Poly ℚ) (1 / 2, 2) (1, -1) = .ok ((1, 3 / 2), .edgeInterior 4) by
    decide +kernel] at hy
  injection hy with hy
  obtain ⟨rfl, -⟩ := Prod.mk.inj hy
  have := congrArg Prod.fst hx
  simp only [Prod.fst_add, Prod.smul_fst, Prod.fst_sub, smul_eq_mul] at this
  linarith

/-- **C85, violated** if a polygon has an angle equal to π: the first segment runs along an edge and ends at `(1, 0)`, but the next edge is on the same
line, and the second segment meets it there. -/
theorem C85_straight_violation :
    let s : Seg Unit ℚ := ⟨⟨(), (0, 0), (1, 0), .vertex 0⟩, ⟨(), (1, 1), (-1, 0), .vertex 4⟩⟩
    let t : Seg Unit ℚ := ⟨⟨(), (3 / 2, 0), (0, 1), .edgeInterior 1⟩, ⟨(), (3 / 2, 1), (0, -1), .edgeInterior 3⟩⟩
    exMarked.segment s.start = .ok s ∧ exMarked.segment t.start = .ok t ∧ exMarked.intersections 9 false [s] [t] = .ok [{((), (3 / 2, 0)), ((), (3 / 2, 1))}] ∧
      ¬ exMarked.OnSegment s ((), (3 / 2, 0)) ∧ ¬ exMarked.OnSegment s ((), (3 / 2, 1)) := by
  refine ⟨by decide +kernel, by decide +kernel, by decide +kernel, ?_⟩
  constructor <;>
  · rintro ⟨-, p, y, o, r, hp, hy, r0, r1, hx⟩
    unfold exMarked at hp
    injection hp with hp
    subst hp
    rw [show Poly.flowToExit ([(0, 0), (1, 0), (2, 0), (2, 1), (1, 1), (0, 1)] : Poly ℚ) (0, 0) (1, 0) = .ok ((1, 0), .vertex 1) by decide +kernel] at hy
    injection hy with hy
    obtain ⟨rfl, -⟩ := Prod.mk.inj hy
    have := congrArg Prod.fst hx
    simp only [Prod.fst_add, Prod.smul_fst, Prod.fst_sub, smul_eq_mul] at this
    linarith

/-- **C85, violated** for trajectories that are neither closed nor saddle connections: the second segment starts in the middle of the edge along which the
first one runs, but in another polygon. -/
theorem C85_incomplete_violation :
    let s : Seg (Fin 3) ℚ := ⟨⟨2, (0, 0), (1, 0), .vertex 0⟩, ⟨0, (1, 1), (-1, 0), .vertex 2⟩⟩
    let t : Seg (Fin 3) ℚ := ⟨⟨0, (1 / 2, 1), (0, -1), .edgeInterior 2⟩, ⟨0, (1 / 2, 0), (0, 1), .edgeInterior 0⟩⟩
    exThree.segment s.start = .ok s ∧ exThree.segment t.start = .ok t ∧ exThree.intersections 30 true [s] [t] = .ok [] ∧
      exThree.CrossAt s t {(0, (1 / 2, 1)), (2, (1 / 2, 0))} := by
  refine ⟨by decide +kernel, by decide +kernel, by decide +kernel, ?_⟩
  refine ⟨(2, (1 / 2, 0)), (0, (1 / 2, 1)), by simp, by simp, ⟨rfl, _, (1, 0), .vertex 1, 1 / 2, rfl, by decide +kernel, by norm_num, by norm_num, by decide +kernel⟩,
    ⟨rfl, _, (1 / 2, 0), .edgeInterior 0, 0, rfl, by decide +kernel, le_rfl, zero_le_one, by decide +kernel⟩, .inr ?_⟩
  refine ⟨_, 0, 2, ⟨1, 0, 0, 1, 1⟩, rfl, ⟨1 / 2, by norm_num, by norm_num, by decide +kernel⟩, ?_, by decide +kernel, by decide +kernel⟩
  exact ⟨by decide +kernel, ⟨by decide +kernel, .inl rfl⟩, rfl, _, _, rfl, rfl, by decide +kernel, by decide +kernel, by decide +kernel⟩

/-- **C85, violated** at singularities: two saddle connections start at the same singularity, but as they are in different polygons, no intersection is
found even if singularities are to be counted. -/
theorem C85_singularity_violation :
    let s : Seg (Fin 3) ℚ := ⟨⟨2, (0, 0), (1, 0), .vertex 0⟩, ⟨0, (1, 1), (-1, 0), .vertex 2⟩⟩
    let t : Seg (Fin 3) ℚ := ⟨⟨1, (0, 0), (1, 1), .vertex 0⟩, ⟨1, (1, 1), (-1, -1), .vertex 2⟩⟩
    exThree.trajectory s.start = .ok ⟨[s], none, none⟩ ∧ exThree.trajectory t.start = .ok ⟨[t], none, none⟩ ∧
      exThree.intersections 30 true [s] [t] = .ok [] ∧ exThree.intersects 30 true [s] [t] = .ok false ∧
      ∃ P, exThree.surfacePoint 30 (2, ((0 : ℚ), (0 : ℚ))) = .ok P ∧ exThree.surfacePoint 30 (1, ((0 : ℚ), (0 : ℚ))) = .ok P := by
  refine ⟨by decide +kernel, by decide +kernel, by decide +kernel, by decide +kernel, ?_⟩
  have h : (exThree.surfacePoint 30 (2, ((0 : ℚ), (0 : ℚ)))).toOption.bind (fun P =>
      (exThree.surfacePoint 30 (1, ((0 : ℚ), (0 : ℚ)))).toOption.map fun Q => decide (P = Q)) = some true := by decide +kernel
  cases h1 : exThree.surfacePoint 30 (2, ((0 : ℚ), (0 : ℚ))) with
  | error e => rw [h1] at h; cases h
  | ok P =>
    cases h2 : exThree.surfacePoint 30 (1, ((0 : ℚ), (0 : ℚ))) with
    | error e => rw [h1, h2] at h; cases h
    | ok Q =>
      rw [h1, h2] at h
      simp only [Except.toOption, Option.bind_some, Option.map_some, Option.some.injEq, decide_eq_true_eq] at h
      exact ⟨P, rfl, by rw [h]⟩

end RSurf
end Flat
