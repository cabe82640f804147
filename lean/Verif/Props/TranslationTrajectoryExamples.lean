import Verif.Props.TranslationTrajectory
import Verif.Props.SaddleExamples
import Verif.Props.TangentRotation

/-!
# C72: examples and violations
-/

namespace Flat
namespace RSurf
open Poly

/-- In the unit square, lines that go up and to the right enter through the bottom and the left edge and leave through the right and the top
edge. -/
example : (Poly.flowMap ([(0, 0), (1, 0), (1, 1), (0, 1)] : Poly ℚ) (1, 2)).toOption.map (fun T => (T.botLabels, T.botLengths, T.topLabels, T.topLengths)) =
    some ([3, 0], [1, 2], [2, 1], [2, 1]) := by decide +kernel

example : ∃ T, Poly.flowMap ([(0, 0), (1, 0), (1, 1), (0, 1)] : Poly ℚ) (1, 2) = .ok T ∧ T.forwardImage 0 (1 / 2) = .ok (2, 3 / 2) := by
  obtain ⟨T, h, -⟩ := C72_flow_map exSq_valid (exSq_strict () _ trivial rfl).1 (d := ((1, 2) : Vec ℚ)) (by decide)
  refine ⟨T, h, ?_⟩
  have : (Poly.flowMap ([(0, 0), (1, 0), (1, 1), (0, 1)] : Poly ℚ) (1, 2) >>= fun T => T.forwardImage 0 (1 / 2)) = .ok (2, 3 / 2) := by decide +kernel
  rw [h] at this
  exact this

theorem exTorus2_convex : exTorus2.AllConvex (fun _ => True) := by
  intro l p _ hp i j
  unfold exTorus2 at hp
  injection hp with hp
  subst hp
  rw [← edge_mod, ← vertex_mod _ i, ← vertex_mod _ j]
  cases l
  · have hi : i % 3 < 3 := Nat.mod_lt _ (by decide)
    have hj : j % 3 < 3 := Nat.mod_lt _ (by decide)
    show 0 ≤ ccw (Poly.edge MSurf.tri (i % 3)) (Poly.vertex MSurf.tri (j % 3) - Poly.vertex MSurf.tri (i % 3))
    generalize i % 3 = a at *
    generalize j % 3 = b at *
    interval_cases a <;> interval_cases b <;> decide +kernel
  · have hi : i % 3 < 3 := Nat.mod_lt _ (by decide)
    have hj : j % 3 < 3 := Nat.mod_lt _ (by decide)
    show 0 ≤ ccw (Poly.edge ([(1, 1), (0, 1), (1, 0)] : Poly ℚ) (i % 3))
      (Poly.vertex ([(1, 1), (0, 1), (1, 0)] : Poly ℚ) (j % 3) - Poly.vertex ([(1, 1), (0, 1), (1, 0)] : Poly ℚ) (i % 3))
    generalize i % 3 = a at *
    generalize j % 3 = b at *
    interval_cases a <;> interval_cases b <;> decide +kernel

theorem exTorus2_triangles (l : Bool) (p : Poly ℚ) (_ : True) (hp : exTorus2.polygon l = .ok p) : p.length = 3 := by
  unfold exTorus2 at hp
  injection hp with hp
  subst hp
  cases l <;> rfl

/-- The torus built from two triangles: from a point inside of one triangle, back and forth. -/
example (steps : List ℤ) : ∃ x0 y0 x y, exTorus2.trajectory ⟨false, (1 / 4, 1 / 4), (2, 1), .interior⟩ = .ok x0 ∧
    exTorus2.ttNew ⟨false, (1 / 4, 1 / 4), (2, 1), .interior⟩ = .ok y0 ∧ steps.foldlM (fun x n => exTorus2.flowSteps n x) x0 = .ok x ∧
    steps.foldlM (fun y n => exTorus2.ttFlow n y) y0 = .ok y ∧ exTorus2.ttSegments y = .ok x.segments ∧
    exTorus2.ttIsForwardSeparatrix y = .ok x.forward.isNone ∧ ttIsBackwardSeparatrix y = .ok x.backward.isNone ∧
    exTorus2.ttIsSaddleConnection y = .ok x.isSaddleConnection ∧ (x.forward ≠ none → exTorus2.ttIsClosed y = .ok x.isClosed) :=
  C72_triangles exTorus2_closed exTorus2_translation exTorus2_convex exTorus2_triangles ⟨trivial, by decide +kernel⟩ steps

/-- This trajectory closes up. -/
example : (do
    let y ← exTorus2.ttNew ⟨false, (1 / 4, 1 / 4), (2, 1), .interior⟩
    let y ← exTorus2.ttFlow 2 y
    let y ← exTorus2.ttFlow (-10) y
    let s ← exTorus2.ttSegments y
    return (← exTorus2.ttIsClosed y, s.map fun s => (s.start.label, s.start.point)) : Except Err _) =
    .ok (true, [(true, (1 / 4, 3 / 4)), (false, (3 / 4, 0)), (true, (11 / 12, 1 / 12)), (false, (0, 1 / 8)), (true, (7 / 12, 5 / 12)), (false, (0, 5 / 8))]) := by
  decide +kernel

/-- The unit square: trajectories with the same segments. -/
example : ∃ x y, exSq.trajectory ⟨(), (0, 0), (1, 2), .vertex 0⟩ = .ok x ∧ exSq.ttNew ⟨(), (0, 0), (1, 2), .vertex 0⟩ = .ok y ∧ exSq.Mirrors (fun _ => True) x y ∧
    ∃ z w, exSq.flowSteps 1 x = .ok z ∧ exSq.ttFlow 1 y = .ok w ∧ exSq.ttSegments w = .ok z.segments := by
  have hc : exSq.AllConvex (fun _ => True) := fun l p h hp => (exSq_strict l p h hp).1
  obtain ⟨x, y, h1, h2, h3⟩ := C72_new exSq_closed hc (t := ⟨(), (0, 0), (1, 2), .vertex 0⟩) ⟨trivial, by decide +kernel⟩
  have hx : exSq.trajectory ⟨(), (0, 0), (1, 2), .vertex 0⟩ = .ok ⟨[⟨⟨(), (0, 0), (1, 2), .vertex 0⟩, ⟨(), (1 / 2, 1), (-1, -2), .edgeInterior 2⟩⟩],
      some ⟨(), (1 / 2, 0), (1, 2), .edgeInterior 0⟩, none⟩ := by decide +kernel
  rw [hx] at h1; injection h1 with h1; subst h1
  have hz : exSq.flowSteps 1 ⟨[⟨⟨(), (0, 0), (1, 2), .vertex 0⟩, ⟨(), (1 / 2, 1), (-1, -2), .edgeInterior 2⟩⟩], some ⟨(), (1 / 2, 0), (1, 2), .edgeInterior 0⟩, none⟩ =
      .ok ⟨[⟨⟨(), (0, 0), (1, 2), .vertex 0⟩, ⟨(), (1 / 2, 1), (-1, -2), .edgeInterior 2⟩⟩,
        ⟨⟨(), (1 / 2, 0), (1, 2), .edgeInterior 0⟩, ⟨(), (1, 1), (-1, -2), .vertex 2⟩⟩], none, none⟩ := by decide +kernel
  obtain ⟨w, k1, k2⟩ := C72_flow_partial exSq_closed exSq_translation hc h3 1 hz
    (fun _ _ last hl => by
      simp only [List.getLast?_cons_cons, List.getLast?_singleton, Option.some.injEq] at hl
      subst hl
      intro p e k hp he hk hkw hbt
      unfold exSq at hp
      injection hp with hp
      subst hp
      have he : e = 0 := by
        rcases he with he | he
        · injection he with he; exact he.symm
        · cases he
      subst he
      have hk : k < 4 := hk
      revert hkw hbt
      interval_cases k <;> decide +kernel)
    (fun h => by omega)
  exact ⟨_, y, hx, h2, h3, _, w, hz, k1, C72_segments exSq_closed hc k2⟩

/-- A quadrilateral with a long edge and its image under a half turn. -/
def exLong : RSurf Bool ℚ where
  polygon l := .ok (if l then [(0, 0), (1, -1), (2, -1), (3, 0)] else [(0, 0), (3, 0), (2, 1), (1, 1)])
  opp l e := .ok (some (!l, if l then (e + 1) % 4 else (e + 3) % 4))

theorem exLong_closed : exLong.Closed (fun _ => True) where
  poly l _ := by
    cases l
    · exact ⟨_, rfl, ((Poly.ofVertices_iff ([(0, 0), (3, 0), (2, 1), (1, 1)] : Poly ℚ) [(0, 0), (3, 0), (2, 1), (1, 1)]).1 (by decide +kernel)).2⟩
    · exact ⟨_, rfl, ((Poly.ofVertices_iff ([(0, 0), (1, -1), (2, -1), (3, 0)] : Poly ℚ) [(0, 0), (1, -1), (2, -1), (3, 0)]).1 (by decide +kernel)).2⟩
  glue l p e _ hp he := by
    unfold exLong at hp
    injection hp with hp
    subst hp
    cases l
    · have he : e < 4 := he
      refine ⟨true, (e + 3) % 4, _, rfl, trivial, rfl, Nat.mod_lt _ (by decide), ?_⟩
      unfold exLong
      simp only [Bool.not_true, if_true]
      rw [show ((e + 3) % 4 + 1) % 4 = e by omega]
    · have he : e < 4 := he
      refine ⟨false, (e + 1) % 4, _, rfl, trivial, rfl, Nat.mod_lt _ (by decide), ?_⟩
      unfold exLong
      simp only [Bool.not_false, Bool.false_eq_true, if_false]
      rw [show ((e + 1) % 4 + 3) % 4 = e by omega]

theorem exLong_translation : exLong.Translation (fun _ => True) := by
  intro l e l' e' p p' _ hp he ho hp'
  unfold exLong at hp ho hp'
  injection ho with ho; injection ho with ho; injection ho with h1 h2
  injection hp with hp
  injection hp' with hp'
  subst hp hp' h1 h2
  cases l
  · have he : e < 4 := he
    interval_cases e <;> decide +kernel
  · have he : e < 4 := he
    interval_cases e <;> decide +kernel

theorem exLong_convex : exLong.AllConvex (fun _ => True) := by
  intro l p _ hp i j
  unfold exLong at hp
  injection hp with hp
  subst hp
  rw [← edge_mod, ← vertex_mod _ i, ← vertex_mod _ j]
  cases l
  · have hi : i % 4 < 4 := Nat.mod_lt _ (by decide)
    have hj : j % 4 < 4 := Nat.mod_lt _ (by decide)
    show 0 ≤ ccw (Poly.edge ([(0, 0), (3, 0), (2, 1), (1, 1)] : Poly ℚ) (i % 4))
      (Poly.vertex ([(0, 0), (3, 0), (2, 1), (1, 1)] : Poly ℚ) (j % 4) - Poly.vertex ([(0, 0), (3, 0), (2, 1), (1, 1)] : Poly ℚ) (i % 4))
    generalize i % 4 = a at *
    generalize j % 4 = b at *
    interval_cases a <;> interval_cases b <;> decide +kernel
  · have hi : i % 4 < 4 := Nat.mod_lt _ (by decide)
    have hj : j % 4 < 4 := Nat.mod_lt _ (by decide)
    show 0 ≤ ccw (Poly.edge ([(0, 0), (1, -1), (2, -1), (3, 0)] : Poly ℚ) (i % 4))
      (Poly.vertex ([(0, 0), (1, -1), (2, -1), (3, 0)] : Poly ℚ) (j % 4) - Poly.vertex ([(0, 0), (1, -1), (2, -1), (3, 0)] : Poly ℚ) (i % 4))
    generalize i % 4 = a at *
    generalize j % 4 = b at *
    interval_cases a <;> interval_cases b <;> decide +kernel

/-- Up through a point of the long edge, between two vertices. -/
def exLongStart : TVec Bool ℚ := ⟨false, (2, 0), (0, 1), .edgeInterior 0⟩

/-- **C72** fails in general: this is on a saddle connection with two segments; followed through interval maps, the line does not stop at
the vertices, and with these two segments it is reported as closed and not as a saddle connection. -/
theorem C72_missed_vertex_violation :
    exLong.Closed (fun _ => True) ∧ exLong.Translation (fun _ => True) ∧ exLong.AllConvex (fun _ => True) ∧ exLong.IsTangent (fun _ => True) exLongStart ∧
    (do
      let x ← exLong.trajectory exLongStart
      let x ← exLong.flowSteps 10 x
      let x ← exLong.flowSteps (-10) x
      return (x.isSaddleConnection, x.segments.length)) = .ok (true, 2) ∧
    (do
      let y ← exLong.ttNew exLongStart
      return (← exLong.ttIsForwardSeparatrix y, (← exLong.ttSegments (← exLong.ttFlow 1 y)).length)) = .ok (false, 2) ∧
    (do
      let y ← exLong.ttNew exLongStart
      let y ← exLong.ttFlow (-1) y
      return (← ttIsBackwardSeparatrix y, ← exLong.ttIsSaddleConnection y, ← exLong.ttIsClosed y)) = .ok (false, false, true) :=
  ⟨exLong_closed, exLong_translation, exLong_convex, ⟨trivial, by decide +kernel⟩, by decide +kernel, by decide +kernel, by decide +kernel⟩

/-- A square torus with marked points in the middle of two sides. -/
def exMidpoints : RSurf Unit ℚ where
  polygon _ := .ok [(0, 0), (1, 0), (1, 1 / 2), (1, 1), (0, 1), (0, 1 / 2)]
  opp _ e := .ok (some ((), if e = 0 then 3 else if e = 3 then 0 else if e = 1 then 5 else if e = 5 then 1 else if e = 2 then 4 else 2))

/-- **C72** fails for `is_closed`: the horizontal line between the marked points is a saddle connection and not a closed geodesic in the sense of `StraightLineTrajectory`. -/
theorem C72_closed_violation :
    (do
      let x ← exMidpoints.trajectory ⟨(), (0, 1 / 2), (1, 0), .vertex 5⟩
      return (x.isSaddleConnection, x.isClosed)) = .ok (true, false) ∧
    (do
      let y ← exMidpoints.ttNew ⟨(), (0, 1 / 2), (1, 0), .vertex 5⟩
      return (← exMidpoints.ttIsSaddleConnection y, ← exMidpoints.ttIsClosed y)) = .ok (true, true) := by
  constructor <;> decide +kernel

end RSurf
end Flat
