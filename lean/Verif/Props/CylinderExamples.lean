import Verif.Props.Cylinder
import Verif.Props.SaddleExamples

/-!
# C69: examples and violations
-/

namespace Flat
namespace RSurf
open Poly

/-- A surface of genus two made from three squares in the shape of an L: the second square is to the right of the first, the third is above it. -/
def exThree : RSurf (Fin 3) ℚ where
  polygon _ := .ok [(0, 0), (1, 0), (1, 1), (0, 1)]
  opp l e := if e < 4 then .ok (some (if e % 2 = 1 then Equiv.swap 0 1 l else Equiv.swap 0 2 l, (e + 2) % 4)) else .error .valueError

theorem exThree_closed : exThree.Closed (fun _ => True) where
  poly _ _ := ⟨_, rfl, exSq_valid⟩
  glue l p e _ hp he := by
    unfold exThree at hp
    injection hp with hp
    subst hp
    have he' : e < 4 := he
    refine ⟨if e % 2 = 1 then Equiv.swap 0 1 l else Equiv.swap 0 2 l, (e + 2) % 4, _, ?_, trivial, rfl, Nat.mod_lt _ (by decide), ?_⟩
    · unfold exThree
      dsimp only
      rw [if_pos he']
    · revert l
      have : ∀ e < 4, ∀ l : Fin 3, exThree.opp (if e % 2 = 1 then Equiv.swap 0 1 l else Equiv.swap 0 2 l) ((e + 2) % 4) = .ok (some (l, e)) := by decide +kernel
      exact fun l => this e he' l

theorem exThree_translation : exThree.Translation (fun _ => True) := by
  intro l e l' e' p p' _ hp he ho hp'
  unfold exThree at hp ho hp'
  injection hp with hp
  injection hp' with hp'
  subst hp hp'
  have he : e < 4 := he
  dsimp only at ho
  rw [if_pos he] at ho
  injection ho with ho; injection ho with ho; injection ho with h1 h2
  subst h2
  interval_cases e <;> decide +kernel

theorem exThree_strict : exThree.AllStrict (fun _ => True) := fun _ p h hp => exSq_strict () p h hp

theorem exThree_edges : exThree.EdgesOnly (fun _ => True) := by
  intro l e c _ h
  refine ⟨_, rfl, ?_⟩
  unfold exThree at h
  dsimp only at h
  by_cases h1 : e < 4
  · exact h1
  · rw [if_neg h1] at h
    cases h

/-- A cylinder that goes through two of the squares twice. -/
theorem exThree_cylinder : ((exThree.cylinder exKinds 0 [1, 1, 2, 1, 2]).toOption.map fun c => (c.polygons, c.right, c.area)) =
    some ([(0, [(1 / 2, 0), (1, 0), (1, 1 / 3)]), (1, [(0, 1 / 3), (0, 0), (1, 2 / 3), (1, 1)]), (0, [(0, 1), (0, 2 / 3), (1 / 2, 1)]),
      (2, [(0, 0), (1 / 2, 0), (1, 1 / 3), (1, 2 / 3)]), (2, [(0, 2 / 3), (0, 1 / 3), (1, 1), (1 / 2, 1)])],
      [⟨(1, 0), (1, 2 / 3), (2, 2), (-1, -2 / 3), (3, 2), (-3, -2)⟩], 1) := by decide +kernel

/-- `C69_core`: the cylinder above exists. -/
example : ∃ c, exThree.cylinder exKinds 0 [1, 1, 2, 1, 2] = .ok c := by
  have h := exThree_cylinder
  cases hc : exThree.cylinder exKinds 0 [1, 1, 2, 1, 2] with
  | error e => rw [hc] at h; cases h
  | ok c => exact ⟨c, rfl⟩

/-- A tangent vector on an edge. -/
theorem exThree_tangent : exThree.IsTangent (fun _ => True) ⟨0, (3 / 4, 0), (3, 2), .edgeInterior 0⟩ := ⟨trivial, by decide +kernel⟩

/-- The hypotheses of `C69_trajectory`, and (by `core_of_closed`) those of `C69_constructor`, `C69_polygons`, `C69_area`, `C69_holonomy` and
`C69_embedded`. -/
theorem exThree_closed_line : ∃ x first, exThree.IsTraj (fun _ => True) x ∧ x.segments.head? = some first ∧ x.isClosed = true ∧ x.segments.length = 5 ∧
    (x.segments.map fun s => (s.start.label, s.start.point)).Nodup ∧ first.start.label = 0 ∧ exThree.cylinderWord x = .ok (0, [1, 1, 2, 1, 2]) := by
  obtain ⟨x, s, h1, -, -, h2⟩ := C67_trajectory exThree_closed exThree_tangent
  obtain ⟨y, l, h3, h4, -⟩ := C67_flow_forward exThree_closed 10 h2
  have h5 : (exThree.trajectory ⟨0, (3 / 4, 0), (3, 2), .edgeInterior 0⟩ >>= exThree.flowForward 10).toOption.map (fun y =>
      y.segments.map fun s => (s.start.label, s.start.point)) = some [(0, (3 / 4, 0)), (1, (0, 1 / 6)), (0, (0, 5 / 6)), (2, (1 / 4, 0)), (2, (0, 1 / 2))] := by
    decide +kernel
  have h6 : (exThree.trajectory ⟨0, (3 / 4, 0), (3, 2), .edgeInterior 0⟩ >>= exThree.flowForward 10).toOption.map (fun y =>
      (y.isClosed, (exThree.cylinderWord y).toOption)) = some (true, some (0, [1, 1, 2, 1, 2])) := by decide +kernel
  rw [h1] at h5 h6
  simp only [bind, Except.bind, h3] at h5 h6
  injection h5 with h5
  dsimp only at h5
  injection h6 with h6
  obtain ⟨h7, h8⟩ := Prod.mk.inj h6
  have h9 : exThree.cylinderWord y = .ok (0, [1, 1, 2, 1, 2]) := by
    cases hc : exThree.cylinderWord y with
    | error e => rw [hc] at h8; cases h8
    | ok c =>
      rw [hc] at h8
      injection h8 with h8
      rw [h8]
  cases hs : y.segments with
  | nil => rw [hs] at h5; cases h5
  | cons a l =>
    refine ⟨y, a, h4, by rw [hs]; rfl, h7, ?_, ?_, ?_, h9⟩
    · simpa using congrArg List.length h5
    · rw [h5]
      decide +kernel
    · rw [hs, List.map_cons] at h5
      injection h5 with h5
      exact (Prod.mk.inj h5).1

/-- **C69.** A list of edges that goes around twice is accepted; the area is the one of the cylinder that goes around twice, but the holonomy is the
one of the cylinder that goes around once. -/
theorem C69_repeated_violation : (exSq.cylinder exKinds () [1, 1]).toOption.map (fun c => (c.area, c.holonomy.toOption)) = some (2, some (1, 0)) ∧
    (exSq.cylinder exKinds () [1]).toOption.map (fun c => (c.area, c.holonomy.toOption)) = some (1, some (1, 0)) := by decide +kernel

/-- **C69.** A vertex with the angle π is not seen on the boundary of a cylinder: the holonomy of the cylinder is half of what it should be. -/
theorem C69_straight_vertex_violation : (exMarked.cylinder exKinds () [2]).toOption.map (fun c => (c.area, c.holonomy.toOption)) = some (2, some (1, 0)) ∧
    exMarked.cylLabels ((), .one) [2] = .ok [((), .one), ((), .ofVec (2, 0))] := by decide +kernel

/-- **C69.** On a surface with edges that are glued to themselves, a cylinder can overlap itself: its area is bigger than the area of the surface. -/
theorem C69_self_glued_violation : ∃ c, exPillow.cylinder ⟨false, true, false, true⟩ () [1, 0] = .ok c ∧ c.area = 1 ∧
    ∃ p, exPillow.polygon () = .ok p ∧ p.area = 1 / 2 := by
  have h : (exPillow.cylinder ⟨false, true, false, true⟩ () [1, 0]).toOption.map (fun c => c.area) = some 1 := by decide +kernel
  cases hc : exPillow.cylinder ⟨false, true, false, true⟩ () [1, 0] with
  | error e => rw [hc] at h; cases h
  | ok c =>
    rw [hc] at h
    injection h with h
    exact ⟨c, rfl, h, _, rfl, by decide +kernel⟩

end RSurf
end Flat
