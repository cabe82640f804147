import Verif.Props.SaddleTermination
import Verif.Props.TrajectoryCoding
import Verif.Props.SegmentEdge
import Verif.Props.GaussBonnet

/-!
# C68: examples and violations
-/

namespace Flat
namespace RSurf
open Poly

/-- The torus that is a square. -/
def exSq : RSurf Unit ℚ where
  polygon _ := .ok [(0, 0), (1, 0), (1, 1), (0, 1)]
  opp _ e := .ok (some ((), (e + 2) % 4))

theorem exSq_valid : Poly.Valid ([(0, 0), (1, 0), (1, 1), (0, 1)] : Poly ℚ) :=
  ((Poly.ofVertices_iff ([(0, 0), (1, 0), (1, 1), (0, 1)] : Poly ℚ) [(0, 0), (1, 0), (1, 1), (0, 1)]).1 (by decide +kernel)).2

theorem exSq_closed : exSq.Closed (fun _ => True) where
  poly _ _ := ⟨_, rfl, exSq_valid⟩
  glue l p e _ hp he := by
    unfold exSq at hp
    injection hp with hp
    subst hp
    have he' : e < 4 := he
    refine ⟨(), (e + 2) % 4, _, rfl, trivial, rfl, Nat.mod_lt _ (by decide), ?_⟩
    unfold exSq
    dsimp only
    rw [show ((e + 2) % 4 + 2) % 4 = e by omega]

theorem exSq_translation : exSq.Translation (fun _ => True) := by
  intro l e l' e' p p' _ hp he ho hp'
  unfold exSq at hp ho hp'
  injection ho with ho; injection ho with ho; injection ho with h1 h2
  injection hp with hp
  injection hp' with hp'
  subst hp hp' h2
  have he : e < 4 := he
  interval_cases e <;> decide +kernel

theorem exSq_isometric : exSq.Isometric (fun _ => True) := by
  intro l e l' e' p p' h hp he ho hp'
  rw [exSq_translation l e l' e' p p' h hp he ho hp']
  unfold dot; simp

theorem exSq_positive : exSq.PositiveDilation (fun _ => True) := by
  intro l e l' e' p p' h hp he ho hp'
  exact ⟨1, one_pos, by rw [exSq_translation l e l' e' p p' h hp he ho hp', one_smul]⟩

theorem exSq_strict : exSq.AllStrict (fun _ => True) := by
  intro l p _ hp
  unfold exSq at hp
  injection hp with hp
  subst hp
  refine ⟨fun i j => ?_, fun v hv => ?_⟩
  · rw [← edge_mod, ← vertex_mod _ i, ← vertex_mod _ j]
    have hi : i % 4 < 4 := Nat.mod_lt _ (by decide)
    have hj : j % 4 < 4 := Nat.mod_lt _ (by decide)
    show 0 ≤ ccw (edge _ (i % 4)) (vertex _ (j % 4) - vertex _ (i % 4))
    generalize i % 4 = a at *
    generalize j % 4 = b at *
    revert a b
    decide +kernel
  · have hv : v < 4 := hv
    show 0 < ccw (edge _ (v + 3)) (edge _ v)
    revert v
    decide +kernel

/-- All kinds: a translation surface. -/
def exKinds : Kinds := ⟨true, true, true, true⟩

theorem exSq_points : Points ([(0, 0), (1, 0), (1, 1), (0, 1)] : Poly ℚ) (vertex [(0, 0), (1, 0), (1, 1), (0, 1)] 0) (1, 2) :=
  (points_vertex exSq_valid (by decide)).2 ⟨by decide +kernel, by decide +kernel⟩

/-- A saddle connection of the square that goes through two polygons. -/
theorem exSq_saddle : exSq.IsSaddle (fun _ => True) ((), 0) (1, 2) ((), 2) (-1, -2) := by
  have h := C68_check exSq_closed (kinds := exKinds) (a := ((), 0)) (b := ((), 2)) trivial rfl (by decide) (k := (-1, -2)) exSq_points
    (by decide +kernel) 1
  exact h.1 ⟨⟨((), 0), (1 / 2, 1), ((), 2), (-1 / 2, -1), (1, 2), (-1, -2)⟩, by decide +kernel⟩

/-- `C68_symm`, `C68_direction`, `C68_opposite`, `C68_translation`, `C68_length`. -/
example : exSq.IsSaddle (fun _ => True) ((), 2) (-1, -2) ((), 0) (1, 2) := by
  obtain ⟨segs, h⟩ := exSq_saddle
  exact ⟨_, C68_symm exSq_closed h⟩

example : ∃ p, True ∧ exSq.polygon () = .ok p ∧ 0 < p.length ∧ Points p (p.vertex 0) (1, 2) := C68_direction exSq_closed exSq_saddle

example : ∃ c : ℚ, 0 < c ∧ ((-1, -2) : Vec ℚ) = -(c • (1, 2)) := C68_opposite exSq_closed exSq_positive exSq_saddle

example : ((-1, -2) : Vec ℚ) = -(1, 2) := C68_translation exSq_closed exSq_translation exSq_saddle

example : (-1 : ℚ) ^ 2 + (-2) ^ 2 = 1 ^ 2 + 2 ^ 2 := C68_length exSq_closed exSq_isometric exSq_saddle

/-- `C68_unitMax_iff`. -/
example : unitMax ((1, 2) : Vec ℚ) = unitMax (2, 4) ↔ ∃ c : ℚ, 0 < c ∧ ((2, 4) : Vec ℚ) = c • (1, 2) := C68_unitMax_iff (by decide +kernel) (by decide +kernel)

/-- `C68_constructor`: a saddle connection is found from any multiple of its holonomy. -/
example : ∃ limit, exSq.saddleConnection exKinds ((), 0) ((5 : ℚ) • ((1, 2) : Vec ℚ)) none none none none true limit = .ok (saddleOf ((), 0) (1, 2) ((), 2) (-1, -2)) := by
  obtain ⟨segs, h⟩ := exSq_saddle
  exact ⟨segs.length, C68_constructor exSq_closed (fun _ => exSq_positive) h (by omega) (by norm_num) true⟩

/-- `C68_unique`: there is no other saddle connection with the same start and the same direction. -/
example {b : Unit × ℕ} {k : Vec ℚ} : ¬ exSq.IsSaddle (fun _ => True) ((), 0) (2, 4) b k := by
  intro h
  have := (C68_unique exSq_closed exSq_saddle h (c := 2) (by norm_num) (by decide +kernel)).1
  exact absurd this (by decide +kernel)

/-- `C68_constructor_sound_partial`. -/
example : ∃ h b k, exSq.IsSaddle (fun _ => True) ((), 0) h b k ∧
    saddleOf ((), 0) (1, 2) ((), 2) (-1, -2) = saddleOf ((), 0) h b k ∧ (∃ c : ℚ, 0 < c ∧ ((1, 2) : Vec ℚ) = c • h) := by
  obtain ⟨h, b, k, h1, h2, h3, -⟩ := C68_constructor_sound_partial exSq_closed (kinds := exKinds) (a := ((), 0)) trivial rfl (by decide) exSq_points
    (stop := none) (stopDirection := none) (holonomy := none) (stopHolonomy := none) (check := false) (limit := 1) (.inr rfl)
    (x := saddleOf ((), 0) (1, 2) ((), 2) (-1, -2)) (by decide +kernel)
  exact ⟨h, b, k, h1, h2, h3⟩

/-- `C68_invert`. -/
example : (saddleOf ((), 0) ((1, 2) : Vec ℚ) ((), 2) (-1, -2)).invert exSq exKinds = .ok (saddleOf ((), 2) (-1, -2) ((), 0) (1, 2)) :=
  (C68_invert exSq_closed exKinds exSq_saddle).1

/-- `C68_search_partial` and `C68_terminates_at`: the saddle connections from a vertex of the square. -/
theorem exSq_list : (exSq.saddleConnectionsAt exKinds 5 false 100 ((), 0) []).toOption.map (fun l => l.map fun c => c.holonomy) =
    some [(1, 0), (2, 1), (1, 1), (1, 2)] := by decide +kernel

example : ∃ res, exSq.saddleConnectionsAt exKinds 5 false 100 ((), 0) [] = .ok res ∧ res.map (fun c => c.holonomy) = [(1, 0), (2, 1), (1, 1), (1, 2)] ∧
    ∀ c, c ∈ res ↔ ∃ h b k, exSq.IsSaddle (fun _ => True) ((), 0) h b k ∧ h.1 ^ 2 + h.2 ^ 2 ≤ 5 ∧ c = saddleOf ((), 0) h b k := by
  have h := exSq_list
  have key := fun res => C68_search_partial (res := res) exSq_closed (fun l p h1 h2 => (exSq_strict l p h1 h2).1) (kinds := exKinds) (fun _ => exSq_positive)
    (bound := 5) (check := false) (fuel := 100) (start := ((), 0)) (acc := []) (p := [(0, 0), (1, 0), (1, 1), (0, 1)]) trivial rfl (by decide)
    ((exSq_strict () _ trivial rfl).2 0 (by decide))
  generalize exSq.saddleConnectionsAt exKinds 5 false 100 ((), 0) [] = r at h key ⊢
  cases r with
  | error e => cases h
  | ok res =>
    have h : some (res.map fun c => c.holonomy) = some [(1, 0), (2, 1), (1, 1), (1, 2)] := h
    injection h with h
    obtain ⟨new, h1, -, h2⟩ := key res rfl
    rw [List.nil_append] at h1
    subst h1
    exact ⟨_, rfl, h, h2⟩

example : ∃ N, ∀ fuel ≥ N, ∀ acc, ∃ res, exSq.saddleConnectionsAt exKinds 1000000 false fuel ((), 3) acc = .ok res :=
  C68_terminates_at exSq_closed exSq_isometric exSq_strict (labels := [()]) (by simp) (fun _ => exSq_positive) (by norm_num) (start := ((), 3))
    (p := [(0, 0), (1, 0), (1, 1), (0, 1)]) trivial rfl (by decide)

/-- `C68_terminates` with `C68_list_partial`: the list of all saddle connections that are not longer than a thousand. -/
example : ∃ N, ∀ fuel ≥ N, ∃ res, exSq.saddleConnections exKinds 1000000 fuel [()] = .ok res ∧ res.Nodup ∧
      ∀ c, c ∈ res ↔ ∃ a h b k, exSq.IsSaddle (fun _ => True) a h b k ∧ h.1 ^ 2 + h.2 ^ 2 ≤ 1000000 ∧ c = saddleOf a h b k :=
  C68_terminates exSq_closed exSq_isometric exSq_strict (by simp) (by simp) (fun _ => exSq_positive) (by norm_num)

/-- `C68_list_invert_partial`. -/
example {fuel : ℕ} {res : List (Saddle Unit ℚ)} (h : exSq.saddleConnections exKinds 13 fuel [()] = .ok res) {c : Saddle Unit ℚ} (hc : c ∈ res) :
    ∃ c' ∈ res, c.invert exSq exKinds = .ok c' ∧ c'.invert exSq exKinds = .ok c :=
  C68_list_invert_partial exSq_closed exSq_isometric exSq_strict (fun _ => exSq_positive) (by simp) (by simp) h hc

/-- The list of the previous example is not empty. -/
example : (exSq.saddleConnections exKinds 13 200 [()]).toOption.map List.length = some 32 := by decide +kernel

/-- A surface that is not a translation surface: a triangle whose edges are glued to themselves. -/
theorem exPillow_strict : exPillow.AllStrict (fun _ => True) := by
  intro l p _ hp
  unfold exPillow at hp
  injection hp with hp
  subst hp
  refine ⟨fun i j => ?_, fun v hv => ?_⟩
  · rw [← edge_mod, ← vertex_mod _ i, ← vertex_mod _ j]
    have hi : i % 3 < 3 := Nat.mod_lt _ (by decide)
    have hj : j % 3 < 3 := Nat.mod_lt _ (by decide)
    show 0 ≤ ccw (edge _ (i % 3)) (vertex _ (j % 3) - vertex _ (i % 3))
    generalize i % 3 = a at *
    generalize j % 3 = b at *
    revert a b
    decide +kernel
  · have hv : v < 3 := hv
    show 0 < ccw (edge _ (v + 2)) (edge _ v)
    revert v
    decide +kernel

theorem exPillow_isometric : exPillow.Isometric (fun _ => True) := by
  intro l e l' e' p p' h hp he ho hp'
  unfold exPillow at hp ho hp'
  injection ho with ho; injection ho with ho; injection ho with h1 h2
  injection hp with hp
  injection hp' with hp'
  subst hp hp' h2
  rfl

/-- The kinds of a half-translation surface. -/
def exHalf : Kinds := ⟨false, true, false, true⟩

example : ∃ N, ∀ fuel ≥ N, ∃ res, exPillow.saddleConnections exHalf 100 fuel [()] = .ok res ∧ res.Nodup ∧
      ∀ c, c ∈ res ↔ ∃ a h b k, exPillow.IsSaddle (fun _ => True) a h b k ∧ h.1 ^ 2 + h.2 ^ 2 ≤ 100 ∧ c = saddleOf a h b k :=
  C68_terminates exPillow_closed exPillow_isometric exPillow_strict (by simp) (by simp) (by simp [exHalf]) (by norm_num)

theorem exPillow_valid : (MSurf.tri : Poly ℚ).Valid := ((Poly.ofVertices_iff MSurf.tri MSurf.tri).1 (by decide +kernel)).2

/-- The saddle connection of this surface that goes from the right angle to itself. -/
theorem exPillow_saddle : exPillow.IsSaddle (fun _ => True) ((), 0) (1, 1) ((), 0) (1, 1) := by
  have h := C68_check exPillow_closed (kinds := exHalf) (a := ((), 0)) (b := ((), 0)) trivial rfl (by decide) (h := (1, 1)) (k := (1, 1))
    ((points_vertex exPillow_valid (by decide)).2 ⟨by decide +kernel, by decide +kernel⟩) (by decide +kernel) 1
  exact h.1 ⟨⟨((), 0), (1, 1), ((), 0), (1, 1), (1, 1), (1, 1)⟩, by decide +kernel⟩

/-- `C67_is_edge`: the first segment of a saddle connection that is not an edge. -/
example {s : Seg ℕ ℚ} (h : exLSurf.IsSeg (fun l => l = 0) s) (he : exLSurf.segIsEdge s = .ok false) : ∃ p τ, exLSurf.IsChord (fun l => l = 0) s p τ := by
  rcases C67_is_edge exLSurf_closed.bordered h with ⟨h1, -⟩ | ⟨-, h2, -⟩
  · rw [he] at h1; cases h1
  · exact h2

/-! ### Violations -/

/-- **C68, violation.** A direction along the last side of the sector of the vertex: the saddle connection goes up, its holonomy is said to go to the
right. -/
theorem C68_last_side_violation :
    (exSq.saddleConnection exKinds ((), 0) (0, 1) none none none none true 1000).toOption.map (fun c => (c.direction, c.holonomy, c.stopHolonomy)) =
      some ((0, 1), (1, 0), (0, -1)) := by decide +kernel

/-- **C68, violation.** The given end holonomy is guessed wrongly when the direction is not scaled: for a saddle connection of a half-translation surface
whose two directions agree, the constructor makes an object with the wrong end holonomy, and with the checks it raises. -/
theorem C68_guess_violation :
    exPillow.IsSaddle (fun _ => True) ((), 0) (1, 1) ((), 0) (1, 1) ∧
    exPillow.saddleConnection exHalf ((), 0) (1, 1) (some ((), 0)) none (some (1, 1)) none true 1000 = .ok (saddleOf ((), 0) (1, 1) ((), 0) (1, 1)) ∧
    exPillow.saddleConnection exHalf ((), 0) (2, 2) (some ((), 0)) none (some (1, 1)) none true 1000 = .error .valueError ∧
    exPillow.saddleConnection exHalf ((), 0) (2, 2) (some ((), 0)) none (some (1, 1)) none false 1000 =
      .ok ⟨((), 0), (1, 1), ((), 0), (1, 1), (1, 1), (-1, -1)⟩ :=
  ⟨exPillow_saddle, by decide +kernel, by decide +kernel, by decide +kernel⟩

theorem exMarked_valid : Poly.Valid ([(0, 0), (1, 0), (2, 0), (2, 1), (1, 1), (0, 1)] : Poly ℚ) :=
  ((Poly.ofVertices_iff ([(0, 0), (1, 0), (2, 0), (2, 1), (1, 1), (0, 1)] : Poly ℚ) [(0, 0), (1, 0), (2, 0), (2, 1), (1, 1), (0, 1)]).1
    (by decide +kernel)).2

theorem exMarked_closed : exMarked.Closed (fun _ => True) where
  poly _ _ := ⟨_, rfl, exMarked_valid⟩
  glue l p e _ hp he := by
    unfold exMarked at hp
    injection hp with hp
    subst hp
    have he' : e < 6 := he
    obtain ⟨⟩ := l
    refine ⟨(), _, _, rfl, trivial, rfl, ?_, ?_⟩ <;> interval_cases e <;> decide +kernel

/-- **C68, violation.** From a vertex whose angle in the polygon is `π`, the search does not find all saddle connections that are not longer than the
bound. -/
theorem C68_straight_violation :
    exMarked.IsSaddle (fun _ => True) ((), 1) (2, 1) ((), 4) (-2, -1) ∧
    (exMarked.saddleConnectionsAt exKinds 5 false 200 ((), 1) []).toOption.map (fun l => l.map fun c => c.holonomy) =
      some [(1, 0), (1, 1), (1, 2), (0, 1), (-1, 2), (-1, 1)] := by
  refine ⟨?_, by decide +kernel⟩
  have h := C68_check exMarked_closed (kinds := exKinds) (a := ((), 1)) (b := ((), 4)) trivial rfl (by decide) (h := (2, 1)) (k := (-2, -1))
    ((points_vertex exMarked_valid (by decide)).2 ⟨by decide +kernel, by decide +kernel⟩) (by decide +kernel) 1
  exact h.1 ⟨⟨((), 1), (1, 1 / 2), ((), 4), (-1, -1 / 2), (2, 1), (-2, -1)⟩, by decide +kernel⟩

/-- **C68, violation.** When a polygon is not convex, the search returns lines through other vertices and outside of the polygon, returns the same
holonomy twice and does not find all saddle connections: `(2, 0)` from the vertex `7` goes through the vertex `4`; `(-1, 2)` from the vertex `2` is returned
twice; from the vertex `4` only two saddle connections are returned, but not `(-1, 1)`. -/
theorem C68_nonconvex_violation :
    ((exLSurf.saddleConnectionsAt exKinds 5 false 200 (0, 7) []).toOption.map (fun l => decide ((2, 0) ∈ l.map fun c => c.holonomy)) = some true ∧
      ∀ b k, ¬ exLSurf.IsSaddle (fun l => l = 0) (0, 7) (2, 0) b k) ∧
    (exLSurf.saddleConnectionsAt exKinds 5 false 200 (0, 2) []).toOption.map (fun l => (l.map fun c => c.holonomy).count (-1, 2)) = some 2 ∧
    (exLSurf.saddleConnectionsAt exKinds 5 false 200 (0, 4) []).toOption.map (fun l => l.map fun c => c.holonomy) = some [(0, 1), (-1, -1)] ∧
      exLSurf.IsSaddle (fun l => l = 0) (0, 4) (-1, 1) (0, 6) (1, -1) := by
  refine ⟨⟨by decide +kernel, ?_⟩, by decide +kernel, by decide +kernel, ?_⟩
  · intro b k hs
    have h := C68_check exLSurf_closed (kinds := exKinds) (a := (0, 7)) (b := (0, 4)) rfl rfl (by decide) (h := (1, 0)) (k := (-1, 0))
      ((points_vertex exL_valid (by decide)).2 ⟨by decide +kernel, by decide +kernel⟩) (by decide +kernel) 1
    have h1 := h.1 ⟨⟨(0, 7), (1, 0), (0, 4), (-1, 0), (1, 0), (-1, 0)⟩, by decide +kernel⟩
    have := (C68_unique exLSurf_closed h1 hs (c := 2) (by norm_num) (by decide +kernel)).1
    exact absurd this (by decide +kernel)
  · have h := C68_check exLSurf_closed (kinds := exKinds) (a := (0, 4)) (b := (0, 6)) rfl rfl (by decide) (h := (-1, 1)) (k := (1, -1))
      ((points_vertex exL_valid (by decide)).2 ⟨by decide +kernel, by decide +kernel⟩) (by decide +kernel) 1
    exact h.1 ⟨⟨(0, 4), (-1, 1), (0, 6), (1, -1), (-1, 1), (1, -1)⟩, by decide +kernel⟩

end RSurf
end Flat
