import Verif.Lemmas.EarTotal

/-!
# `triangulate()` always succeeds
-/

namespace Flat
namespace MSurf
variable {K : Type} [Field K] [LinearOrder K] [IsStrictOrderedRing K]
open Poly

theorem triangulated_three : Triangulated 3 [(0, 1, 2)] where
  len := rfl
  perm := ⟨[], by decide⟩
  nodup := by decide
  lt := by decide

theorem triangulate_total {p : Poly K} (h : p.Valid) :
    wp (triangulate p) (fun outer t => IsTriangulation p outer t ∧ ∃ T, Triangulated p.length T ∧
        (∀ x ∈ T, 0 < ccw (p.vertex x.2.1 - p.vertex x.1) (p.vertex x.2.2 - p.vertex x.1)) ∧
        ∀ l, t.polygons.get l = (T[l]?).map (triPoly p)) (fun _ _ => False) MSurf.empty := by
  rcases h.len3.eq_or_lt with h3 | h3
  · have hpos : 0 < ccw (p.vertex 1 - p.vertex 0) (p.vertex 2 - p.vertex 0) := by
      obtain ⟨T, hT⟩ := h.exists_tri
      rw [← h3] at hT
      have hab : (0, 1) ∈ cyc (List.range 3) := by decide
      obtain ⟨z, hz⟩ := hT.boundary hab
      have hpos := hT.pos _ _ _ hz
      have hm := hT.mem _ _ _ hz.rot.rot
      rw [List.mem_range] at hm
      rcases (by omega : z = 0 ∨ z = 1 ∨ z = 2) with rfl | rfl | rfl
      · exact absurd hpos (by rw [ori_left]; exact lt_irrefl _)
      · exact absurd hpos (by rw [ori_right]; exact lt_irrefl _)
      · simpa [ori] using hpos
    have hp : triPoly p (0, 1, 2) = p := by
      match p, h3 with
      | [a, b, c], _ => rfl
    have hr : Reachable (stateOf ((Op.addPolygon (L := ℕ) p none).run MSurf.empty)) :=
      Reachable.step _ _ Reachable.empty rfl trivial (fun _ _ _ e => by cases e)
    unfold triangulate
    rw [if_neg (by omega), if_pos h3.symm, wp_bind]
    have hT : Triangulated p.length [(0, 1, 2)] := by rw [← h3]; exact triangulated_three
    have hpos' : ∀ x ∈ [((0, 1, 2) : Triple)], 0 < ccw (p.vertex x.2.1 - p.vertex x.1) (p.vertex x.2.2 - p.vertex x.1) := by
      simpa using hpos
    have h2 : ∀ l, (stateOf ((Op.addPolygon (L := ℕ) p none).run MSurf.empty)).polygons.get l =
        ([((0, 1, 2) : Triple)][l]?).map (triPoly p) := by
      intro l
      match l with
      | 0 => simp only [List.getElem?_cons_zero, Option.map_some, hp]; rfl
      | l + 1 => rfl
    refine ⟨isTriangulation_of (T := [(0, 1, 2)]) (by omega) hT hpos' hr h2 ?_ ?_, _, hT, hpos', h2⟩
    · intro l e
      match p, h3 with
      | [a, b, c], _ =>
        match l, e with
        | 0, 0 | 0, 1 | 0, 2 => rfl
        | 0, e + 3 => rfl
        | l + 1, e => rfl
    · intro e x
      rw [← h3]
      match e with
      | 0 | 1 | 2 => exact ⟨fun hh => ⟨by decide, hh⟩, fun hh => hh.2⟩
      | e + 3 => exact ⟨fun hh => (by cases hh), fun hh => absurd hh.1 (by omega)⟩
  · obtain ⟨t, ht, hpos⟩ := earLoop_total (List.range p.length) h.isSimplePoly h.exists_tri [] (by simp [Dict.keys])
    exact triangulate_of_earLoop h3 ht hpos

/-- `triangulate()` of a polygon (not necessarily convex) returns a triangulation. -/
theorem C11_triangulate {p : Poly K} (h : p.Valid) :
    wp (triangulate p) (fun outer t => IsTriangulation p outer t) (fun _ _ => False) MSurf.empty :=
  wp_mono (triangulate_total h) (fun _ _ h => h.1) (fun _ _ h => h)

/-- Fewer than three vertices are not accepted. -/
theorem C11_short {p : Poly K} (h : p.length < 3) (s : MSurf ℕ (Poly K)) :
    triangulate p s = .error .valueError s := by
  unfold triangulate
  rw [if_pos h]
  rfl

/-- An L-shaped hexagon. -/
example : Poly.Valid ([(0, 0), (2, 0), (2, 1), (1, 1), (1, 2), (0, 2)] : Poly ℚ) :=
  (Poly.check_iff _ (by decide)).1 (by decide +kernel)

end MSurf
end Flat
