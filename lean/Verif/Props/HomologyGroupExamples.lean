import Verif.Props.HomologyGroup
import Verif.Props.CylinderExamples
import Verif.Props.GaussBonnet

/-!
# C70: examples and violations
-/

namespace Flat
namespace RSurf
open Module

theorem exThree_joined : exThree.Joined (fun _ => True) := by
  have h0 : ∀ a : Fin 3, Relation.EqvGen (fun a b => ∃ e e', exThree.IsDart (fun _ => True) (a, e) ∧ exThree.opp a e = .ok (some (b, e'))) 0 a := by
    intro a
    fin_cases a
    · exact .refl _
    · exact .rel _ _ ⟨1, 3, ⟨trivial, _, rfl, by decide⟩, by decide +kernel⟩
    · exact .rel _ _ ⟨0, 2, ⟨trivial, _, rfl, by decide⟩, by decide +kernel⟩
  intro a b _ _
  exact .trans _ _ _ (.symm _ _ (h0 a)) (h0 b)

theorem exThree_not_self (d : Fin 3 × ℕ) (hd : exThree.IsDart (fun _ => True) d) : exThree.opp d.1 d.2 ≠ .ok (some d) := by
  obtain ⟨l, e⟩ := d
  obtain ⟨-, p, hp, he⟩ := hd
  unfold exThree at hp
  injection hp with hp
  subst hp
  have : ∀ e < 4, ∀ l : Fin 3, exThree.opp l e ≠ .ok (some (l, e)) := by decide +kernel
  exact this e he l

/-- `C70_homology_partial` in genus 2: the first homology has rank 4. -/
example : ∃ (vx : List (Finset (Fin 3 × Vec ℚ))) (sx : List (Fin 3 × ℕ)) (M1 M2 : List (List ℤ)), exThree.simplices0 14 ∅ [0, 1, 2] = .ok vx ∧
    exThree.simplices1 [0, 1, 2] = .ok sx ∧ exThree.chainRows1 ℤ 14 ∅ sx vx = .ok M1 ∧ exThree.chainRows2 ℤ [0, 1, 2] sx = .ok M2 ∧
    Nonempty (Homology1 M1 M2 3 sx.length vx.length ≃ₗ[ℤ] (Fin 4 → ℤ)) := by
  obtain ⟨es, hes, hl⟩ : ∃ es, exThree.edges [0, 1, 2] = .ok es ∧ es.length = 12 := ⟨_, rfl, rfl⟩
  obtain ⟨vx, sx, M1, M2, g, h1, h2, h3, h4, h5, h6, -⟩ := C70_homology_partial exThree_closed exThree_joined exThree_not_self (ls := [0, 1, 2]) (by decide)
    (by decide) (by decide) hes (fuel := 14) (by omega) ∅ (by simp) ℤ
  have hg : exThree.genus 14 [0, 1, 2] = .ok 2 := by decide +kernel
  rw [hg] at h5
  injection h5 with h5
  have h5 : g = 2 := by exact_mod_cast h5.symm
  subst h5
  exact ⟨vx, sx, M1, M2, h1, h2, h3, h4, h6⟩

theorem unit_joined (S : RSurf Unit ℚ) : S.Joined (fun _ => True) := fun _ _ _ _ => .refl _

/-- The matrices for a torus with a marked point, relative to the two vertices. -/
theorem exMarked_relative : ∃ rel : Finset (Finset (Unit × Vec ℚ)), rel.card = 2 ∧
    ∀ x ∈ rel, ∃ d, exMarked.IsDart (fun _ => True) d ∧ exMarked.surfaceVertex 9 d = .ok x := by
  obtain ⟨x, hx⟩ : ∃ x, exMarked.surfaceVertex 9 ((), 0) = .ok x := by
    cases h : exMarked.surfaceVertex 9 ((), 0) with
    | error e =>
      have : (exMarked.surfaceVertex 9 ((), 0)).toOption.isSome := by decide +kernel
      rw [h] at this
      cases this
    | ok x => exact ⟨x, rfl⟩
  obtain ⟨y, hy⟩ : ∃ y, exMarked.surfaceVertex 9 ((), 1) = .ok y := by
    cases h : exMarked.surfaceVertex 9 ((), 1) with
    | error e =>
      have : (exMarked.surfaceVertex 9 ((), 1)).toOption.isSome := by decide +kernel
      rw [h] at this
      cases this
    | ok y => exact ⟨y, rfl⟩
  have hxy : x ≠ y := by
    rintro rfl
    have : (exMarked.surfaceVertex 9 ((), 0)).toOption ≠ (exMarked.surfaceVertex 9 ((), 1)).toOption := by decide +kernel
    rw [hx, hy] at this
    exact this rfl
  refine ⟨{x, y}, Finset.card_pair hxy, ?_⟩
  intro z hz
  rcases Finset.mem_insert.1 hz with rfl | hz
  · exact ⟨((), 0), ⟨trivial, _, rfl, by decide⟩, hx⟩
  · rw [Finset.mem_singleton.1 hz]
    exact ⟨((), 1), ⟨trivial, _, rfl, by decide⟩, hy⟩

/-- `C70_homology_partial` relative to two points of a torus: the rank is 3. -/
example : ∃ rel : Finset (Finset (Unit × Vec ℚ)), ∃ (vx : List (Finset (Unit × Vec ℚ))) (sx : List (Unit × ℕ)) (M1 M2 : List (List ℤ)),
    exMarked.simplices0 9 rel [()] = .ok vx ∧ exMarked.simplices1 [()] = .ok sx ∧ exMarked.chainRows1 ℤ 9 rel sx vx = .ok M1 ∧
    exMarked.chainRows2 ℤ [()] sx = .ok M2 ∧ Nonempty (Homology1 M1 M2 1 sx.length vx.length ≃ₗ[ℤ] (Fin 3 → ℤ)) ∧
    Subsingleton (Homology0 M1 sx.length vx.length) := by
  obtain ⟨es, hes, hl⟩ : ∃ es, exMarked.edges [()] = .ok es ∧ es.length = 6 := ⟨_, rfl, rfl⟩
  obtain ⟨rel, hr, hrel⟩ := exMarked_relative
  obtain ⟨vx, sx, M1, M2, g, h1, h2, h3, h4, h5, h6, -, h7, -⟩ := C70_homology_partial exMarked_closed (unit_joined _) (by
    rintro ⟨l, e⟩ ⟨-, p, hp, he⟩
    unfold exMarked at hp
    injection hp with hp
    subst hp
    have : ∀ e < 6, exMarked.opp () e ≠ .ok (some ((), e)) := by decide +kernel
    exact this e he) (ls := [()]) (by decide) (by simp) (by decide) hes (fuel := 9) (by omega) rel hrel ℤ
  have hg : exMarked.genus 9 [()] = .ok 1 := by decide +kernel
  rw [hg] at h5
  injection h5 with h5
  have h5 : g = 1 := by exact_mod_cast h5.symm
  subst h5
  rw [hr] at h6
  exact ⟨rel, vx, sx, M1, M2, h1, h2, h3, h4, h6, h7 (by rintro rfl; simp at hr)⟩

theorem exPillow_selfGlued : exPillow.selfGlued (fun _ => True) = 3 := by
  refine card_of_nodup (l := [((), 0), ((), 1), ((), 2)]) (by decide) ?_
  rintro ⟨⟨⟩, e⟩
  constructor
  · intro h
    refine ⟨⟨trivial, _, rfl, ?_⟩, rfl⟩
    show e < 3
    simp only [List.mem_cons, Prod.mk.injEq, true_and, List.not_mem_nil, or_false] at h
    omega
  · rintro ⟨⟨-, p, hp, he⟩, -⟩
    unfold exPillow at hp
    injection hp with hp
    subst hp
    have he : e < 3 := he
    simp only [List.mem_cons, Prod.mk.injEq, true_and, List.not_mem_nil, or_false]
    omega

/-- **C70, violation.** A triangle whose edges are glued to themselves is a sphere, `genus()` is 0, but the first homology has rank 2 and the second
homology vanishes: the boundary of a polygon contains such an edge once, although the polygon is on both of its sides. -/
theorem C70_self_glued_violation : exPillow.genus 9 [()] = .ok 0 ∧ ∃ (vx : List (Finset (Unit × Vec ℚ))) (sx : List (Unit × ℕ)) (M1 M2 : List (List ℤ)),
    exPillow.simplices0 9 ∅ [()] = .ok vx ∧ exPillow.simplices1 [()] = .ok sx ∧ exPillow.chainRows1 ℤ 9 ∅ sx vx = .ok M1 ∧
    exPillow.chainRows2 ℤ [()] sx = .ok M2 ∧ finrank ℤ (Homology1 M1 M2 1 sx.length vx.length) = 2 ∧ finrank ℤ (Homology2 M2 1 sx.length) = 0 := by
  have hg : exPillow.genus 9 [()] = .ok 0 := by decide +kernel
  obtain ⟨es, hes, hl⟩ : ∃ es, exPillow.edges [()] = .ok es ∧ es.length = 3 := ⟨_, rfl, rfl⟩
  obtain ⟨vx, sx, M1, M2, g, h1, h2, h3, h4, h5, -, h6, -, -, -, h7⟩ := C70_ranks exPillow_closed (unit_joined _) (ls := [()]) (by decide) (by simp) (by decide)
    hes (fuel := 9) (by omega) ∅ (by simp) ℤ
  rw [hg] at h5
  injection h5 with h5
  have h5 : g = 0 := by exact_mod_cast h5.symm
  subst h5
  rw [exPillow_selfGlued] at h6 h7
  have h : ((finrank ℤ (Homology1 M1 M2 1 sx.length vx.length) : ℕ) : ℤ) = 2 := by simpa using h6
  exact ⟨hg, vx, sx, M1, M2, h1, h2, h3, h4, by exact_mod_cast h, h7⟩

end RSurf
end Flat
