import Verif.Lemmas.Grid

/-!
# C73: origamis
-/

namespace Flat
namespace RSurf
open Poly Surf
variable {L K : Type} [Field K] [LinearOrder K] [IsStrictOrderedRing K] [DecidableEq L] {dom : L → Prop} [DecidablePred dom]

omit [DecidableEq L] [LinearOrder K] [IsStrictOrderedRing K] in
theorem origami_opp (r u rr uu : L → L) {l : L} (hl : dom l) : (origamiSurf K dom r u rr uu).opp l 0 = .ok (some (uu l, 2)) ∧
    (origamiSurf K dom r u rr uu).opp l 1 = .ok (some (r l, 3)) ∧ (origamiSurf K dom r u rr uu).opp l 2 = .ok (some (u l, 0)) ∧
    (origamiSurf K dom r u rr uu).opp l 3 = .ok (some (rr l, 1)) := by
  simp [origamiSurf, if_pos hl, origamiOpp, Except.map]

omit [DecidableEq L] in
theorem origami_grid {r u : Equiv.Perm L} (hr : ∀ l, dom (r l) ↔ dom l) (hu : ∀ l, dom (u l) ↔ dom l) :
    (permOrigami K dom r u).Grid dom r u (fun _ => 1) (fun _ => 1) where
  right_valid := hr
  up_valid := hu
  width_pos _ _ := one_pos
  height_pos _ _ := one_pos
  width_up _ _ := rfl
  height_right _ _ := rfl
  polygon l hl := by simp [permOrigami, origamiSurf, if_pos hl, square, rect]
  down l hl := (origami_opp _ _ _ _ hl).1
  right l hl := (origami_opp _ _ _ _ hl).2.1
  up l hl := (origami_opp _ _ _ _ hl).2.2.1
  left l hl := (origami_opp _ _ _ _ hl).2.2.2

omit [DecidableEq L] [LinearOrder K] [IsStrictOrderedRing K] in
/-- **C73.** Labels that are not in the domain and edges that a square does not have are `ValueError`s; the other edges are glued to the
opposite edges of the squares to the right and to the left, above and below. -/
theorem C73_edges (r u rr uu : L → L) (l : L) (e : ℕ) : (origamiSurf K dom r u rr uu).opp l e =
    if dom l ∧ e < 4 then .ok (some ((if e = 0 then uu l else if e = 1 then r l else if e = 2 then u l else rr l), (e + 2) % 4)) else .error .valueError := by
  by_cases hl : dom l
  · by_cases he : e < 4
    · rw [if_pos ⟨hl, he⟩]
      obtain ⟨h0, h1, h2, h3⟩ := origami_opp (K := K) r u rr uu hl
      interval_cases e
      · simpa using h0
      · simpa using h1
      · simpa using h2
      · simpa using h3
    · rw [if_neg (fun h => he h.2)]
      have : [uu, r, u, rr][e]? = none := List.getElem?_eq_none (by simpa using he)
      simp only [origamiSurf, if_pos hl, origamiOpp, this, Except.map]
  · rw [if_neg (fun h => hl h.1)]
    simp only [origamiSurf, if_neg hl]

/-- **C73.** An origami of permutations is a translation surface without boundary of strictly convex polygons. -/
theorem C73_translation_surface {r u : Equiv.Perm L} (hr : ∀ l, dom (r l) ↔ dom l) (hu : ∀ l, dom (u l) ↔ dom l) :
    (permOrigami K dom r u).Closed dom ∧ (permOrigami K dom r u).Translation dom ∧ (permOrigami K dom r u).AllStrict dom :=
  ⟨(origami_grid hr hu).closed, (origami_grid hr hu).translation, (origami_grid hr hu).strict⟩

omit [DecidableEq L] in
/-- **C73.** An origami given by four maps is a surface without boundary if and only if the maps are two pairs of inverse maps on the domain. -/
theorem C73_closed_iff (r u rr uu : L → L) : (origamiSurf K dom r u rr uu).Closed dom ↔ ∀ l, dom l →
    (dom (r l) ∧ dom (rr l) ∧ rr (r l) = l ∧ r (rr l) = l) ∧ (dom (u l) ∧ dom (uu l) ∧ uu (u l) = l ∧ u (uu l) = l) := by
  have hP : ∀ l, dom l → (origamiSurf K dom r u rr uu).polygon l = .ok square := fun l hl => by simp [origamiSurf, if_pos hl]
  have hV : (square : Poly K).Valid := by
    have := rect_valid (one_pos (α := K)) one_pos
    simpa [rect, square] using this
  constructor
  · intro hS l hl
    obtain ⟨h0, h1, h2, h3⟩ := origami_opp (K := K) r u rr uu hl
    have key : ∀ e m f, e < 4 → (origamiSurf K dom r u rr uu).opp l e = .ok (some (m, f)) → dom m ∧ (origamiSurf K dom r u rr uu).opp m f = .ok (some (l, e)) := by
      intro e m f he ho
      obtain ⟨l', e', p', a1, a2, -, -, a3⟩ := hS.glue l _ e hl (hP l hl) he
      rw [ho] at a1
      injection a1 with a1; injection a1 with a1; injection a1 with a1 a1'
      subst a1 a1'
      exact ⟨a2, a3⟩
    have fst : ∀ {a b : L} {e f : ℕ} {x : Except Err (Option (L × ℕ))}, x = .ok (some (a, e)) → x = .ok (some (b, f)) → a = b := by
      intro a b e f x h h'
      rw [h] at h'
      injection h' with h'; injection h' with h'; injection h' with h'
    obtain ⟨b0, c0⟩ := key 0 _ _ (by omega) h0
    obtain ⟨b1, c1⟩ := key 1 _ _ (by omega) h1
    obtain ⟨b2, c2⟩ := key 2 _ _ (by omega) h2
    obtain ⟨b3, c3⟩ := key 3 _ _ (by omega) h3
    exact ⟨⟨b1, b3, fst (origami_opp (K := K) r u rr uu b1).2.2.2 c1, fst (origami_opp (K := K) r u rr uu b3).2.1 c3⟩,
      b2, b0, fst (origami_opp (K := K) r u rr uu b2).1 c2, fst (origami_opp (K := K) r u rr uu b0).2.2.1 c0⟩
  · intro hI
    refine ⟨fun l hl => ⟨_, hP l hl, hV⟩, fun l p e hl hp he => ?_⟩
    rw [hP l hl] at hp
    injection hp with hp
    subst hp
    obtain ⟨h0, h1, h2, h3⟩ := origami_opp (K := K) r u rr uu hl
    obtain ⟨⟨i1, i2, i3, i4⟩, j1, j2, j3, j4⟩ := hI l hl
    have he' : e < 4 := he
    interval_cases e
    · exact ⟨_, _, _, h0, j2, hP _ j2, by simp [square], by rw [(origami_opp (K := K) r u rr uu j2).2.2.1, j4]⟩
    · exact ⟨_, _, _, h1, i1, hP _ i1, by simp [square], by rw [(origami_opp (K := K) r u rr uu i1).2.2.2, i3]⟩
    · exact ⟨_, _, _, h2, j1, hP _ j1, by simp [square], by rw [(origami_opp (K := K) r u rr uu j1).1, j3]⟩
    · exact ⟨_, _, _, h3, i2, hP _ i2, by simp [square], by rw [(origami_opp (K := K) r u rr uu i2).2.1, i4]⟩

theorem origamiCheck_iff (some : List L) (r rr : L → L) :
    origamiCheck r rr some = .ok () ↔ ∀ a ∈ some, r (rr a) = a ∧ rr (r a) = a := by
  induction some with
  | nil => simp [origamiCheck]
  | cons a l ih =>
    rw [origamiCheck, List.forall_mem_cons, ← ih]
    by_cases h1 : r (rr a) = a
    · by_cases h2 : rr (r a) = a
      · simp [h1, h2]
      · simp [h1, h2]
    · simp [h1]

/-- **C73.** What the constructor checks: an origami with explicit inverse maps is created if and only if the maps are inverse to each other on
the elements that the domain gives as samples. -/
theorem C73_constructor (some : List L) (r u rr uu : L → L) : newOrigami K dom some r u rr uu =
    if ∀ a ∈ some, (r (rr a) = a ∧ rr (r a) = a) ∧ (u (uu a) = a ∧ uu (u a) = a) then .ok (origamiSurf K dom r u rr uu) else .error .valueError := by
  have hE : ∀ (s : List L) (f g : L → L), origamiCheck f g s = .ok () ∨ origamiCheck f g s = .error .valueError := by
    intro s f g
    induction s with
    | nil => exact .inl rfl
    | cons a l ih =>
      rw [origamiCheck]
      by_cases h1 : f (g a) = a
      · by_cases h2 : g (f a) = a
        · simpa [h1, h2] using ih
        · simp [h1, h2]
      · simp [h1]
  have hsplit : (∀ a ∈ some, (r (rr a) = a ∧ rr (r a) = a) ∧ (u (uu a) = a ∧ uu (u a) = a)) ↔
      origamiCheck r rr some = .ok () ∧ origamiCheck u uu some = .ok () := by
    rw [origamiCheck_iff, origamiCheck_iff]
    exact ⟨fun h => ⟨fun a ha => (h a ha).1, fun a ha => (h a ha).2⟩, fun h a ha => ⟨h.1 a ha, h.2 a ha⟩⟩
  unfold newOrigami
  rcases hE some r rr with h1 | h1
  · rcases hE some u uu with h2 | h2
    · rw [if_pos (hsplit.2 ⟨h1, h2⟩)]
      simp only [h1, h2, bind, Except.bind, pure, Except.pure]
    · rw [if_neg (fun h => by have := (hsplit.1 h).2; rw [h2] at this; cases this)]
      simp only [h1, h2, bind, Except.bind]
  · rw [if_neg (fun h => by have := (hsplit.1 h).1; rw [h1] at this; cases this)]
    simp only [h1, bind, Except.bind]

/-- **C73, partial.** If the samples are all elements of the domain, then the constructor only creates surfaces without boundary.  For other
samples see `C73_samples_violation`. -/
theorem C73_constructor_partial {some : List L} (hs : ∀ l, dom l → l ∈ some) {r u rr uu : L → L}
    (hd : ∀ l, dom l → dom (r l) ∧ dom (rr l) ∧ dom (u l) ∧ dom (uu l)) {S : RSurf L K} (h : newOrigami K dom some r u rr uu = .ok S) : S.Closed dom := by
  rw [C73_constructor] at h
  split_ifs at h with hc
  injection h with h
  subst h
  rw [C73_closed_iff]
  intro l hl
  obtain ⟨⟨h1, h2⟩, h3, h4⟩ := hc l (hs l hl)
  obtain ⟨d1, d2, d3, d4⟩ := hd l hl
  exact ⟨⟨d1, d2, h2, h1⟩, d3, d4, h4, h3⟩

/-- **C73.** An origami is connected if and only if the permutations act transitively. -/
theorem C73_connected {r u : Equiv.Perm L} (hr : ∀ l, dom (r l) ↔ dom l) (hu : ∀ l, dom (u l) ↔ dom l) :
    (permOrigami K dom r u).Joined dom ↔ ∀ a b, dom a → dom b → ∃ x ∈ Subgroup.closure {r, u}, x a = b :=
  (origami_grid hr hu).joined_iff

/-- **C73.** The vertices of an origami are the cycles of the commutator of the permutations: the lower left corners of two squares are at the same
vertex if and only if the squares are in the same cycle, and every corner is at the vertex that is the lower left corner of a square. -/
theorem C73_vertices {r u : Equiv.Perm L} (hr : ∀ l, dom (r l) ↔ dom l) (hu : ∀ l, dom (u l) ↔ dom l) :
    (∀ a b, dom a → dom b → ((permOrigami K dom r u).SameVertex dom (a, 0) (b, 0) ↔ (r * u * r⁻¹ * u⁻¹).SameCycle a b)) ∧
    ∀ a, dom a → (permOrigami K dom r u).SameVertex dom (a, 1) (r a, 0) ∧ (permOrigami K dom r u).SameVertex dom (a, 2) (r (u a), 0) ∧
      (permOrigami K dom r u).SameVertex dom (a, 3) (u a, 0) := by
  have g := origami_grid (K := K) hr hu
  refine ⟨fun a b ha hb => g.sameVertex_iff ((g.dart_iff _).2 ⟨ha, by simp⟩) ((g.dart_iff _).2 ⟨hb, by simp⟩), fun a ha => ⟨?_, ?_, ?_⟩⟩
  · exact g.sameVertex_lowerLeft ((g.dart_iff (a, 1)).2 ⟨ha, by simp⟩)
  · exact g.sameVertex_lowerLeft ((g.dart_iff (a, 2)).2 ⟨ha, by simp⟩)
  · exact g.sameVertex_lowerLeft ((g.dart_iff (a, 3)).2 ⟨ha, by simp⟩)

/-- **C73.** The angle at a vertex of an origami, in multiples of a full turn, is the length of the cycle of the commutator.  This also holds on
infinite origamis. -/
theorem C73_angle {ι : K →+* ℝ} (hι : StrictMono ι) {r u : Equiv.Perm L} (hr : ∀ l, dom (r l) ↔ dom l) (hu : ∀ l, dom (u l) ↔ dom l) {a : L} (ha : dom a)
    {n : ℕ} (hn : 0 < n) (hp : Function.minimalPeriod (r * u * r⁻¹ * u⁻¹) a = n) {fuel : ℕ} (hf : 4 * n < fuel) :
    (permOrigami K dom r u).angleVertex ι fuel (a, 0) = .ok n := by
  have g := origami_grid (K := K) hr hu
  subst hp
  exact g.angleVertex_eq hι ((g.dart_iff (a, 0)).2 ⟨ha, by simp⟩) hn hf

/-- **C73.** The stratum of a finite origami: with one square for each cycle of the commutator, the angles are the lengths of the cycles, the degrees
of the zeros are the lengths minus one, and their sum is `2g - 2`. -/
theorem C73_stratum {ι : K →+* ℝ} (hι : StrictMono ι) {r u : Equiv.Perm L} (hr : ∀ l, dom (r l) ↔ dom l) (hu : ∀ l, dom (u l) ↔ dom l)
    {ls : List L} (hn : ls.Nodup) (hls : ∀ l, l ∈ ls ↔ dom l) {cs : List L} (hv : ∀ c ∈ cs, dom c)
    (ha : cs.Pairwise fun a b => ¬ (r * u * r⁻¹ * u⁻¹).SameCycle a b) (hc : ∀ l, dom l → ∃ c ∈ cs, (r * u * r⁻¹ * u⁻¹).SameCycle c l)
    {fuel : ℕ} (hf : 4 * ls.length < fuel) :
    (permOrigami K dom r u).IsStarts dom (cs.map fun c => (c, 0)) ∧
    (permOrigami K dom r u).angles ι fuel (cs.map fun c => (c, 0)) = .ok (cs.map fun c => (Function.minimalPeriod (r * u * r⁻¹ * u⁻¹) c : ℝ)) ∧
    (permOrigami K dom r u).abelianStratum ι fuel (cs.map fun c => (c, 0)) = .ok (cs.map fun c => (Function.minimalPeriod (r * u * r⁻¹ * u⁻¹) c : ℤ) - 1) ∧
    ∃ g : ℤ, (permOrigami K dom r u).genus fuel ls = .ok g ∧ (cs.map fun c => (Function.minimalPeriod (r * u * r⁻¹ * u⁻¹) c : ℤ) - 1).sum = 2 * g - 2 := by
  have g := origami_grid (K := K) hr hu
  have hst := g.isStarts hv ha hc
  obtain ⟨h1, h2⟩ := g.angles_eq hι (fun l hl => (hls l).2 hl) hf hst.dart
  rw [List.map_map] at h1 h2
  obtain ⟨es, he, hnd, hmem⟩ := edges_spec g.closed.bordered ls hn (fun l hl => (hls l).1 hl)
  have hlen : es.length ≤ 4 * ls.length := by
    have hsub : es ⊆ ls.flatMap fun l => [(l, 0), (l, 1), (l, 2), (l, 3)] := by
      rintro ⟨l, e⟩ hd
      obtain ⟨hl, hd⟩ := (hmem _).1 hd
      have := ((g.dart_iff _).1 hd).2
      rw [List.mem_flatMap]
      refine ⟨l, hl, ?_⟩
      dsimp only at this
      interval_cases e <;> simp
    have := (List.Nodup.subperm hnd hsub).length_le
    rw [List.length_flatMap] at this
    simpa [mul_comm] using this
  obtain ⟨as, ks, γ, -, k1, -, -, k2, k3⟩ := C64_abelian_stratum hι g.closed g.translation hn hls he (fuel := fuel) (by omega) hst
  rw [h2] at k1
  injection k1 with k1
  exact ⟨hst, h1, h2, γ, k2, by rw [← k3, ← k1]; rfl⟩

/-! ## Examples and violations -/

/-- The origami with three squares that form the letter L. -/
def exL3r : Equiv.Perm (Fin 3) := Equiv.swap 0 1

/-- The origami with three squares that form the letter L. -/
def exL3u : Equiv.Perm (Fin 3) := Equiv.swap 0 2

theorem exL3_period (a : Fin 3) : Function.minimalPeriod (exL3r * exL3u * exL3r⁻¹ * exL3u⁻¹) a = 3 := by
  haveI : Fact (Nat.Prime 3) := ⟨by decide⟩
  refine Function.minimalPeriod_eq_prime ?_ ?_
  · change (exL3r * exL3u * exL3r⁻¹ * exL3u⁻¹)^[3] a = a
    revert a
    decide
  · change ¬ (exL3r * exL3u * exL3r⁻¹ * exL3u⁻¹) a = a
    revert a
    decide

/-- The constructor of the origami with three squares and explicit inverse maps. -/
example : ((newOrigami ℚ (fun _ : Fin 3 => True) [0, 1, 2] exL3r exL3u exL3r exL3u).toOption.map fun S => (S.opp 0 1).toOption) = some (some (some (1, 3))) := by
  decide +kernel

/-- A map that is not the inverse. -/
example : (newOrigami ℚ (fun _ : Fin 3 => True) [0, 1, 2] exL3r exL3u exL3u exL3u).toOption.map (fun _ => ()) = none := by
  decide +kernel

/-- The origami with three squares has one vertex of angle three. -/
example : (permOrigami ℚ (fun _ => True) exL3r exL3u).angleVertex (Rat.castHom ℝ) 13 (1, 0) = .ok 3 :=
  C73_angle castHom_strictMono (fun _ => Iff.rfl) (fun _ => Iff.rfl) trivial (n := 3) (by norm_num) (exL3_period 1) (by norm_num)

/-- The origami with three squares is in the stratum `H_2(2)`. -/
example : (permOrigami ℚ (fun _ => True) exL3r exL3u).abelianStratum (Rat.castHom ℝ) 13 [(0, 0)] = .ok [2] ∧
    (permOrigami ℚ (fun _ => True) exL3r exL3u).genus 13 [0, 1, 2] = .ok 2 := by
  have hcov : ∀ l : Fin 3, (exL3r * exL3u * exL3r⁻¹ * exL3u⁻¹).SameCycle 0 l := by
    intro l
    rw [Grid.sameCycle_iff_iterate (by rw [exL3_period]; norm_num), exL3_period]
    revert l
    decide
  obtain ⟨-, -, h1, g, h2, h3⟩ := C73_stratum (K := ℚ) (dom := fun _ => True) castHom_strictMono (r := exL3r) (u := exL3u) (fun _ => Iff.rfl) (fun _ => Iff.rfl) (ls := [0, 1, 2]) (by decide) (by decide)
    (cs := [0]) (fun _ _ => trivial) (List.pairwise_singleton _ _) (fun l _ => ⟨0, by simp, hcov l⟩) (fuel := 13) (by norm_num)
  simp only [List.map_cons, List.map_nil, exL3_period] at h1 h3
  have hg : g = 2 := by
    simp at h3
    omega
  subst hg
  exact ⟨h1, h2⟩

/-- The origami with three squares is connected. -/
example : (permOrigami ℚ (fun _ => True) exL3r exL3u).Joined (fun _ => True) := by
  refine (C73_connected (fun _ => Iff.rfl) (fun _ => Iff.rfl)).2 fun a b _ _ => ?_
  have hr : exL3r ∈ Subgroup.closure {exL3r, exL3u} := Subgroup.subset_closure (by simp)
  have hu : exL3u ∈ Subgroup.closure {exL3r, exL3u} := Subgroup.subset_closure (by simp)
  have key : ∀ a b : Fin 3, (1 : Equiv.Perm (Fin 3)) a = b ∨ exL3r a = b ∨ exL3u a = b ∨ (exL3u * exL3r) a = b ∨ (exL3r * exL3u) a = b := by decide
  rcases key a b with h | h | h | h | h
  · exact ⟨_, one_mem _, h⟩
  · exact ⟨_, hr, h⟩
  · exact ⟨_, hu, h⟩
  · exact ⟨_, mul_mem hu hr, h⟩
  · exact ⟨_, mul_mem hr hu, h⟩

/-- **C73, violation.** Every origami is put into the category of connected surfaces (origami.py 51) without a check: two tori are not connected. -/
theorem C73_connected_violation : ¬ (permOrigami ℚ (fun _ : Fin 2 => True) 1 1).Joined (fun _ => True) := by
  rw [C73_connected (fun _ => Iff.rfl) (fun _ => Iff.rfl)]
  intro h
  obtain ⟨x, hx, h01⟩ := h 0 1 trivial trivial
  have : ({1, 1} : Set (Equiv.Perm (Fin 2))) ⊆ {1} := by simp
  have hx1 : x = 1 := by
    have := Subgroup.closure_mono this hx
    rwa [Subgroup.closure_singleton_one, Subgroup.mem_bot] at this
  subst hx1
  exact absurd h01 (by decide)

/-- A wrong inverse of the shift of the integers. -/
def exWrongLeft (x : ℤ) : ℤ := if x = 5 then 0 else x - 1

/-- **C73, violation.** The inverse maps are only checked for samples: an origami with infinitely many squares is created though one of its edges is glued
to an edge that is not glued back. -/
theorem C73_samples_violation : ∃ S, newOrigami ℚ (fun _ : ℤ => True) [0, 1, -1, 2, -2] (· + 1) (· + 1) exWrongLeft (· - 1) = .ok S ∧
    S.opp 5 3 = .ok (some (0, 1)) ∧ S.opp 0 1 = .ok (some (1, 3)) ∧ ¬ S.Closed (fun _ => True) := by
  refine ⟨_, by rw [C73_constructor, if_pos (by decide)], by decide +kernel, by decide +kernel, ?_⟩
  rw [C73_closed_iff]
  intro h
  exact absurd (h 5 trivial).1.2.2.2 (by decide)

end RSurf
end Flat
