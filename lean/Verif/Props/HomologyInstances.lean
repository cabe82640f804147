import Verif.Props.HomologyMaps
import Verif.Lemmas.PathMapInstances
import Verif.Props.RamifiedCover
import Verif.Props.EulerInvariance
import Verif.Props.HomologyGroupExamples

/-!
# C78: linear maps, subdivisions of edges and triangulations act on homology
-/

namespace Flat
open Module
namespace RSurf
variable {K : Type} [Field K] [LinearOrder K] [IsStrictOrderedRing K] {R : Type} [CommRing R]

theorem pathChain_singleton {L : Type} [DecidableEq L] (T : RSurf L K) (sx : List (L × ℕ)) (d : L × ℕ) : T.pathChain (R := R) sx [d] = T.toChain sx d := by
  simp only [pathChain, bind, Except.bind, pure, Except.pure]
  cases T.toChain (R := R) sx d with
  | error e => rfl
  | ok c => simp

section
variable {L : Type} [DecidableEq L] {S : RSurf L K} {valid : L → Prop}

/-- **C78.** The identity of a surface acts as the identity on homology. -/
theorem C78_identity_morphism [Nontrivial R] (hS : S.Closed valid) (hself : ∀ d, S.IsDart valid d → S.opp d.1 d.2 ≠ .ok (some d)) (X : HData S valid R) :
    MapsHomology X X (S.sameEdge X.sx) ∧ ∀ x y : X.group.Chain, S.boundary1 X.fuel ∅ (items X.sx (chainOf X.sx x)) = .ok 0 →
      HGroup.call (.induced (edgeClasses X.sx X.sx (S.sameEdge X.sx)) : HMor X.group X.group) x = .ok y → X.group.eq y x = .ok true := by
  have h := C78_path_map hS hS hself hself X X (pathMap_same (R := R) hS hS (fun _ _ => rfl) fun _ _ => rfl) (S.sameEdge X.sx)
    fun d _ => (pathChain_singleton S X.sx d).symm
  refine ⟨h, fun x y hx hy => ?_⟩
  obtain ⟨f, c, rfl, hc, -, hf⟩ := h
  obtain ⟨y', h1, -, h2⟩ := hf x hx
  rw [hy] at h1
  cases h1
  have hn := (X.simplices hS).1
  have hcs : ∀ i : Fin X.sx.length, (c i : Fin X.sx.length → R) = Pi.single i 1 := by
    intro i
    have := hc i
    unfold sameEdge toChain at this
    rw [if_pos (show X.sx[i] ∈ X.sx from List.getElem_mem i.2)] at this
    have := Except.ok.inj this
    refine funext fun j : Fin X.sx.length => ?_
    have e := chainOf_get hn (c i) j
    rw [← e, ← this, Pi.single_apply, Pi.single_apply (M := R) i 1 j]
    by_cases hij : j = i
    · rw [hij, if_pos rfl, if_pos rfl]
    · rw [if_neg hij, if_neg]
      intro h
      exact hij (Fin.ext ((List.Nodup.getElem_inj_iff hn).1 h))
  have key : ∀ {n : ℕ} (x : Fin n → R) (c : Fin n → Fin n → R), (∀ i, c i = Pi.single i 1) → ∑ i, x i • c i = x := by
    intro n x c hc
    funext j
    rw [Finset.sum_apply, Finset.sum_eq_single j]
    · rw [hc, Pi.smul_apply, Pi.single_eq_same, smul_eq_mul, mul_one]
    · intro b _ hb
      rw [hc, Pi.smul_apply, Pi.single_eq_of_ne (Ne.symm hb), smul_zero]
    · simp
  have : (∑ i : Fin X.sx.length, x i • c i) = x := key x c hcs
  rwa [this] at h2

/-- **C78**, for matrices of positive determinant: `matrix * surface` acts on homology, by the edges with the same numbers, whose vectors are the images of
the vectors of the edges. Missing: matrices of negative determinant, see `C78_gl2r_violation`. -/
theorem C78_gl2r_partial [Nontrivial R] {g : Mat2 K} (hg : 0 < g.det) (hS : S.Closed valid) (hself : ∀ d, S.IsDart valid d → S.opp d.1 d.2 ≠ .ok (some d))
    (X : HData S valid R) (Y : HData (gl2r g S) valid R) : MapsHomology X Y ((gl2r g S).sameEdge Y.sx) ∧
      ∀ l p e, valid l → S.polygon l = .ok p → e < p.length → ∃ q, (gl2r g S).polygon l = .ok q ∧
        q.vertex (e + 1) - q.vertex e = g.mulVec (p.vertex (e + 1) - p.vertex e) := by
  refine ⟨?_, fun l p e hl hp he => ?_⟩
  · have hT := C36_closed hg.ne' hS
    have hP := pathMap_gl2r (R := R) hg hS
    refine C78_path_map hS hT hself ?_ X Y hP _ fun d _ => (pathChain_singleton _ Y.sx d).symm
    intro d hd h
    have hd' : S.IsDart valid d := by
      obtain ⟨hl, q, hq, he⟩ := hd
      obtain ⟨p, hp, hv⟩ := hS.poly d.1 hl
      obtain ⟨q', hq', -, hlen, -⟩ := C36_polygon hg.ne' hp hv
      rw [hq] at hq'
      cases hq'
      exact ⟨hl, p, hp, hlen ▸ he⟩
    have h1 := hP.rev d hd'
    simp only [List.map_cons, List.map_nil, List.reverse_cons, List.reverse_nil, List.nil_append, List.cons.injEq, and_true] at h1
    rw [oppF_eq h] at h1
    exact hself d hd' (by rw [hS.opp_oppF hd']; exact congrArg (fun x => Except.ok (some x)) h1)
  · obtain ⟨p', hp', hv⟩ := hS.poly l hl
    rw [hp] at hp'
    cases hp'
    obtain ⟨q, h1, -, -, -, -, h2, -⟩ := C36_polygon hg.ne' hp hv
    obtain ⟨k1, k2⟩ := h2 hg e he
    refine ⟨q, h1, ?_⟩
    rw [k1, k2, Poly.mulVec_sub]

end

section
variable {L : Type} [LinearOrder L] [LabelNum L] [TupleLabel L] {S : RSurf L K} {valid : L → Prop} {has sel : L → Bool}

/-- **C78.** Triangulations act on homology. -/
theorem C78_triangulate [Nontrivial R] (hS : S.Closed valid) (hhas : ∀ l, has l = true ↔ valid l) (htag : ∀ l k, valid l → ¬ valid (tag l k))
    (hself : ∀ d, S.IsDart valid d → S.opp d.1 d.2 ≠ .ok (some d)) (X : HData S valid R)
    (Y : HData (S.lazyTriangulated has sel) (fun x => ∃ l, S.refLabel has sel x = .ok l) R) :
    MapsHomology X Y (S.triangulatedEdge has sel Y.sx) ∧ ∀ l p e, valid l → S.polygon l = .ok p → e < p.length →
      ∃ i x j q, S.triImage sel l = .ok i ∧ i.2.get e = some (x, ((j : ℕ) : Int)) ∧ (S.lazyTriangulated has sel).polygon x = .ok q ∧ j < q.length ∧
        q.vertex j = p.vertex e ∧ q.vertex (j + 1) = p.vertex (e + 1) := by
  have hT := C56_closed (sel := sel) hS hhas htag
  obtain ⟨rep, h1, h2, h3⟩ := pathMap_triangulated (R := R) (sel := sel) hS hhas htag (dart_finite (Y.darts hT).2)
  refine ⟨C78_path_map hS hT hself (h3 hself) X Y h1 _ fun d hd => ?_, fun l p e hl hp he => ?_⟩
  · obtain ⟨i, k1, k2⟩ := h2 d hd
    rw [pathChain_singleton]
    simp only [triangulatedEdge, k1, k2, bind, Except.bind]
    rfl
  · obtain ⟨rep', g1, g2, -⟩ := lazy_gluing (sel := sel) hS hhas htag
    obtain ⟨i, k1, k2⟩ := g2 l p e hl hp he
    obtain ⟨-, ⟨q, q1, q2, q3, q4⟩, -⟩ := g1 l p e hl hp he
    exact ⟨i, _, _, q, k1, k2, q1, q2, q3, q4⟩

end

section
variable {L : Type} [LinearOrder L] [LabelNum L]
open MSurf

/-- **C78.** Subdividing the edges of a connected surface acts on homology: an edge maps to the sum of its pieces. -/
theorem C78_subdivide_edges_partial [Nontrivial R] {s : MSurf L (Poly K)} (h : Reachable s) {r : L} (hroot : s.rootsList = .ok [r]) {k : ℕ} (hk : 1 ≤ k)
    (hv : ∀ l p, s.polygon l = .ok p → p.Valid) (hb : ∀ l p (e : ℕ), s.polygon l = .ok p → e < p.length → s.oppositeEdge l e ≠ .ok none)
    (hself : ∀ l p (e : ℕ), s.polygon l = .ok p → e < p.length → s.oppositeEdge l e ≠ .ok (some (l, e))) :
    ∃ t, s.subdivideEdges k MSurf.empty = .ok () t ∧ (ofMSurf t).Closed (fun l => ∃ p, s.polygon l = .ok p) ∧
      ∀ (X : HData (ofMSurf s) (fun l => ∃ p, s.polygon l = .ok p) R) (Y : HData (ofMSurf t) (fun l => ∃ p, s.polygon l = .ok p) R),
        MapsHomology X Y ((ofMSurf t).subdividedEdge Y.sx k) := by
  obtain ⟨t, ht, hreach, -, hpoly, hopp, -⟩ := C31_subdivide_edges_partial h hroot hk hv
  have hS := closed_ofMSurf h.ginv hv hb
  have hvq : ∀ l q, t.polygon l = .ok q → q.Valid := by
    intro l q hq
    obtain ⟨p, hp, hq⟩ := (hpoly l q).1 hq
    obtain ⟨q', hq', hv'⟩ := Poly.C13_subdivide_edges_total (hv l p hp) hk
    rw [hq] at hq'
    cases hq'
    exact hv'
  have hlen : ∀ l p q, s.polygon l = .ok p → t.polygon l = .ok q → q.length = k * p.length := by
    intro l p q hp hq
    obtain ⟨p', hp', hq⟩ := (hpoly l q).1 hq
    rw [hp] at hp'
    cases hp'
    exact (Poly.C13_subdivide_edges _ _ _ hq).2.1
  have hval : (fun l => ∃ p, t.polygon l = .ok p) = fun l => ∃ p, s.polygon l = .ok p := by
    funext l
    refine propext ⟨fun ⟨q, hq⟩ => ?_, fun ⟨p, hp⟩ => ?_⟩
    · obtain ⟨p, hp, -⟩ := (hpoly l q).1 hq
      exact ⟨p, hp⟩
    · obtain ⟨q, hq, -⟩ := Poly.C13_subdivide_edges_total (hv l p hp) hk
      exact ⟨q, (hpoly l q).2 ⟨p, hp, hq⟩⟩
  -- the gluings of the pieces
  have hglue : ∀ l p (e i : ℕ), s.polygon l = .ok p → e < p.length → i < k → ∃ l' e', (ofMSurf s).opp l e = .ok (some (l', e')) ∧
      t.oppositeEdge l ((e * k + i : ℕ) : Int) = .ok (some (l', ((e' * k + (k - 1 - i) : ℕ) : Int))) ∧ s.oppositeEdge l e = .ok (some (l', (e' : Int))) := by
    intro l p e i hp he hi
    have hE : s.IsEdge l e := ⟨p, MSurf.polygon_ok.1 hp, he⟩
    have h1 := MSurf.oppositeEdge_eq_opp h.ginv.toShape hE
    cases ho : s.opp l e with
    | none => exact absurd (h1.trans (by rw [ho])) (hb l p e hp he)
    | some c =>
      obtain ⟨l', e'⟩ := c
      obtain ⟨j, rfl, -⟩ := h.ginv.inv l e l' e' ho
      rw [ho] at h1
      refine ⟨l', j, ofMSurf_opp (c := some (l', j)) h1, ?_, h1⟩
      rw [hopp l p e i hp he hi _ h1]
      simp
  have hdm : ∀ x n : ℕ, x < k * n → ∃ e i, x = e * k + i ∧ e < n ∧ i < k := fun x n hx =>
    ⟨x / k, x % k, by rw [mul_comm]; exact (Nat.div_add_mod x k).symm, Nat.div_lt_of_lt_mul hx, Nat.mod_lt _ (by omega)⟩
  have hT : (ofMSurf t).Closed (fun l => ∃ p, s.polygon l = .ok p) := by
    rw [← hval]
    refine closed_ofMSurf hreach.ginv hvq fun l q x hq hx => ?_
    obtain ⟨p, hp, -⟩ := (hpoly l q).1 hq
    rw [hlen l p q hp hq] at hx
    obtain ⟨e, i, rfl, he, hi⟩ := hdm x _ hx
    obtain ⟨l', e', -, g, -⟩ := hglue l p e i hp he hi
    rw [g]
    simp
  refine ⟨t, ht, hT, fun X Y => ?_⟩
  have hs : ∀ l, (∃ p, s.polygon l = .ok p) → (ofMSurf t).sides l = k * (ofMSurf s).sides l := by
    rintro l ⟨p, hp⟩
    have : ∃ q, t.polygon l = .ok q := by
      have := congrFun hval l
      rw [this]
      exact ⟨p, hp⟩
    obtain ⟨q, hq⟩ := this
    rw [sides_eq (S := ofMSurf s) hp, sides_eq (S := ofMSurf t) hq, hlen l p q hp hq]
  have hP : PathMap R (ofMSurf s) (fun l => ∃ p, s.polygon l = .ok p) (ofMSurf t) (fun l => ∃ p, s.polygon l = .ok p)
      fun d => (List.range k).map fun i => (d.1, d.2 * k + i) := by
    refine pathMap_subdivide hk hS hT hs ?_
    rintro ⟨l, e⟩ ⟨-, p, hp, he⟩ i hi
    obtain ⟨l', e', g1, g2, -⟩ := hglue l p e i hp he hi
    rw [show (ofMSurf s).oppF (l, e) = _ from oppF_eq g1]
    exact oppF_eq (ofMSurf_opp (c := some (l', e' * k + (k - 1 - i))) g2)
  refine C78_path_map hS hT ?_ ?_ X Y hP _ fun d _ => rfl
  · rintro ⟨l, e⟩ ⟨-, p, hp, he⟩ hd
    obtain ⟨l', e', g1, -, g3⟩ := hglue l p e 0 hp he (by omega)
    rw [show (ofMSurf s).opp l e = _ from g1] at hd
    cases hd
    exact hself l p e hp he g3
  · rintro ⟨l, x⟩ ⟨-, q, hq, hx⟩ hd
    obtain ⟨p, hp, -⟩ := (hpoly l q).1 hq
    dsimp only at hx hd
    rw [hlen l p q hp hq] at hx
    obtain ⟨e, i, rfl, he, hi⟩ := hdm x _ hx
    obtain ⟨l', e', g1, g2, g3⟩ := hglue l p e i hp he hi
    rw [ofMSurf_opp (c := some (l', e' * k + (k - 1 - i))) g2] at hd
    simp only [Except.ok.injEq, Option.some.injEq, Prod.mk.injEq] at hd
    obtain ⟨rfl, hd⟩ := hd
    have : e' = e := by
      have h1 : (e' * k + (k - 1 - i)) / k = e' := by rw [Nat.mul_comm, Nat.mul_add_div (by omega), Nat.div_eq_of_lt (by omega), add_zero]
      have h2 : (e * k + i) / k = e := by rw [Nat.mul_comm, Nat.mul_add_div (by omega), Nat.div_eq_of_lt (by omega), add_zero]
      rw [← h1, ← h2, hd]
    subst this
    exact hself _ p e' hp he g3

end

/-- **C78**, what is wrong: under the reflection of the square torus at the vertical axis, the horizontal edge is mapped to the edge with the same number,
which is the vertical edge of the image. -/
theorem C78_gl2r_violation : ∃ (g : Mat2 ℚ) (q : Poly ℚ), squareTorus.Closed (fun _ => True) ∧ g.det ≠ 0 ∧ squareTorus.polygon () = .ok Poly.exSquare ∧
    (gl2r g squareTorus).polygon () = .ok q ∧
    (∀ sx, ((), 0) ∈ sx → (gl2r g squareTorus).sameEdge (R := ℤ) sx ((), 0) = .ok (Pi.single ((), 0) 1)) ∧
    g.mulVec (Poly.exSquare.vertex 1 - Poly.exSquare.vertex 0) = (-1, 0) ∧ q.vertex 1 - q.vertex 0 = (0, 1) := by
  refine ⟨⟨-1, 0, 0, 1⟩, [(0, 0), (0, 1), (-1, 1), (-1, 0)], squareTorus_closed, by decide +kernel, rfl, by decide +kernel, fun sx h => ?_, by decide +kernel,
    by decide +kernel⟩
  unfold sameEdge toChain
  rw [if_pos h]

/-- `C78_identity_morphism`, `C78_gl2r_partial` and `C78_path_map` in genus 2, for a shear. -/
example : ∃ (X : HData exThree (fun _ => True) ℤ) (Y : HData (gl2r ⟨1, 1, 0, 1⟩ exThree) (fun _ => True) ℤ),
    MapsHomology X X (exThree.sameEdge X.sx) ∧ MapsHomology X Y ((gl2r ⟨1, 1, 0, 1⟩ exThree).sameEdge Y.sx) := by
  have hg : (0 : ℚ) < Mat2.det ⟨1, 1, 0, 1⟩ := by decide +kernel
  have hopp : ∀ e < 4, ∀ l : Fin 3, (gl2r ⟨1, 1, 0, 1⟩ exThree).opp l e = exThree.opp l e := by decide +kernel
  have hpol : ∀ l : Fin 3, (gl2r ⟨1, 1, 0, 1⟩ exThree).polygon l = .ok [(0, 0), (1, 0), (2, 1), (1, 1)] := by decide +kernel
  have hj : (gl2r ⟨1, 1, 0, 1⟩ exThree).Joined (fun _ => True) := by
    intro a b ha hb
    refine Relation.EqvGen.mono ?_ a b (exThree_joined a b ha hb)
    rintro a b ⟨e, e', ⟨-, p, hp, he⟩, ho⟩
    unfold exThree at hp
    injection hp with hp
    subst hp
    exact ⟨e, e', ⟨trivial, _, hpol a, he⟩, by rw [hopp e he]; exact ho⟩
  have hs : ∀ d, (gl2r ⟨1, 1, 0, 1⟩ exThree).IsDart (fun _ => True) d → (gl2r ⟨1, 1, 0, 1⟩ exThree).opp d.1 d.2 ≠ .ok (some d) := by
    rintro ⟨l, e⟩ ⟨-, p, hp, he⟩
    rw [hpol] at hp
    injection hp with hp
    subst hp
    show (gl2r ⟨1, 1, 0, 1⟩ exThree).opp l e ≠ _
    rw [hopp e he]
    exact exThree_not_self (l, e) ⟨trivial, _, rfl, he⟩
  obtain ⟨X, -⟩ := C78_homology_exists exThree_closed exThree_joined exThree_not_self (ls := [0, 1, 2]) (by decide) (by decide) (by decide) ℤ
  obtain ⟨Y, -⟩ := C78_homology_exists (C36_closed hg.ne' exThree_closed) hj hs (ls := [0, 1, 2]) (by decide) (by decide) (by decide) ℤ
  exact ⟨X, Y, (C78_identity_morphism exThree_closed exThree_not_self X).1, (C78_gl2r_partial hg exThree_closed exThree_not_self X Y).1⟩

/-- `C78_subdivide_edges_partial` for a torus made from two triangles. -/
example : ∃ t, MSurf.exTorus.subdivideEdges 3 MSurf.empty = .ok () t ∧
    ∀ (X : HData (ofMSurf MSurf.exTorus) (fun l => ∃ p, MSurf.exTorus.polygon l = .ok p) ℤ)
      (Y : HData (ofMSurf t) (fun l => ∃ p, MSurf.exTorus.polygon l = .ok p) ℤ), MapsHomology X Y ((ofMSurf t).subdividedEdge Y.sx 3) := by
  obtain ⟨t, h1, -, h2⟩ := C78_subdivide_edges_partial (R := ℤ) MSurf.exTorus_reachable (r := 0) (by decide +kernel) (k := 3) (by norm_num)
    (fun l p hp => by
      obtain ⟨_, rfl⟩ := exTorus_polygon hp
      exact Poly.valid_triangle (by decide +kernel))
    (fun l p e hp he => by
      obtain ⟨hl, rfl⟩ := exTorus_polygon hp
      have he : e < 3 := he
      rcases hl with rfl | rfl <;> interval_cases e <;> decide +kernel)
    (fun l p e hp he => by
      obtain ⟨hl, rfl⟩ := exTorus_polygon hp
      have he : e < 3 := he
      rcases hl with rfl | rfl <;> interval_cases e <;> decide +kernel)
  exact ⟨t, h1, h2⟩

open TLabel in
/-- The hypotheses of `C78_triangulate` hold for the square torus. -/
example : exSquare.Closed (fun l => l = num 0) ∧ (∀ l, decide (l = (num 0 : TLabel)) = true ↔ l = num 0) ∧
    (∀ (l : TLabel) k, l = num 0 → ¬ tag l k = num 0) ∧ ∀ d, exSquare.IsDart (fun l => l = num 0) d → exSquare.opp d.1 d.2 ≠ .ok (some d) := by
  refine ⟨exSquare_closed, by simp, ?_, ?_⟩
  · rintro l k rfl h
    have := TupleLabel.untag_num (L := TLabel) 0
    rw [← h, (TupleLabel.untag_iff _ _ _).2 rfl] at this
    simp at this
  · rintro ⟨l, e⟩ ⟨rfl, p, hp, he⟩
    have hq : exSquare.polygon (num 0) = .ok [(0, 0), (1, 0), (1, 1), (0, 1)] := by decide +kernel
    dsimp only at hp
    rw [hq] at hp
    injection hp with hp
    subst hp
    have he : e < 4 := he
    interval_cases e <;> decide +kernel

end RSurf
end Flat
