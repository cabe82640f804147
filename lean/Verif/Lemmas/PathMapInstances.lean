import Verif.Lemmas.PathMap
import Verif.Lemmas.IntersectionDual
import Verif.Props.LazyTriangulate
import Verif.Props.Subdivide

/-!
# The images of edges under morphisms are compatible with gluings
-/

namespace Flat
namespace RSurf
variable {L K : Type} [Field K] [LinearOrder K] [IsStrictOrderedRing K] {R : Type} [CommRing R]

section
variable [DecidableEq L] {S T : RSurf L K} {valid : L → Prop}

theorem pathSum_apply {ds : List (L × ℕ)} (hn : ds.Nodup) (x : L × ℕ) : pathSum R ds x = if x ∈ ds then 1 else 0 := by
  induction ds with
  | nil => simp [pathSum]
  | cons d ds ih =>
    rw [List.nodup_cons] at hn
    rw [pathSum_cons, Pi.add_apply, ih hn.2, Pi.single_apply]
    by_cases h : x = d
    · subst h
      simp [hn.1]
    · simp [h]

/-- The boundary of a polygon. -/
theorem null_face (hT : T.Closed valid) (l : L) : T.Null valid (pathSum R ((List.range (T.sides l)).map fun e => (l, e))) := by
  have hn : ((List.range (T.sides l)).map fun e => (l, e)).Nodup := List.Nodup.map (fun a b h => (Prod.mk.inj h).2) List.nodup_range
  have hm : ∀ x, T.IsDart valid x → (x ∈ (List.range (T.sides l)).map (fun e => (l, e)) ↔ x.1 = l) := by
    rintro ⟨l', e⟩ hx
    have := ((isDart_iff hT.bordered _).1 hx).2
    simp only [List.mem_map, List.mem_range, Prod.mk.injEq]
    constructor
    · rintro ⟨_, -, rfl, -⟩; rfl
    · rintro rfl; exact ⟨e, this, rfl, rfl⟩
  refine ⟨fun l' => if l' = l then 1 else 0, fun d hd => ?_⟩
  rw [flow, pathSum_apply hn, pathSum_apply hn]
  simp only [hm d hd, hm _ (hT.oppF_dart hd)]

/-- A map that keeps the labels and numbers of the edges. -/
theorem pathMap_same (hS : S.Closed valid) (hT : T.Closed valid) (hs : ∀ l, valid l → T.sides l = S.sides l)
    (ho : ∀ d, S.IsDart valid d → T.oppF d = S.oppF d) : PathMap R S valid T valid fun d => [d] := by
  have hd : ∀ d, S.IsDart valid d → T.IsDart valid d := by
    intro d hd
    rw [isDart_iff hS.bordered] at hd
    rw [isDart_iff hT.bordered, hs _ hd.1]
    exact hd
  refine ⟨fun d h x hx => ?_, fun d h => ?_, fun d h => List.isChain_singleton _, fun d h => ⟨d, S.nextF d, rfl, rfl, ?_⟩, fun l hl => ?_⟩
  · rw [List.mem_singleton.1 hx]
    exact hd d h
  · simp [ho d h]
  · have : S.nextF d = T.nextF d := by unfold nextF; rw [hs _ h.1]
    rw [this]
    exact hT.sameVertex_next (hd d h)
  · have := null_face (R := R) hT l
    rw [hs l hl] at this
    have hflat : (List.range (S.sides l)).flatMap (fun e => [(l, e)]) = (List.range (S.sides l)).map fun e => (l, e) := by
      induction List.range (S.sides l) with
      | nil => rfl
      | cons e es ih => rw [List.flatMap_cons, ih]; rfl
    rw [← hflat] at this
    exact this

theorem pathMap_gl2r {g : Mat2 K} (hg : 0 < g.det) (hS : S.Closed valid) : PathMap R S valid (gl2r g S) valid fun d => [d] := by
  refine pathMap_same hS (C36_closed hg.ne' hS) (fun l hl => ?_) fun d hd => ?_
  · obtain ⟨p, hp, hv⟩ := hS.poly l hl
    obtain ⟨q, hq, -, h, -⟩ := C36_polygon hg.ne' hp hv
    rw [sides_eq hp, sides_eq hq, h]
  · refine oppF_eq ?_
    show (if g.det < 0 then _ else _) = _
    rw [if_neg (not_lt.2 hg.le), hS.opp!_oppF hd]
    rfl

/-- A map that cuts each edge into `k` edges. -/
theorem pathMap_subdivide {k : ℕ} (hk : 1 ≤ k) (hS : S.Closed valid) (hT : T.Closed valid) (hs : ∀ l, valid l → T.sides l = k * S.sides l)
    (ho : ∀ d, S.IsDart valid d → ∀ i < k, T.oppF (d.1, d.2 * k + i) = ((S.oppF d).1, (S.oppF d).2 * k + (k - 1 - i))) :
    PathMap R S valid T valid fun d => (List.range k).map fun i => (d.1, d.2 * k + i) := by
  have hd : ∀ d, S.IsDart valid d → ∀ i < k, T.IsDart valid (d.1, d.2 * k + i) := by
    intro d hd i hi
    rw [isDart_iff hS.bordered] at hd
    rw [isDart_iff hT.bordered]
    refine ⟨hd.1, ?_⟩
    show d.2 * k + i < T.sides d.1
    rw [hs _ hd.1]
    have : (d.2 + 1) * k ≤ S.sides d.1 * k := Nat.mul_le_mul_right k hd.2
    nlinarith
  refine ⟨?_, ?_, ?_, ?_, ?_⟩
  · intro d h x hx
    obtain ⟨i, hi, rfl⟩ := List.mem_map.1 hx
    exact hd d h i (List.mem_range.1 hi)
  · intro d h
    refine List.ext_getElem (by simp) fun i h1 h2 => ?_
    have hi : i < k := by simpa using h1
    rw [List.getElem_reverse]
    simp only [List.getElem_map, List.getElem_range, List.length_map, List.length_range]
    rw [ho d h _ (by omega)]
    simp only [Prod.mk.injEq, true_and]
    omega
  · intro d h
    rw [List.isChain_iff_getElem]
    intro i hi
    have hi : i + 1 < k := by simpa using hi
    simp only [List.getElem_map, List.getElem_range]
    have h1 := hT.sameVertex_next (hd d h i (by omega))
    have h2 : T.nextF (d.1, d.2 * k + i) = (d.1, d.2 * k + (i + 1)) := by
      have := ((isDart_iff hT.bordered _).1 (hd d h (i + 1) hi)).2
      unfold nextF
      dsimp only at this ⊢
      rw [Nat.mod_eq_of_lt (by omega)]
      rfl
    rwa [h2] at h1
  · intro d h
    obtain ⟨hl, he⟩ := (isDart_iff hS.bordered _).1 h
    refine ⟨(d.1, d.2 * k + (k - 1)), ((S.nextF d).1, (S.nextF d).2 * k + 0), ?_, ?_, ?_⟩
    · obtain ⟨k, rfl⟩ : ∃ j, k = j + 1 := ⟨k - 1, by omega⟩
      rw [List.range_succ, List.map_append]
      simp
    · obtain ⟨k, rfl⟩ : ∃ j, k = j + 1 := ⟨k - 1, by omega⟩
      rw [List.range_succ_eq_map]
      simp
    · have h1 := hT.sameVertex_next (hd d h (k - 1) (by omega))
      have h2 : T.nextF (d.1, d.2 * k + (k - 1)) = ((S.nextF d).1, (S.nextF d).2 * k + 0) := by
        unfold nextF
        dsimp only
        rw [hs _ hl, show d.2 * k + (k - 1) + 1 = (d.2 + 1) * k by rw [add_mul]; omega, mul_comm k (S.sides d.1), Nat.mul_mod_mul_right]
        rfl
      rwa [h2] at h1
  · intro l hl
    have h1 := null_face (R := R) hT l
    have h2 : (List.range (S.sides l)).flatMap (fun e => (List.range k).map fun i => (l, e * k + i)) = (List.range (T.sides l)).map fun e => (l, e) := by
      rw [hs l hl]
      generalize S.sides l = n
      induction n with
      | zero => simp
      | succ n ih =>
        rw [List.range_succ, List.flatMap_append, ih, show k * (n + 1) = k * n + k by ring, List.range_add, List.map_append]
        simp [mul_comm n k]
    rw [← h2] at h1
    exact h1

end

section
variable [LinearOrder L] [LabelNum L] [TupleLabel L] {S : RSurf L K} {valid : L → Prop} {has sel : L → Bool}

/-- The edges of the polygons in the triangulation. -/
theorem pathMap_triangulated (hS : S.Closed valid) (hhas : ∀ l, has l = true ↔ valid l) (htag : ∀ l k, valid l → ¬ valid (tag l k))
    (hfin : Finite {d // (S.lazyTriangulated has sel).IsDart (fun x => ∃ l, S.refLabel has sel x = .ok l) d}) : ∃ rep : L → ℕ → L × ℕ,
    PathMap R S valid (S.lazyTriangulated has sel) (fun x => ∃ l, S.refLabel has sel x = .ok l) (fun d => [rep d.1 d.2]) ∧
    (∀ d, S.IsDart valid d → ∃ i, S.triImage sel d.1 = .ok i ∧ i.2.get d.2 = some ((rep d.1 d.2).1, ((rep d.1 d.2).2 : Int))) ∧
    ((∀ d, S.IsDart valid d → S.opp d.1 d.2 ≠ .ok (some d)) → ∀ d, (S.lazyTriangulated has sel).IsDart (fun x => ∃ l, S.refLabel has sel x = .ok l) d →
      (S.lazyTriangulated has sel).opp d.1 d.2 ≠ .ok (some d)) := by
  obtain ⟨rep, h1, h2, h3⟩ := lazy_gluing (sel := sel) hS hhas htag
  have hT := C56_closed (sel := sel) hS hhas htag
  generalize hTS : S.lazyTriangulated has sel = T at *
  have hval : ∀ {x l}, S.refLabel has sel x = .ok l → valid l := fun h => ((refLabel_iff hS hhas htag).1 h).1
  have hdart : ∀ d, S.IsDart valid d → T.IsDart (fun x => ∃ l, S.refLabel has sel x = .ok l) (rep d.1 d.2) := by
    rintro ⟨l, e⟩ ⟨hl, p, hp, he⟩
    obtain ⟨r1, ⟨q, hq, hj, -⟩, -⟩ := h1 l p e hl hp he
    exact ⟨⟨l, r1⟩, q, hq, hj⟩
  have hopp : ∀ d, S.IsDart valid d → T.oppF (rep d.1 d.2) = rep (S.oppF d).1 (S.oppF d).2 := by
    intro d hd
    obtain ⟨hl, p, hp, he⟩ := id hd
    obtain ⟨-, -, -, h⟩ := h1 d.1 p d.2 hl hp he
    exact oppF_eq (h _ _ (hS.opp_oppF hd))
  have hnext : ∀ d, S.IsDart valid d → T.SameVertex (fun x => ∃ l, S.refLabel has sel x = .ok l) (T.oppF (rep d.1 d.2)) (rep (S.nextF d).1 (S.nextF d).2) := by
    rintro ⟨l, e⟩ hd
    obtain ⟨hl, p, hp, he⟩ := id hd
    dsimp only at hl hp he
    have hpv : p.Valid := by
      obtain ⟨p', hp', hv⟩ := hS.poly l hl
      rw [hp] at hp'
      cases hp'
      exact hv
    have hnd : S.nextF (l, e) = (l, (e + 1) % p.length) := by unfold nextF; rw [sides_eq hp]
    rw [hnd]
    have hlt : (e + 1) % p.length < p.length := Nat.mod_lt _ (by omega)
    have hsd : S.IsDart valid (l, (e + 1) % p.length) := ⟨hl, p, hp, hlt⟩
    by_contra hcon
    let a : {d // T.IsDart (fun x => ∃ l, S.refLabel has sel x = .ok l) d} := ⟨rep l ((e + 1) % p.length), hdart _ hsd⟩
    -- an edge inside of the polygon that starts at the vertex
    let P : {d // T.IsDart (fun x => ∃ l, S.refLabel has sel x = .ok l) d} → Prop := fun b =>
      S.refLabel has sel b.1.1 = .ok l ∧ (∃ q, T.polygon b.1.1 = .ok q ∧ q.vertex b.1.2 = p.vertex (e + 1)) ∧
        T.SameVertex (fun x => ∃ l, S.refLabel has sel x = .ok l) b.1 a.1
    have hP0 : P a := by
      obtain ⟨r1, ⟨q, hq, -, v1, -⟩, -⟩ := h1 l p _ hl hp hlt
      exact ⟨r1, ⟨q, hq, by rw [v1, Poly.vertex_mod]⟩, .refl _⟩
    have hstep : ∀ b, P b → P (turnPerm hT b) ∧ ∀ i < p.length, rep l i ≠ (turnPerm hT b).1 := by
      intro b hb
      obtain ⟨b1, ⟨q, hq, hqv⟩, b3⟩ := hb
      -- the edge before
      have hc := next_opp_turn hT b
      generalize hcd : oppPerm hT (turnPerm hT b) = c at hc
      have hcv : (turnPerm hT b).1 = T.oppF c.1 := by rw [← hcd, ← oppPerm_val hT, oppPerm_oppPerm]
      have hcl : c.1.1 = b.1.1 := by rw [← hc]; rfl
      have hcn : b.1.2 = (c.1.2 + 1) % q.length := by
        have := congrArg (fun x => x.1.2) hc
        rw [← this]
        show (c.1.2 + 1) % T.sides c.1.1 = _
        rw [hcl, sides_eq hq]
      have hcq : c.1.2 < q.length := by
        have := ((isDart_iff hT.bordered _).1 c.2).2
        rwa [hcl, sides_eq hq] at this
      have hcv2 : q.vertex (c.1.2 + 1) = p.vertex (e + 1) := by rw [← hqv, hcn, Poly.vertex_mod]
      have hcs : T.SameVertex (fun x => ∃ l, S.refLabel has sel x = .ok l) (T.oppF c.1) b.1 := by
        have := hT.sameVertex_next c.2
        rwa [← nextPerm_val hT, hc] at this
      have hno : ∀ i < p.length, rep l i ≠ (b.1.1, c.1.2) := by
        intro i hi heq
        obtain ⟨-, ⟨q', hq', -, -, v2⟩, -⟩ := h1 l p i hl hp hi
        rw [heq] at hq' v2
        rw [hq] at hq'
        cases hq'
        dsimp only at v2
        rw [hcv2] at v2
        have hmod := hpv.vertex_inj v2
        have hie : i = e := by
          rw [mod_two (by omega), mod_two (by omega)] at hmod
          split_ifs at hmod <;> omega
        subst hie
        refine hcon ?_
        have hce : c.1 = rep l i := by rw [heq]; exact Prod.ext hcl rfl
        rw [hce] at hcs
        exact .trans _ _ _ hcs b3
      obtain ⟨x', j', q', o1, o2, o3, o4, o5, o6, o7, o8⟩ := h3 b.1.1 l q p c.1.2 b1 hq hcq hp hno
      have hco : T.oppF c.1 = (x', j') := oppF_eq (by rw [hcl]; exact o1)
      refine ⟨⟨?_, ⟨q', ?_, ?_⟩, ?_⟩, ?_⟩
      · rw [hcv, hco]; exact o2
      · rw [hcv, hco]; exact o3
      · rw [hcv, hco]; exact o7.trans hcv2
      · rw [hcv]; exact .trans _ _ _ hcs b3
      · rw [hcv, hco]; exact o5
    have hall : ∀ n, P ((turnPerm hT)^[n] a) := by
      intro n
      induction n with
      | zero => exact hP0
      | succ n ih =>
        rw [Function.iterate_succ_apply']
        exact (hstep _ ih).1
    have := isOfFinOrder_of_finite (turnPerm hT)
    rw [isOfFinOrder_iff_pow_eq_one] at this
    obtain ⟨n, hn, hpow⟩ := this
    obtain ⟨n, rfl⟩ : ∃ m, n = m + 1 := ⟨n - 1, by omega⟩
    have h4 := (hstep _ (hall n)).2 _ hlt
    rw [← Function.iterate_succ_apply' (turnPerm hT) n a, ← Equiv.Perm.coe_pow, hpow] at h4
    exact h4 rfl
  have hrep : ∀ l e l' e', S.IsDart valid (l, e) → S.IsDart valid (l', e') → rep l e = rep l' e' → l = l' ∧ e = e' := by
    rintro l e l' e' ⟨hl, p, hp, he⟩ ⟨hl', p', hp', he'⟩ h
    obtain ⟨r1, -, k, -⟩ := h1 l p e hl hp he
    obtain ⟨r2, -, -, -⟩ := h1 l' p' e' hl' hp' he'
    rw [← h, r1] at r2
    cases r2
    dsimp only at hp hp' he he'
    rw [hp] at hp'
    cases hp'
    exact ⟨rfl, (k e' he' h.symm).symm⟩
  refine ⟨rep, ⟨?_, ?_, fun d h => List.isChain_singleton _, fun d h => ⟨_, _, rfl, rfl, hnext d h⟩, ?_⟩, ?_, ?_⟩
  · intro d h x hx
    rw [List.mem_singleton.1 hx]
    exact hdart d h
  · intro d h
    simp [hopp d h]
  · intro l hl
    obtain ⟨p, hp, -⟩ := hS.poly l hl
    have hsd : ∀ e, S.IsDart valid (l, e) ↔ e < p.length := fun e =>
      ⟨fun ⟨_, p', hp', he⟩ => by dsimp only at hp' he; rw [hp] at hp'; cases hp'; exact he, fun he => ⟨hl, p, hp, he⟩⟩
    rw [sides_eq hp]
    have hflat : (List.range p.length).flatMap (fun e => [rep l e]) = (List.range p.length).map (rep l) := by
      induction List.range p.length with
      | nil => rfl
      | cons e es ih => rw [List.flatMap_cons, ih]; rfl
    have hn : ((List.range p.length).map (rep l)).Nodup := by
      refine List.Nodup.map_on (fun a ha b hb h => ?_) List.nodup_range
      exact (hrep l a l b ((hsd a).2 (List.mem_range.1 ha)) ((hsd b).2 (List.mem_range.1 hb)) h).2
    classical
    refine ⟨fun x => if S.refLabel has sel x = .ok l then 1 else 0, fun y hy => ?_⟩
    show T.flow (pathSum R ((List.range p.length).flatMap fun e => [rep l e])) y = _
    rw [hflat, flow, pathSum_apply hn, pathSum_apply hn]
    obtain ⟨⟨l1, hl1⟩, q, hq, hj⟩ := id hy
    obtain ⟨p1, hp1, -⟩ := hS.poly l1 (hval hl1)
    -- membership for the image of an edge
    have hm : ∀ d, S.IsDart valid d → (rep d.1 d.2 ∈ (List.range p.length).map (rep l) ↔ S.refLabel has sel (rep d.1 d.2).1 = .ok l) := by
      intro d hd
      obtain ⟨hl', p', hp', he'⟩ := id hd
      obtain ⟨r1, -⟩ := h1 d.1 p' d.2 hl' hp' he'
      rw [List.mem_map]
      constructor
      · rintro ⟨e, he, h⟩
        obtain ⟨rfl, -⟩ := hrep l e d.1 d.2 ((hsd e).2 (List.mem_range.1 he)) hd h
        exact r1
      · intro h
        rw [r1] at h
        cases h
        exact ⟨d.2, List.mem_range.2 ((hsd d.2).1 hd), rfl⟩
    by_cases hh : ∃ e < p1.length, rep l1 e = y
    · obtain ⟨e, he, rfl⟩ := hh
      have hd : S.IsDart valid (l1, e) := ⟨hval hl1, p1, hp1, he⟩
      have k1 := hm _ hd
      have k2 := hm _ (hS.oppF_dart hd)
      rw [← hopp _ hd] at k2
      dsimp only at k1 k2
      simp only [k1, k2]
    · push Not at hh
      obtain ⟨x', j', q', o1, o2, o3, o4, o5, -⟩ := h3 y.1 l1 q p1 y.2 hl1 hq hj hp1 hh
      have ho : T.oppF y = (x', j') := oppF_eq o1
      rw [ho]
      have hno : ∀ z, S.refLabel has sel z.1 = .ok l1 → (∀ e < p1.length, rep l1 e ≠ z) → z ∉ (List.range p.length).map (rep l) := by
        intro z hz hzn hmem
        obtain ⟨e, he, rfl⟩ := List.mem_map.1 hmem
        have he := List.mem_range.1 he
        obtain ⟨r1, -⟩ := h1 l p e hl hp he
        rw [r1] at hz
        cases hz
        rw [hp] at hp1
        cases hp1
        exact hzn e he rfl
      rw [if_neg (hno y hl1 hh), if_neg (hno (x', j') o2 o5)]
      dsimp only
      rw [hl1, o2, sub_self, sub_self]
  · rintro ⟨l, e⟩ ⟨hl, p, hp, he⟩
    exact h2 l p e hl hp he
  · intro hself y hy hyy
    obtain ⟨⟨l1, hl1⟩, q, hq, hj⟩ := id hy
    obtain ⟨p1, hp1, -⟩ := hS.poly l1 (hval hl1)
    by_cases hh : ∃ e < p1.length, rep l1 e = y
    · obtain ⟨e, he, rfl⟩ := hh
      have hd : S.IsDart valid (l1, e) := ⟨hval hl1, p1, hp1, he⟩
      have k := hopp _ hd
      rw [oppF_eq hyy] at k
      obtain ⟨k1, k2⟩ := hrep _ _ _ _ hd (hS.oppF_dart hd) k
      refine hself _ hd ?_
      rw [hS.opp_oppF hd]
      exact congrArg (fun x => Except.ok (some x)) (Prod.ext k1.symm k2.symm)
    · push Not at hh
      obtain ⟨x', j', q', o1, o2, o3, o4, o5, o6, o7, o8⟩ := h3 y.1 l1 q p1 y.2 hl1 hq hj hp1 hh
      rw [hyy] at o1
      cases o1
      rw [hq] at o3
      cases o3
      -- an edge of a polygon is not a point
      obtain ⟨q', hq', hv⟩ := hT.poly x' ⟨l1, hl1⟩
      rw [hq] at hq'
      cases hq'
      have hlen := hv.1
      have := hv.vertex_inj o7
      rw [mod_two (by dsimp only at hj; omega), mod_two (by dsimp only at hj; omega)] at this
      split_ifs at this <;> omega

end

end RSurf
end Flat
