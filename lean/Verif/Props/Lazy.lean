import Verif.Model.Lazy
import Verif.Lemmas.PolyMap
import Mathlib.Tactic.IntervalCases

/-!
# C36, C37: images under matrices and relabelings
-/

namespace Flat
namespace RSurf
variable {L K : Type} [Field K] [LinearOrder K] [IsStrictOrderedRing K]

/-- A closed surface with labels `valid`: each label has a polygon that the constructor of polygons accepts, and
`opposite_edge` is an involution of the edges of all polygons. -/
structure Closed (S : RSurf L K) (valid : L → Prop) : Prop where
  poly : ∀ l, valid l → ∃ p, S.polygon l = .ok p ∧ p.Valid
  glue : ∀ l p e, valid l → S.polygon l = .ok p → e < p.length → ∃ l' e' p', S.opp l e = .ok (some (l', e')) ∧ valid l' ∧
    S.polygon l' = .ok p' ∧ e' < p'.length ∧ S.opp l' e' = .ok (some (l, e))

/-- For glued edges of polygons the relation `R` holds between their vectors. -/
def GluedBy (S : RSurf L K) (valid : L → Prop) (R : Vec K → Vec K → Prop) : Prop :=
  ∀ l e l' e' p p', valid l → S.polygon l = .ok p → e < p.length → S.opp l e = .ok (some (l', e')) → S.polygon l' = .ok p' →
    R (p.edge e) (p'.edge e')

theorem opp!_ok {S : RSurf L K} {l : L} {e : ℕ} {c : L × ℕ} (h : S.opp l e = .ok (some c)) : S.opp! l e = .ok c := by
  unfold opp!
  rw [h]
  rfl

theorem opp!_none {S : RSurf L K} {l : L} {e : ℕ} (h : S.opp l e = .ok none) : S.opp! l e = .error .typeError := by
  unfold opp!
  rw [h]
  rfl

theorem mulE_ok {g : Mat2 K} {p : Poly K} (hg : g.det ≠ 0) : ∃ q, mulE g p = .ok q ∧ p.mul g = some q := by
  obtain ⟨q, hq⟩ := Option.isSome_iff_exists.1 ((Poly.C10_mul_defined g p).2 hg)
  exact ⟨q, by unfold mulE; rw [hq], hq⟩

theorem mulE_eq {g : Mat2 K} {p q : Poly K} : mulE g p = .ok q ↔ p.mul g = some q := by
  unfold mulE
  cases p.mul g with
  | none => simp
  | some q' => simp

/-- The number of edge `e` of an `n`-gon in its image under a matrix. -/
def imageEdge (g : Mat2 K) (n e : ℕ) : ℕ := if g.det < 0 then n - 1 - e else e

/-! ### C36 -/

theorem gl2r_polygon {g : Mat2 K} {S : RSurf L K} {l : L} {p : Poly K} (hp : S.polygon l = .ok p) :
    (gl2r g S).polygon l = mulE g p := by
  show (S.polygon l >>= fun p => mulE g p) = _
  rw [hp]
  rfl

/-- **C36.** `GL2RImageSurface`: the polygons are the images of the polygons; each edge is, up to sign, the image of an edge. -/
theorem C36_polygon {g : Mat2 K} (hg : g.det ≠ 0) {S : RSurf L K} {l : L} {p : Poly K} (hp : S.polygon l = .ok p) (hv : p.Valid) :
    ∃ q, (gl2r g S).polygon l = .ok q ∧ q.Valid ∧ q.length = p.length ∧ q.area = |g.det| * p.area ∧
      (∀ x, x ∈ q ↔ ∃ y ∈ p, x = g.mulVec y) ∧
      (0 < g.det → ∀ e < p.length, q.vertex e = g.mulVec (p.vertex e) ∧ q.vertex (e + 1) = g.mulVec (p.vertex (e + 1))) ∧
      (g.det < 0 → ∀ e < p.length, q.vertex (p.length - 1 - e) = g.mulVec (p.vertex (e + 1)) ∧
        q.vertex (p.length - 1 - e + 1) = g.mulVec (p.vertex e)) := by
  obtain ⟨q, h1, h2⟩ := mulE_ok (p := p) hg
  obtain ⟨k1, _, k2, _⟩ := Poly.C10_vertices g p q hv.ne_nil h2
  refine ⟨q, by rw [gl2r_polygon hp, h1], Poly.C10_mul_valid hv h2, k1, Poly.C09_area_mul g p q hv.ne_nil h2, ?_,
    fun hd e _ => ⟨k2 hd e, k2 hd (e + 1)⟩, fun hd e he => ⟨?_, ?_⟩⟩
  · intro x
    obtain ⟨_, ⟨_, rfl⟩ | ⟨_, a, l, rfl, rfl⟩⟩ := Poly.mul_eq g p hv.ne_nil q h2
    · simp [eq_comm]
    · simp [eq_comm]
  · exact Poly.vertex_mul_neg hv.ne_nil h2 hd _ _ (by rw [show e + 1 + (p.length - 1 - e) = p.length by omega]; simp)
  · exact Poly.vertex_mul_neg hv.ne_nil h2 hd _ _ (by rw [show e + (p.length - 1 - e + 1) = p.length by omega]; simp)

theorem imageEdge_edge {g : Mat2 K} {p q : Poly K} (hv : p.Valid) (h : p.mul g = some q) {e : ℕ} (he : e < p.length) :
    q.edge (imageEdge g p.length e) = if g.det < 0 then -g.mulVec (p.edge e) else g.mulVec (p.edge e) := by
  obtain ⟨k1, _, k2, _⟩ := Poly.C10_vertices g p q hv.ne_nil h
  have hd := (Poly.mul_eq g p hv.ne_nil q h).1
  unfold imageEdge Poly.edge
  split_ifs with h1
  · rw [Poly.vertex_mul_neg hv.ne_nil h h1 _ e (by rw [show e + (p.length - 1 - e + 1) = p.length by omega]; simp),
      Poly.vertex_mul_neg hv.ne_nil h h1 _ (e + 1) (by rw [show e + 1 + (p.length - 1 - e) = p.length by omega]; simp),
      ← Poly.mulVec_sub, neg_sub]
  · have h2 : 0 < g.det := lt_of_le_of_ne (not_lt.1 h1) (Ne.symm hd)
    rw [k2 h2, k2 h2, Poly.mulVec_sub]

theorem imageEdge_lt {g : Mat2 K} {n e : ℕ} (he : e < n) : imageEdge g n e < n := by
  unfold imageEdge; split_ifs <;> omega

theorem imageEdge_invol {g : Mat2 K} {n e : ℕ} (he : e < n) : imageEdge g n (imageEdge g n e) = e := by
  unfold imageEdge; split_ifs <;> omega

/-- **C36.** The image surface glues the images of exactly the edges that are glued in the surface, also if the matrix reverses
the orientation and edges are renumbered. -/
theorem C36_opposite_edge {g : Mat2 K} (hg : g.det ≠ 0) {S : RSurf L K} {valid : L → Prop} (hS : S.Closed valid)
    {l l' : L} {p p' : Poly K} {e e' : ℕ} (hl : valid l) (hp : S.polygon l = .ok p) (hp' : S.polygon l' = .ok p') (he : e < p.length)
    (he' : e' < p'.length) :
    (gl2r g S).opp l (imageEdge g p.length e) = .ok (some (l', imageEdge g p'.length e')) ↔ S.opp l e = .ok (some (l', e')) := by
  obtain ⟨l1, e1, p1, ho, hl1, hp1, he1, -⟩ := hS.glue l p e hl hp he
  obtain ⟨p0, hp0, hv⟩ := hS.poly l hl
  rw [hp] at hp0
  injection hp0 with hp0
  subst hp0
  obtain ⟨q, h1, h2⟩ := mulE_ok (p := p) hg
  have k1 := (Poly.C10_vertices g p q hv.ne_nil h2).1
  have key : (gl2r g S).opp l (imageEdge g p.length e) = .ok (some (l1, imageEdge g p1.length e1)) := by
    unfold gl2r imageEdge
    dsimp only
    split_ifs with hd
    · simp only [hp, h1, bind, Except.bind, k1]
      rw [if_neg (by omega)]
      simp only [show p.length - 1 - (p.length - 1 - e) = e by omega, opp!_ok ho, hp1]
      rfl
    · simp only [opp!_ok ho, bind, Except.bind]
      rfl
  rw [key, ho]
  simp only [Except.ok.injEq, Option.some.injEq, Prod.mk.injEq]
  constructor
  · rintro ⟨rfl, h⟩
    rw [hp1] at hp'
    injection hp' with hp'
    subst hp'
    refine ⟨rfl, ?_⟩
    rw [← imageEdge_invol (g := g) he1, h, imageEdge_invol he']
  · rintro ⟨rfl, rfl⟩
    rw [hp1] at hp'
    injection hp' with hp'
    subst hp'
    exact ⟨rfl, rfl⟩

/-- **C36.** The image of a closed surface under an invertible matrix is a closed surface. -/
theorem C36_closed {g : Mat2 K} (hg : g.det ≠ 0) {S : RSurf L K} {valid : L → Prop} (hS : S.Closed valid) :
    (gl2r g S).Closed valid := by
  constructor
  · intro l hl
    obtain ⟨p, hp, hv⟩ := hS.poly l hl
    obtain ⟨q, h1, h2, _⟩ := C36_polygon hg hp hv
    exact ⟨q, h1, h2⟩
  · intro l q e hl hq he
    obtain ⟨p, hp, hv⟩ := hS.poly l hl
    obtain ⟨q', h1, _, h3, _⟩ := C36_polygon hg hp hv
    rw [hq] at h1
    injection h1 with h1
    subst h1
    rw [h3] at he
    obtain ⟨l', e', p', ho, hl', hp', he', hback⟩ := hS.glue l p _ hl hp (imageEdge_lt (g := g) he)
    obtain ⟨p1, hp1, hv'⟩ := hS.poly l' hl'
    rw [hp'] at hp1
    injection hp1 with hp1
    subst hp1
    obtain ⟨q'', k1, _, k3, _⟩ := C36_polygon hg hp' hv'
    refine ⟨l', imageEdge g p'.length e', q'', ?_, hl', k1, by rw [k3]; exact imageEdge_lt he', ?_⟩
    · have := (C36_opposite_edge hg hS hl hp hp' (imageEdge_lt he) he').2 ho
      rwa [imageEdge_invol he] at this
    · have := (C36_opposite_edge hg hS hl' hp' hp he' (imageEdge_lt he)).2 hback
      rwa [imageEdge_invol he] at this

theorem C36_gluedBy {g : Mat2 K} (hg : g.det ≠ 0) {S : RSurf L K} {valid : L → Prop} (hS : S.Closed valid)
    {R R' : Vec K → Vec K → Prop} (hR : S.GluedBy valid R)
    (h : ∀ u v s, (s = 1 ∨ s = -1) → R u v → R' ((s : K) • g.mulVec u) (s • g.mulVec v)) : (gl2r g S).GluedBy valid R' := by
  intro l e l' e' q q' hl hq he ho hq'
  obtain ⟨p, hp, hv⟩ := hS.poly l hl
  obtain ⟨q0, h1, _, h3, _⟩ := C36_polygon hg hp hv
  rw [hq] at h1
  injection h1 with h1
  subst h1
  rw [h3] at he
  obtain ⟨l1, e1, p1, ho1, hl1, hp1, he1, -⟩ := hS.glue l p _ hl hp (imageEdge_lt (g := g) he)
  have := (C36_opposite_edge hg hS hl hp hp1 (imageEdge_lt he) he1).2 ho1
  rw [imageEdge_invol he, ho] at this
  simp only [Except.ok.injEq, Option.some.injEq, Prod.mk.injEq] at this
  obtain ⟨rfl, rfl⟩ := this
  obtain ⟨p2, hp2, hv1⟩ := hS.poly l' hl1
  rw [hp1] at hp2
  injection hp2 with hp2
  subst hp2
  have m1 : p.mul g = some q := mulE_eq.1 (by rw [← gl2r_polygon hp, hq])
  have m2 : p1.mul g = some q' := mulE_eq.1 (by rw [← gl2r_polygon hp1, hq'])
  have r1 := hR l _ l' e1 p p1 hl hp (imageEdge_lt he) ho1 hp1
  have e2 := imageEdge_edge hv m1 (imageEdge_lt (g := g) he)
  rw [imageEdge_invol he] at e2
  rw [e2, imageEdge_edge hv1 m2 he1]
  split_ifs with hd
  · have := h _ _ (-1) (Or.inr rfl) r1
    simpa using this
  · have := h _ _ 1 (Or.inl rfl) r1
    simpa using this

/-- **C36.** Translation surfaces stay translation surfaces, half-translation surfaces and dilation surfaces likewise. -/
theorem C36_translation {g : Mat2 K} (hg : g.det ≠ 0) {S : RSurf L K} {valid : L → Prop} (hS : S.Closed valid) :
    (S.GluedBy valid (fun u v => v = -u) → (gl2r g S).GluedBy valid (fun u v => v = -u)) ∧
    (S.GluedBy valid (fun u v => v = -u ∨ v = u) → (gl2r g S).GluedBy valid (fun u v => v = -u ∨ v = u)) ∧
    (S.GluedBy valid (fun u v => ∃ c : K, 0 < c ∧ v = -(c • u)) → (gl2r g S).GluedBy valid (fun u v => ∃ c : K, 0 < c ∧ v = -(c • u))) ∧
    (S.GluedBy valid (fun u v => ∃ c : K, c ≠ 0 ∧ v = c • u) → (gl2r g S).GluedBy valid (fun u v => ∃ c : K, c ≠ 0 ∧ v = c • u)) := by
  refine ⟨fun h => C36_gluedBy hg hS h ?_, fun h => C36_gluedBy hg hS h ?_, fun h => C36_gluedBy hg hS h ?_,
    fun h => C36_gluedBy hg hS h ?_⟩
  · rintro u v s _ rfl
    rw [Mat2.mulVec_neg, smul_neg]
  · rintro u v s _ (rfl | rfl)
    · left; rw [Mat2.mulVec_neg, smul_neg]
    · right; rfl
  · rintro u v s _ ⟨c, hc, rfl⟩
    exact ⟨c, hc, by rw [Mat2.mulVec_neg, smul_neg, Mat2.mulVec_smul, smul_comm]⟩
  · rintro u v s _ ⟨c, hc, rfl⟩
    exact ⟨c, hc, by rw [Mat2.mulVec_smul, smul_comm]⟩

/-- **C36.** Applying two matrices one after the other is applying their product. -/
theorem C36_action {g h : Mat2 K} (hg : g.det ≠ 0) (hh : h.det ≠ 0) {S : RSurf L K} {valid : L → Prop} (hS : S.Closed valid)
    {l : L} (hl : valid l) : (gl2r g (gl2r h S)).polygon l = (gl2r (g.mul h) S).polygon l ∧
    ∀ p e, S.polygon l = .ok p → e < p.length → (gl2r g (gl2r h S)).opp l e = (gl2r (g.mul h) S).opp l e := by
  have hgh : (g.mul h).det ≠ 0 := by rw [Poly.det_mul]; exact mul_ne_zero hg hh
  obtain ⟨p, hp, hv⟩ := hS.poly l hl
  refine ⟨?_, fun p' e hp' he => ?_⟩
  · rw [gl2r_polygon hp]
    obtain ⟨q, h1, h2⟩ := mulE_ok (p := p) hh
    rw [gl2r_polygon (S := gl2r h S) (p := q) (by rw [gl2r_polygon hp, h1])]
    unfold mulE
    rw [Poly.C10_mul_mul g h p hv.ne_nil hg hh, h2]
    rfl
  · rw [hp] at hp'
    injection hp' with hp'
    subst hp'
    obtain ⟨q, h1, _, h3, _⟩ := C36_polygon hh hp hv
    -- the edge of the reference
    obtain ⟨l1, e1, p1, ho1, hl1, hp1, he1, -⟩ := hS.glue l p _ hl hp (imageEdge_lt (g := g.mul h) he)
    obtain ⟨p2, hp2, hv1⟩ := hS.poly l1 hl1
    rw [hp1] at hp2
    injection hp2 with hp2
    subst hp2
    obtain ⟨q1, k1, _, k3, _⟩ := C36_polygon hh hp1 hv1
    have a1 := (C36_opposite_edge hgh hS hl hp hp1 (imageEdge_lt he) he1).2 ho1
    rw [imageEdge_invol he] at a1
    have a2 := (C36_opposite_edge hh hS hl hp hp1 (imageEdge_lt he) he1).2 ho1
    have a3 := (C36_opposite_edge hg (C36_closed hh hS) hl h1 k1 (e := imageEdge h p.length (imageEdge (g.mul h) p.length e))
      (e' := imageEdge h p1.length e1) (by rw [h3]; exact imageEdge_lt (imageEdge_lt he)) (by rw [k3]; exact imageEdge_lt he1)).2 a2
    have hcomp : ∀ n e, e < n → imageEdge g n (imageEdge h n e) = imageEdge (g.mul h) n e := by
      intro n e he
      have hd : (g.mul h).det = g.det * h.det := Poly.det_mul g h
      unfold imageEdge
      rcases lt_or_gt_of_ne hg with h1 | h1 <;> rcases lt_or_gt_of_ne hh with h2 | h2
      · rw [if_pos h1, if_pos h2, if_neg (by rw [hd]; exact not_lt.2 (mul_pos_of_neg_of_neg h1 h2).le)]; omega
      · rw [if_pos h1, if_neg (not_lt.2 h2.le), if_pos (by rw [hd]; exact mul_neg_of_neg_of_pos h1 h2)]
      · rw [if_neg (not_lt.2 h1.le), if_pos h2, if_pos (by rw [hd]; exact mul_neg_of_pos_of_neg h1 h2)]
      · rw [if_neg (not_lt.2 h1.le), if_neg (not_lt.2 h2.le), if_neg (by rw [hd]; exact not_lt.2 (mul_pos h1 h2).le)]
    rw [h3, hcomp _ _ (imageEdge_lt he), imageEdge_invol he, k3, hcomp _ _ he1] at a3
    rw [a3, a1]

/-- **C36**, what is wrong: on a surface with boundary, `opposite_edge` of the image raises a `TypeError` on the edges without a
gluing instead of returning `None`. -/
theorem C36_boundary_violation {g : Mat2 K} (hg : g.det ≠ 0) {S : RSurf L K} {l : L} {p : Poly K} {e : ℕ} (hp : S.polygon l = .ok p)
    (hv : p.Valid) (he : e < p.length) (ho : S.opp l e = .ok none) :
    (gl2r g S).opp l (imageEdge g p.length e) = .error .typeError := by
  obtain ⟨q, h1, h2⟩ := mulE_ok (p := p) hg
  have k1 := (Poly.C10_vertices g p q hv.ne_nil h2).1
  unfold gl2r imageEdge
  dsimp only
  split_ifs with hd
  · simp only [hp, h1, bind, Except.bind, k1]
    rw [if_neg (by omega)]
    simp only [show p.length - 1 - (p.length - 1 - e) = e by omega, opp!_none ho]
  · simp only [opp!_none ho, bind, Except.bind]

/-- A surface of `surface.py` without boundary is a closed surface. -/
theorem closed_ofMSurf [LinearOrder L] {s : MSurf L (Poly K)} (h : s.GInv) (hv : ∀ l p, s.polygon l = .ok p → p.Valid)
    (hb : ∀ l p (e : ℕ), s.polygon l = .ok p → e < p.length → s.oppositeEdge l e ≠ .ok none) :
    (ofMSurf s).Closed (fun l => ∃ p, s.polygon l = .ok p) := by
  constructor
  · rintro l ⟨p, hp⟩
    exact ⟨p, hp, hv l p hp⟩
  · rintro l p e ⟨p0, hp0⟩ hp he
    have hE : s.IsEdge l e := ⟨p, MSurf.polygon_ok.1 hp, he⟩
    have h1 := MSurf.oppositeEdge_eq_opp h.toShape hE
    cases ho : s.opp l e with
    | none => exact absurd (h1.trans (by rw [ho])) (hb l p e hp he)
    | some c =>
      obtain ⟨l', e'⟩ := c
      obtain ⟨k, rfl, hk⟩ := h.inv l e l' e' ho
      have hE' := MSurf.opp_isEdge h.toShape hk
      obtain ⟨p', hp', he'⟩ := id hE'
      refine ⟨l', k, p', ?_, ⟨p', MSurf.polygon_ok.2 hp'⟩, MSurf.polygon_ok.2 hp', he', ?_⟩
      · simp [ofMSurf, h1, ho, bind, Except.bind, pure, Except.pure]
      · simp [ofMSurf, MSurf.oppositeEdge_eq_opp h.toShape hE', hk, bind, Except.bind, pure, Except.pure]

theorem exTorus_polygon {l : ℕ} {p : Poly ℚ} (h : MSurf.exTorus.polygon l = .ok p) : (l = 0 ∨ l = 1) ∧ p = MSurf.tri := by
  rw [MSurf.polygon_ok] at h
  have h1 : MSurf.exTorus.polygons = [(0, MSurf.tri), (1, MSurf.tri)] := by decide +kernel
  rw [h1] at h
  have h2 := Dict.mem_of_get _ _ _ h
  simp only [List.mem_cons, Prod.mk.injEq, List.not_mem_nil, or_false] at h2
  rcases h2 with ⟨rfl, rfl⟩ | ⟨rfl, rfl⟩
  · exact ⟨Or.inl rfl, rfl⟩
  · exact ⟨Or.inr rfl, rfl⟩

/-- The torus made from two triangles is an example. -/
theorem exTorus_closed : (ofMSurf MSurf.exTorus).Closed (fun l => ∃ p, MSurf.exTorus.polygon l = .ok p) := by
  refine closed_ofMSurf MSurf.exTorus_reachable.ginv (fun l p hp => ?_) (fun l p e hp he => ?_)
  · obtain ⟨_, rfl⟩ := exTorus_polygon hp
    exact Poly.valid_triangle (by decide +kernel)
  · obtain ⟨hl, rfl⟩ := exTorus_polygon hp
    have he : e < 3 := he
    rcases hl with rfl | rfl <;> interval_cases e <;> decide +kernel

example : (gl2r ⟨0, 1, 1, 0⟩ (ofMSurf MSurf.exTorus)).Closed (fun l => ∃ p, MSurf.exTorus.polygon l = .ok p) :=
  C36_closed (by decide +kernel) exTorus_closed

end RSurf

/-! ### C37 -/

namespace LabelSeq
variable {L : Type} [DecidableEq L]

/-- What the iteration over the labels of a surface produces: no label twice, and nothing after the end. -/
structure Proper (labs : LabelSeq L) : Prop where
  inj : ∀ m n l, labs m = some l → labs n = some l → m = n
  closed : ∀ n, labs n = none → labs (n + 1) = none

theorem Proper.before {labs : LabelSeq L} (h : Proper labs) {n : ℕ} {l : L} (hn : labs n = some l) : ∀ m ≤ n, ∃ l', labs m = some l' := by
  intro m hm
  by_contra hc
  have h0 : labs m = none := by
    cases hx : labs m with
    | none => rfl
    | some l' => exact absurd ⟨l', hx⟩ hc
  have : ∀ k, labs (m + k) = none := by
    intro k
    induction k with
    | zero => exact h0
    | succ k ih => exact h.closed _ ih
  have := this (n - m)
  rw [Nat.add_sub_cancel' hm, hn] at this
  cases this

theorem search_from {labs : LabelSeq L} (h : Proper labs) {n : ℕ} {l : L} (hn : labs n = some l) :
    ∀ fuel k, k ≤ n → n < k + fuel → labs.search l fuel k = .ok n := by
  intro fuel
  induction fuel with
  | zero => intro k h1 h2; omega
  | succ fuel ih =>
    intro k h1 h2
    obtain ⟨l', hl'⟩ := h.before hn k h1
    unfold search
    rw [hl']
    dsimp only
    split_ifs with hc
    · subst hc
      rw [h.inj k n l' hl' hn]
    · rcases Nat.eq_or_lt_of_le h1 with rfl | h3
      · rw [hn] at hl'
        injection hl' with hl'
        exact absurd hl'.symm hc
      · exact ih (k + 1) h3 (by omega)

/-- **C37.** Going from an integer label to the reference label and back is the identity; the search ends after as many rounds
as the position of the label. -/
theorem C37_from_to {labs : LabelSeq L} (h : Proper labs) {n : ℕ} {l : L} (hn : labs.toRef n = .ok l) {fuel : ℕ} (hf : n < fuel) :
    labs.search l fuel 0 = .ok n := by
  unfold toRef at hn
  cases hx : labs n with
  | none => rw [hx] at hn; cases hn
  | some l' =>
    rw [hx] at hn
    injection hn with hn
    subst hn
    exact search_from h hx fuel 0 (Nat.zero_le _) (by omega)

/-- **C37.** Whenever the search for a reference label returns an integer, this is a label for it. -/
theorem C37_to_from (labs : LabelSeq L) {l : L} {fuel n : ℕ} (hs : labs.search l fuel 0 = .ok n) : labs.toRef n = .ok l := by
  have : ∀ fuel k, labs.search l fuel k = .ok n → labs.toRef n = .ok l := by
    intro fuel
    induction fuel with
    | zero => intro k hk; cases hk
    | succ fuel ih =>
      intro k hk
      unfold search at hk
      cases hx : labs k with
      | none => rw [hx] at hk; cases hk
      | some l' =>
        rw [hx] at hk
        dsimp only at hk
        split_ifs at hk with hc
        · injection hk with hk
          subst hk
          subst hc
          unfold toRef
          rw [hx]
        · exact ih _ hk
  exact this fuel 0 hs

/-- **C37.** On finite surfaces, labels that do not exist raise a `ValueError` (on infinite surfaces, the search does not end). -/
theorem C37_from_missing {labs : LabelSeq L} {l : L} (hl : ∀ n, labs n ≠ some l) :
    (∀ N, labs N = none → ∃ fuel0, ∀ fuel ≥ fuel0, labs.search l fuel 0 = .error .valueError) ∧
    ((∀ N, labs N ≠ none) → ∀ fuel, labs.search l fuel 0 = .error .outOfFuel) := by
  constructor
  · intro N hN
    refine ⟨N + 1, fun fuel hf => ?_⟩
    have : ∀ fuel k, N < k + fuel → k ≤ N → labs.search l fuel k = .error .valueError := by
      intro fuel
      induction fuel with
      | zero => intro k h1 h2; omega
      | succ fuel ih =>
        intro k h1 h2
        unfold search
        cases hx : labs k with
        | none => rfl
        | some l' =>
          dsimp only
          rw [if_neg (fun hc => hl k (by rw [hx, hc]))]
          rcases Nat.eq_or_lt_of_le h2 with rfl | h3
          · rw [hx] at hN; cases hN
          · exact ih _ (by omega) h3
    exact this fuel 0 (by omega) (Nat.zero_le _)
  · intro hN fuel
    have : ∀ fuel k, labs.search l fuel k = .error .outOfFuel := by
      intro fuel
      induction fuel with
      | zero => intro k; rfl
      | succ fuel ih =>
        intro k
        unfold search
        cases hx : labs k with
        | none => exact absurd hx (hN k)
        | some l' =>
          dsimp only
          rw [if_neg (fun hc => hl k (by rw [hx, hc]))]
          exact ih _
    exact this fuel 0

end LabelSeq

namespace RSurf
variable {L K : Type} [DecidableEq L] [Field K] [LinearOrder K] [IsStrictOrderedRing K]

/-- **C37.** The relabeled surface has the polygons and the gluings of the surface, with labels replaced by their positions.
The answer does not depend on the number of rounds that the search may take, once it is larger than the positions. -/
theorem C37_relabeled (S : RSurf L K) {labs : LabelSeq L} (h : labs.Proper) {n : ℕ} {l : L} (hn : labs n = some l) :
    (∀ fuel, (S.relabeled labs fuel).polygon n = S.polygon l) ∧
    (∀ e, S.opp l e = .ok none → ∀ fuel, (S.relabeled labs fuel).opp n e = .ok none) ∧
    (∀ e x, S.opp l e = .error x → ∀ fuel, (S.relabeled labs fuel).opp n e = .error x) ∧
    (∀ e n' l' e', labs n' = some l' → S.opp l e = .ok (some (l', e')) → ∀ fuel, n' < fuel →
      (S.relabeled labs fuel).opp n e = .ok (some (n', e'))) := by
  have ht : labs.toRef n = .ok l := by unfold LabelSeq.toRef; rw [hn]
  refine ⟨fun fuel => ?_, fun e he fuel => ?_, fun e x he fuel => ?_, fun e n' l' e' hn' he fuel hf => ?_⟩
  · simp [relabeled, ht, bind, Except.bind]
  · simp [relabeled, ht, he, bind, Except.bind, pure, Except.pure]
  · simp [relabeled, ht, he, bind, Except.bind]
  · have := LabelSeq.C37_from_to h (n := n') (l := l') (by unfold LabelSeq.toRef; rw [hn']) hf
    simp [relabeled, ht, he, this, bind, Except.bind, pure, Except.pure]

/-- **C37.** `opposite_edge` of the relabeled surface is an involution if it is one in the surface. -/
theorem C37_involution {S : RSurf L K} {valid : L → Prop} (hS : S.Closed valid) {labs : LabelSeq L} (h : labs.Proper)
    (hlabs : ∀ l, valid l ↔ ∃ n, labs n = some l) {n : ℕ} {l : L} {p : Poly K} {e : ℕ} (hn : labs n = some l)
    (hp : S.polygon l = .ok p) (he : e < p.length) :
    ∃ n' e', ∀ fuel, n < fuel → n' < fuel → (S.relabeled labs fuel).opp n e = .ok (some (n', e')) ∧
      (S.relabeled labs fuel).opp n' e' = .ok (some (n, e)) := by
  obtain ⟨l', e', p', ho, hl', hp', he', hback⟩ := hS.glue l p e ((hlabs l).2 ⟨n, hn⟩) hp he
  obtain ⟨n', hn'⟩ := (hlabs l').1 hl'
  exact ⟨n', e', fun fuel h1 h2 => ⟨(C37_relabeled S h hn).2.2.2 e n' l' e' hn' ho fuel h2,
    (C37_relabeled S h hn').2.2.2 e' n l e hn hback fuel h1⟩⟩

/-- The iteration over the labels of a finite surface is as required. -/
theorem proper_of_nodup {ls : List L} (h : ls.Nodup) : LabelSeq.Proper (fun n => ls[n]?) := by
  constructor
  · intro m n l h1 h2
    exact (List.getElem?_inj (List.getElem?_eq_some_iff.1 h1).1 h).1 (h1.trans h2.symm)
  · intro n hn
    rw [List.getElem?_eq_none_iff] at hn ⊢
    omega

/-- Relabeling by the reverse order of the labels. -/
example : ((ofMSurf MSurf.exTorus).relabeled (fun n => [1, 0][n]?) 2).opp 0 1 = .ok (some (1, 1)) :=
  (C37_relabeled _ (proper_of_nodup (by decide)) (n := 0) (l := 1) rfl).2.2.2 1 1 0 1 rfl (by decide) 2 (by decide)

end RSurf
end Flat
