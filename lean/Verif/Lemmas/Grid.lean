import Verif.Model.Origami
import Verif.Props.Families
import Verif.Props.GaussBonnet
import Verif.Props.SaddleList
import Verif.Lemmas.HomologyRows
import Mathlib.Dynamics.PeriodicPts.Defs
import Mathlib.GroupTheory.Perm.Cycle.Basic

/-!
# Surfaces made of rectangles

Surfaces whose polygons are axis-parallel rectangles that are glued to the right by a permutation `r` and upwards by a permutation `u`.
-/

namespace Flat
namespace RSurf
open Poly Surf
variable {L K : Type} [Field K] [LinearOrder K] [IsStrictOrderedRing K]

/-- The surface consists of rectangles; the rectangle `r l` is to the right of the rectangle `l` and the rectangle `u l` is above it. -/
structure Grid (S : RSurf L K) (valid : L → Prop) (r u : Equiv.Perm L) (w h : L → K) : Prop where
  right_valid : ∀ l, valid (r l) ↔ valid l
  up_valid : ∀ l, valid (u l) ↔ valid l
  width_pos : ∀ l, valid l → 0 < w l
  height_pos : ∀ l, valid l → 0 < h l
  width_up : ∀ l, valid l → w (u l) = w l
  height_right : ∀ l, valid l → h (r l) = h l
  polygon : ∀ l, valid l → S.polygon l = .ok (rect (w l) (h l))
  down : ∀ l, valid l → S.opp l 0 = .ok (some (u⁻¹ l, 2))
  right : ∀ l, valid l → S.opp l 1 = .ok (some (r l, 3))
  up : ∀ l, valid l → S.opp l 2 = .ok (some (u l, 0))
  left : ∀ l, valid l → S.opp l 3 = .ok (some (r⁻¹ l, 1))

theorem perm_inv_self {α : Type} (f : Equiv.Perm α) (x : α) : f (f⁻¹ x) = x := Equiv.apply_symm_apply f x

theorem inv_perm_self {α : Type} (f : Equiv.Perm α) (x : α) : f⁻¹ (f x) = x := Equiv.symm_apply_apply f x

theorem rect_valid {w h : K} (hw : 0 < w) (hh : 0 < h) : (rect w h).Valid := by
  apply Poly.valid_quad
  have := mul_pos hw hh
  refine ⟨?_, ?_, ?_, ?_⟩ <;> simp only [ccw, Prod.mk_sub_mk] <;> nlinarith

theorem rect_strict {w h : K} (hw : 0 < w) (hh : 0 < h) :
    (rect w h).Convex ∧ ∀ v < (rect w h).length, 0 < ccw ((rect w h).edge (v + ((rect w h).length - 1))) ((rect w h).edge v) := by
  have hwh := mul_pos hw hh
  refine ⟨fun i j => ?_, fun v hv => ?_⟩
  · rw [← edge_mod, ← vertex_mod _ i, ← vertex_mod _ j]
    have hi : i % 4 < 4 := Nat.mod_lt _ (by decide)
    have hj : j % 4 < 4 := Nat.mod_lt _ (by decide)
    change 0 ≤ ccw (edge (rect w h) (i % 4)) (vertex (rect w h) (j % 4) - vertex (rect w h) (i % 4))
    generalize i % 4 = i' at hi ⊢
    generalize j % 4 = j' at hj ⊢
    interval_cases i' <;> interval_cases j' <;> simp [rect, Poly.edge, Poly.vertex, ccw] <;> nlinarith
  · rw [← edge_mod]
    have hv' : v < 4 := hv
    change 0 < ccw (edge (rect w h) ((v + 3) % 4)) (edge (rect w h) v)
    interval_cases v <;> simp [rect, Poly.edge, Poly.vertex, ccw] <;> nlinarith

variable [DecidableEq L] {S : RSurf L K} {valid : L → Prop} {r u : Equiv.Perm L} {w h : L → K}

namespace Grid

theorem left_valid (g : S.Grid valid r u w h) (l : L) : valid (r⁻¹ l) ↔ valid l := by
  rw [← g.right_valid, perm_inv_self]

theorem down_valid (g : S.Grid valid r u w h) (l : L) : valid (u⁻¹ l) ↔ valid l := by
  rw [← g.up_valid, perm_inv_self]

theorem dart_iff (g : S.Grid valid r u w h) (d : L × ℕ) : S.IsDart valid d ↔ valid d.1 ∧ d.2 < 4 := by
  constructor
  · rintro ⟨hl, p, hp, he⟩
    rw [g.polygon _ hl] at hp
    injection hp with hp
    subst hp
    exact ⟨hl, he⟩
  · rintro ⟨hl, he⟩
    exact ⟨hl, _, g.polygon _ hl, he⟩

theorem closed (g : S.Grid valid r u w h) : S.Closed valid where
  poly l hl := ⟨_, g.polygon l hl, rect_valid (g.width_pos l hl) (g.height_pos l hl)⟩
  glue l p e hl hp he := by
    rw [g.polygon l hl] at hp
    injection hp with hp
    subst hp
    have he' : e < 4 := he
    interval_cases e
    · have hv := (g.down_valid l).2 hl
      exact ⟨_, _, _, g.down l hl, hv, g.polygon _ hv, by simp [rect], by rw [g.up _ hv, perm_inv_self]⟩
    · have hv := (g.right_valid l).2 hl
      exact ⟨_, _, _, g.right l hl, hv, g.polygon _ hv, by simp [rect], by rw [g.left _ hv, inv_perm_self]⟩
    · have hv := (g.up_valid l).2 hl
      exact ⟨_, _, _, g.up l hl, hv, g.polygon _ hv, by simp [rect], by rw [g.down _ hv, inv_perm_self]⟩
    · have hv := (g.left_valid l).2 hl
      exact ⟨_, _, _, g.left l hl, hv, g.polygon _ hv, by simp [rect], by rw [g.right _ hv, perm_inv_self]⟩

theorem width_down (g : S.Grid valid r u w h) {l : L} (hl : valid l) : w (u⁻¹ l) = w l := by
  have := g.width_up _ ((g.down_valid l).2 hl)
  rw [perm_inv_self] at this
  exact this.symm

theorem height_left (g : S.Grid valid r u w h) {l : L} (hl : valid l) : h (r⁻¹ l) = h l := by
  have := g.height_right _ ((g.left_valid l).2 hl)
  rw [perm_inv_self] at this
  exact this.symm

theorem translation (g : S.Grid valid r u w h) : S.GluedBy valid (fun u w => w = -u) := by
  intro l e l' e' p p' hl hp he ho hp'
  rw [g.polygon l hl] at hp
  injection hp with hp
  subst hp
  have he' : e < 4 := he
  obtain ⟨a0, a1, a2, a3⟩ := rect_edge (w l) (h l)
  have key : ∀ {c : L × ℕ}, S.opp l e = .ok (some c) → l' = c.1 ∧ e' = c.2 := by
    intro c hc
    rw [hc] at ho
    injection ho with ho; injection ho with ho
    rw [ho]
    exact ⟨rfl, rfl⟩
  interval_cases e
  · obtain ⟨rfl, rfl⟩ := key (g.down l hl)
    rw [g.polygon _ ((g.down_valid l).2 hl)] at hp'
    injection hp' with hp'
    subst hp'
    dsimp only
    rw [(rect_edge _ _).2.2.1, a0, g.width_down hl, Prod.neg_mk, neg_zero]
  · obtain ⟨rfl, rfl⟩ := key (g.right l hl)
    rw [g.polygon _ ((g.right_valid l).2 hl)] at hp'
    injection hp' with hp'
    subst hp'
    dsimp only
    rw [(rect_edge _ _).2.2.2, a1, g.height_right _ hl, Prod.neg_mk, neg_zero]
  · obtain ⟨rfl, rfl⟩ := key (g.up l hl)
    rw [g.polygon _ ((g.up_valid l).2 hl)] at hp'
    injection hp' with hp'
    subst hp'
    dsimp only
    rw [(rect_edge _ _).1, a2, g.width_up _ hl, Prod.neg_mk, neg_zero, neg_neg]
  · obtain ⟨rfl, rfl⟩ := key (g.left l hl)
    rw [g.polygon _ ((g.left_valid l).2 hl)] at hp'
    injection hp' with hp'
    subst hp'
    dsimp only
    rw [(rect_edge _ _).2.1, a3, g.height_left hl, Prod.neg_mk, neg_zero, neg_neg]

theorem strict (g : S.Grid valid r u w h) : S.AllStrict valid := by
  intro l p hl hp
  rw [g.polygon l hl] at hp
  injection hp with hp
  subst hp
  exact rect_strict (g.width_pos l hl) (g.height_pos l hl)

/-! ## Connectedness -/

/-- The rectangles are joined by gluings if and only if the permutations act transitively. -/
theorem joined_iff (g : S.Grid valid r u w h) :
    S.Joined valid ↔ ∀ a b, valid a → valid b → ∃ x ∈ Subgroup.closure {r, u}, x a = b := by
  have step : ∀ {a b : L} {e e' : ℕ}, S.IsDart valid (a, e) → S.opp a e = .ok (some (b, e')) → ∃ x ∈ Subgroup.closure {r, u}, x a = b := by
    intro a b e e' hd ho
    obtain ⟨hl, he⟩ := (g.dart_iff _).1 hd
    dsimp only at hl he
    have hr : r ∈ Subgroup.closure {r, u} := Subgroup.subset_closure (by simp)
    have hu : u ∈ Subgroup.closure {r, u} := Subgroup.subset_closure (by simp)
    have key : ∀ {c : L × ℕ}, S.opp a e = .ok (some c) → b = c.1 := by
      intro c hc
      rw [hc] at ho
      injection ho with ho; injection ho with ho
      rw [ho]
    interval_cases e
    · exact ⟨u⁻¹, inv_mem hu, (key (g.down _ hl)).symm⟩
    · exact ⟨r, hr, (key (g.right _ hl)).symm⟩
    · exact ⟨u, hu, (key (g.up _ hl)).symm⟩
    · exact ⟨r⁻¹, inv_mem hr, (key (g.left _ hl)).symm⟩
  constructor
  · intro hj a b ha hb
    have := hj a b ha hb
    clear ha hb
    induction this with
    | rel a b h =>
      obtain ⟨e, e', hd, ho⟩ := h
      exact step hd ho
    | refl a => exact ⟨1, one_mem _, rfl⟩
    | symm a b _ ih =>
      obtain ⟨x, hx, rfl⟩ := ih
      exact ⟨x⁻¹, inv_mem hx, inv_perm_self _ _⟩
    | trans a b c _ _ ih1 ih2 =>
      obtain ⟨x, hx, rfl⟩ := ih1
      obtain ⟨y, hy, rfl⟩ := ih2
      exact ⟨y * x, mul_mem hy hx, rfl⟩
  · intro ht a b ha hb
    obtain ⟨x, hx, rfl⟩ := ht a b ha hb
    clear ht hb
    have key : valid (x a) ∧ Relation.EqvGen (fun a b => ∃ e e', S.IsDart valid (a, e) ∧ S.opp a e = .ok (some (b, e'))) a (x a) := by
      induction hx using Subgroup.closure_induction generalizing a with
      | mem x hx =>
        rcases hx with rfl | rfl
        · exact ⟨(g.right_valid _).2 ha, .rel _ _ ⟨1, 3, (g.dart_iff _).2 ⟨ha, by simp⟩, g.right _ ha⟩⟩
        · exact ⟨(g.up_valid _).2 ha, .rel _ _ ⟨2, 0, (g.dart_iff _).2 ⟨ha, by simp⟩, g.up _ ha⟩⟩
      | one => exact ⟨ha, .refl _⟩
      | mul x y _ _ ihx ihy =>
        obtain ⟨h1, h2⟩ := ihy a ha
        obtain ⟨h3, h4⟩ := ihx _ h1
        exact ⟨h3, .trans _ _ _ h2 h4⟩
      | inv x hx ih =>
        have hv : valid (x⁻¹ a) := by
          have : ∀ y ∈ Subgroup.closure {r, u}, ∀ l, valid (y l) ↔ valid l := by
            intro y hy
            induction hy using Subgroup.closure_induction with
            | mem y hy =>
              rcases hy with rfl | rfl
              · exact g.right_valid
              · exact g.up_valid
            | one => exact fun l => Iff.rfl
            | mul y z _ _ ih1 ih2 => exact fun l => (ih1 _).trans (ih2 l)
            | inv y _ ih => intro l; rw [← ih, perm_inv_self]
          rw [← this x hx, perm_inv_self]
          exact ha
        have := (ih _ hv).2
        rw [perm_inv_self] at this
        exact ⟨hv, .symm _ _ this⟩
    exact key.2

/-! ## Vertices -/

/-- The commutator of the permutations: left, down, right, up is the way around a vertex. -/
def _root_.Flat.RSurf.vertexPerm (r u : Equiv.Perm L) : Equiv.Perm L := r * u * r⁻¹ * u⁻¹

/-- The rectangle that has the vertex at its lower left. -/
def _root_.Flat.RSurf.lowerLeft (r u : Equiv.Perm L) (d : L × ℕ) : L :=
  match d.2 with
  | 0 => d.1
  | 1 => r d.1
  | 2 => r (u d.1)
  | _ => u d.1

theorem cw0 (g : S.Grid valid r u w h) {l : L} (hl : valid l) : Step S.rotateCw (l, 0) (u⁻¹ l, 3) := by
  unfold Step rotateCw
  simp only [g.down l hl, g.polygon _ ((g.down_valid l).2 hl), bind, Except.bind, pure, Except.pure]
  rfl

theorem cw1 (g : S.Grid valid r u w h) {l : L} (hl : valid l) : Step S.rotateCw (l, 1) (r l, 0) := by
  unfold Step rotateCw
  simp only [g.right l hl, g.polygon _ ((g.right_valid l).2 hl), bind, Except.bind, pure, Except.pure]
  simp [rect]

theorem cw2 (g : S.Grid valid r u w h) {l : L} (hl : valid l) : Step S.rotateCw (l, 2) (u l, 1) := by
  unfold Step rotateCw
  simp only [g.up l hl, g.polygon _ ((g.up_valid l).2 hl), bind, Except.bind, pure, Except.pure]
  rfl

theorem cw3 (g : S.Grid valid r u w h) {l : L} (hl : valid l) : Step S.rotateCw (l, 3) (r⁻¹ l, 2) := by
  unfold Step rotateCw
  simp only [g.left l hl, g.polygon _ ((g.left_valid l).2 hl), bind, Except.bind, pure, Except.pure]
  rfl

theorem lowerLeft_valid (g : S.Grid valid r u w h) {d : L × ℕ} (hd : S.IsDart valid d) : valid (lowerLeft r u d) := by
  obtain ⟨l, e⟩ := d
  obtain ⟨hl, he⟩ := (g.dart_iff _).1 hd
  dsimp only at hl he
  interval_cases e
  · exact hl
  · exact (g.right_valid _).2 hl
  · exact (g.right_valid _).2 ((g.up_valid _).2 hl)
  · exact (g.up_valid _).2 hl

/-- Every corner is at the same vertex as the lower left corner of a rectangle. -/
theorem sameVertex_lowerLeft (g : S.Grid valid r u w h) {d : L × ℕ} (hd : S.IsDart valid d) : S.SameVertex valid d (lowerLeft r u d, 0) := by
  obtain ⟨l, e⟩ := d
  obtain ⟨hl, he⟩ := (g.dart_iff _).1 hd
  dsimp only at hl he
  have hD : ∀ (l : L) (e : ℕ), valid l → e < 4 → S.IsDart valid (l, e) := fun l e h h' => (g.dart_iff _).2 ⟨h, h'⟩
  have hr := (g.right_valid l).2 hl
  have hu := (g.up_valid l).2 hl
  interval_cases e
  · exact .refl _
  · exact .rel _ _ ⟨hD _ _ hl (by omega), hD _ _ hr (by omega), g.cw1 hl⟩
  · exact .trans _ _ _ (.rel _ _ ⟨hD _ _ hl (by omega), hD _ _ hu (by omega), g.cw2 hl⟩)
      (.rel _ _ ⟨hD _ _ hu (by omega), hD _ _ ((g.right_valid _).2 hu) (by omega), g.cw1 hu⟩)
  · refine .symm _ _ (.rel _ _ ⟨hD _ _ hu (by omega), hD _ _ hl (by omega), ?_⟩)
    have := g.cw0 hu
    rw [inv_perm_self] at this
    exact this

/-- Going around a vertex leads through the lower left corners along the commutator of the permutations. -/
theorem sameVertex_commutator (g : S.Grid valid r u w h) {l : L} (hl : valid l) : S.SameVertex valid (l, 0) ((vertexPerm r u) l, 0) := by
  have hD : ∀ (l : L) (e : ℕ), valid l → e < 4 → S.IsDart valid (l, e) := fun l e h h' => (g.dart_iff _).2 ⟨h, h'⟩
  have h1 := (g.down_valid l).2 hl
  have h2 := (g.left_valid _).2 h1
  refine .trans _ _ _ (.trans _ _ _ (.rel _ _ ⟨hD _ _ hl (by omega), hD _ _ h1 (by omega), g.cw0 hl⟩)
    (.rel _ _ ⟨hD _ _ h1 (by omega), hD _ _ h2 (by omega), g.cw3 h1⟩)) ?_
  exact g.sameVertex_lowerLeft (hD _ _ h2 (by omega))

theorem sameCycle_step (g : S.Grid valid r u w h) {a b : L × ℕ} (ha : S.IsDart valid a) (hs : Step S.rotateCw a b) :
    (vertexPerm r u).SameCycle (lowerLeft r u a) (lowerLeft r u b) := by
  obtain ⟨l, e⟩ := a
  obtain ⟨hl, he⟩ := (g.dart_iff _).1 ha
  dsimp only at hl he
  have key : ∀ {c : L × ℕ}, Step S.rotateCw (l, e) c → b = c := fun hc => Step.unique hs hc
  interval_cases e
  · rw [key (g.cw0 hl)]
    change (vertexPerm r u).SameCycle l (u (u⁻¹ l))
    rw [perm_inv_self]
  · rw [key (g.cw1 hl)]
    exact .refl _ _
  · rw [key (g.cw2 hl)]
    exact .refl _ _
  · rw [key (g.cw3 hl)]
    refine ⟨1, ?_⟩
    change (r * u * r⁻¹ * u⁻¹) (u l) = r (u (r⁻¹ l))
    simp

/-- Corners are at the same vertex if and only if their rectangles are in the same cycle of the commutator. -/
theorem sameVertex_iff (g : S.Grid valid r u w h) {a b : L × ℕ} (ha : S.IsDart valid a) (hb : S.IsDart valid b) :
    S.SameVertex valid a b ↔ (vertexPerm r u).SameCycle (lowerLeft r u a) (lowerLeft r u b) := by
  constructor
  · intro hs
    clear ha hb
    induction hs with
    | rel a b h => exact g.sameCycle_step h.1 h.2.2
    | refl => exact .refl _ _
    | symm _ _ _ ih => exact ih.symm
    | trans _ _ _ _ _ ih1 ih2 => exact ih1.trans ih2
  · intro hs
    refine .trans _ _ _ (g.sameVertex_lowerLeft ha) (.trans _ _ _ ?_ (.symm _ _ (g.sameVertex_lowerLeft hb)))
    have hpow : ∀ (n : ℕ) (l : L), valid l → valid ((vertexPerm r u ^ n) l) ∧ S.SameVertex valid (l, 0) ((vertexPerm r u ^ n) l, 0) := by
      intro n
      induction n with
      | zero => exact fun l hl => ⟨hl, .refl _⟩
      | succ n ih =>
        intro l hl
        obtain ⟨h1, h2⟩ := ih l hl
        have h3 := g.sameVertex_commutator h1
        rw [pow_succ', Equiv.Perm.mul_apply]
        exact ⟨((g.dart_iff _).1 ((sameVertex_valid h3).1 ((g.dart_iff _).2 ⟨h1, by simp⟩))).1, .trans _ _ _ h2 h3⟩
    obtain ⟨i, hi⟩ := hs
    have hva := g.lowerLeft_valid ha
    have hvb := g.lowerLeft_valid hb
    obtain ⟨n, rfl | rfl⟩ := i.eq_nat_or_neg
    · rw [zpow_natCast] at hi
      rw [← hi]
      exact (hpow n _ hva).2
    · rw [zpow_neg, zpow_natCast, Equiv.Perm.inv_eq_iff_eq] at hi
      rw [hi]
      exact .symm _ _ (hpow n _ hvb).2

/-! ## Angles -/

/-- The corners that have the rectangle at the upper right of the vertex. -/
def _root_.Flat.RSurf.cornersAt (r u : Equiv.Perm L) (x : L) : List (L × ℕ) := [(x, 0), (r⁻¹ x, 1), (u⁻¹ (r⁻¹ x), 2), (u⁻¹ x, 3)]

theorem mem_cornersAt (g : S.Grid valid r u w h) {x : L} (hx : valid x) (d : L × ℕ) :
    d ∈ cornersAt r u x ↔ S.IsDart valid d ∧ lowerLeft r u d = x := by
  obtain ⟨l, e⟩ := d
  rw [g.dart_iff]
  constructor
  · intro hd
    simp only [cornersAt, List.mem_cons, List.not_mem_nil, or_false, Prod.mk.injEq] at hd
    rcases hd with ⟨rfl, rfl⟩ | ⟨rfl, rfl⟩ | ⟨rfl, rfl⟩ | ⟨rfl, rfl⟩
    · exact ⟨⟨hx, by simp⟩, rfl⟩
    · exact ⟨⟨(g.left_valid _).2 hx, by simp⟩, perm_inv_self _ _⟩
    · refine ⟨⟨(g.down_valid _).2 ((g.left_valid _).2 hx), by simp⟩, ?_⟩
      change r (u (u⁻¹ (r⁻¹ x))) = x
      rw [perm_inv_self, perm_inv_self]
    · exact ⟨⟨(g.down_valid _).2 hx, by simp⟩, perm_inv_self _ _⟩
  · rintro ⟨⟨hl, he⟩, rfl⟩
    dsimp only at hl he
    interval_cases e <;> simp [cornersAt, lowerLeft]

theorem nodup_cornersAt (x : L) : (cornersAt r u x).Nodup := by
  simp [cornersAt]

/-- The corners at a vertex. -/
def _root_.Flat.RSurf.fan (r u : Equiv.Perm L) (x : L) (n : ℕ) : List (L × ℕ) := (List.range n).flatMap fun k => cornersAt r u ((vertexPerm r u)^[k] x)

theorem commutator_valid (g : S.Grid valid r u w h) {l : L} (hl : valid l) : ∀ k, valid ((vertexPerm r u)^[k] l)
  | 0 => hl
  | k + 1 => by
    rw [Function.iterate_succ_apply']
    have h1 := g.commutator_valid hl k
    exact ((g.dart_iff _).1 ((sameVertex_valid (g.sameVertex_commutator h1)).1 ((g.dart_iff _).2 ⟨h1, by simp⟩))).1

omit [DecidableEq L] in
theorem iterate_eq_pow (f : Equiv.Perm L) (k : ℕ) (x : L) : f^[k] x = (f ^ k) x := by
  induction k with
  | zero => rfl
  | succ k ih => rw [Function.iterate_succ_apply', ih, pow_succ', Equiv.Perm.mul_apply]

omit [DecidableEq L] in
/-- The elements of a finite cycle. -/
theorem sameCycle_iff_iterate {f : Equiv.Perm L} {x y : L} (hn : 0 < Function.minimalPeriod f x) :
    f.SameCycle x y ↔ ∃ k < Function.minimalPeriod f x, f^[k] x = y := by
  set n := Function.minimalPeriod f x with hndef
  constructor
  · rintro ⟨i, rfl⟩
    have hper : (f ^ n) x = x := by
      rw [← iterate_eq_pow]
      exact Function.isPeriodicPt_minimalPeriod f x
    have h0 : (0 : ℤ) < n := by exact_mod_cast hn
    refine ⟨(i % n).toNat, ?_, ?_⟩
    · have := Int.emod_lt_of_pos i h0
      have := Int.emod_nonneg i h0.ne'
      omega
    · rw [iterate_eq_pow]
      have h1 : f ^ i = f ^ (i % n) * (f ^ n) ^ (i / n) := by
        rw [← zpow_natCast f n, ← zpow_mul, ← zpow_add, Int.emod_add_mul_ediv]
      have h2 : f ^ (i % n).toNat = f ^ (i % n) := by
        rw [← zpow_natCast, Int.toNat_of_nonneg (Int.emod_nonneg i h0.ne')]
      rw [h1, h2, Equiv.Perm.mul_apply, Equiv.Perm.zpow_apply_eq_self_of_apply_eq_self hper]
  · rintro ⟨k, -, rfl⟩
    exact ⟨k, by rw [iterate_eq_pow, zpow_natCast]⟩

theorem mem_fan (g : S.Grid valid r u w h) {d : L × ℕ} (hd : S.IsDart valid d) (hn : 0 < Function.minimalPeriod (vertexPerm r u) (lowerLeft r u d)) (a : L × ℕ) :
    a ∈ fan r u (lowerLeft r u d) (Function.minimalPeriod (vertexPerm r u) (lowerLeft r u d)) ↔ S.SameVertex valid d a := by
  have hl := g.lowerLeft_valid hd
  unfold fan
  rw [List.mem_flatMap]
  constructor
  · rintro ⟨k, hk, ha⟩
    rw [List.mem_range] at hk
    obtain ⟨ha, he⟩ := (g.mem_cornersAt (g.commutator_valid hl k) a).1 ha
    exact (g.sameVertex_iff hd ha).2 ((sameCycle_iff_iterate hn).2 ⟨k, hk, he.symm⟩)
  · intro ha
    have had := (sameVertex_valid ha).1 hd
    obtain ⟨k, hk, he⟩ := (sameCycle_iff_iterate hn).1 ((g.sameVertex_iff hd had).1 ha)
    exact ⟨k, List.mem_range.2 hk, (g.mem_cornersAt (g.commutator_valid hl k) a).2 ⟨had, he.symm⟩⟩

theorem nodup_fan (g : S.Grid valid r u w h) {x : L} (hx : valid x) : (fan r u x (Function.minimalPeriod (vertexPerm r u) x)).Nodup := by
  unfold fan
  rw [List.nodup_flatMap]
  refine ⟨fun k _ => nodup_cornersAt _, ?_⟩
  refine List.Pairwise.imp_of_mem ?_ List.nodup_range
  intro i j hi hj hij a hai haj
  rw [List.mem_range] at hi hj
  have h1 := ((g.mem_cornersAt (g.commutator_valid hx i) a).1 hai).2
  have h2 := ((g.mem_cornersAt (g.commutator_valid hx j) a).1 haj).2
  rw [h1] at h2
  exact hij (Function.iterate_injOn_Iio_minimalPeriod hi hj h2)

theorem length_fan (x : L) (n : ℕ) : (fan r u x n).length = 4 * n := by
  unfold fan
  rw [List.length_flatMap]
  simp [cornersAt, mul_comm]

theorem rect_angle {ι : K →+* ℝ} (hι : StrictMono ι) {w h : K} (hw : 0 < w) (hh : 0 < h) {e : ℕ} (he : e < 4) : (rect w h).angle ι e = 1 / 4 := by
  have h1 : 0 < ι w := by simpa using hι hw
  have h2 : 0 < ι h := by simpa using hι hh
  have hwh := mul_pos h1 h2
  have hpi := Real.pi_ne_zero
  obtain ⟨a0, a1, a2, a3⟩ := rect_edge w h
  unfold Poly.angle
  change angleOf ι ((rect w h).edge e) (-(rect w h).edge ((e + 3) % 4)) = 1 / 4
  interval_cases e
  · rw [show (0 + 3) % 4 = 3 from rfl, a0, a3]
    unfold angleOf
    simp only [Prod.fst_neg, Prod.snd_neg, map_zero, map_neg, mul_zero, zero_mul, neg_zero, add_zero, zero_div, Real.arccos_zero, neg_neg, sub_zero]
    rw [if_neg (by linarith)]
    field_simp; norm_num
  · rw [show (1 + 3) % 4 = 0 from rfl, a1, a0]
    unfold angleOf
    simp only [Prod.fst_neg, Prod.snd_neg, map_zero, map_neg, mul_zero, zero_mul, neg_zero, add_zero, zero_div, Real.arccos_zero, neg_neg, sub_zero]
    rw [if_neg (by nlinarith)]
    field_simp; norm_num
  · rw [show (2 + 3) % 4 = 1 from rfl, a2, a1]
    unfold angleOf
    simp only [Prod.fst_neg, Prod.snd_neg, map_zero, map_neg, mul_zero, zero_mul, neg_zero, add_zero, zero_div, Real.arccos_zero, neg_neg, sub_zero]
    rw [if_neg (by nlinarith)]
    field_simp; norm_num
  · rw [show (3 + 3) % 4 = 2 from rfl, a3, a2]
    unfold angleOf
    simp only [Prod.fst_neg, Prod.snd_neg, map_zero, map_neg, mul_zero, zero_mul, neg_zero, add_zero, zero_div, Real.arccos_zero, neg_neg, sub_zero]
    rw [if_neg (by nlinarith)]
    field_simp; norm_num

/-- The angle at a vertex is the length of the cycle of the commutator. -/
theorem angleVertex_eq (g : S.Grid valid r u w h) {ι : K →+* ℝ} (hι : StrictMono ι) {d : L × ℕ} (hd : S.IsDart valid d)
    (hn : 0 < Function.minimalPeriod (vertexPerm r u) (lowerLeft r u d)) {fuel : ℕ} (hf : 4 * Function.minimalPeriod (vertexPerm r u) (lowerLeft r u d) < fuel) :
    S.angleVertex ι fuel d = .ok (Function.minimalPeriod (vertexPerm r u) (lowerLeft r u d)) := by
  rw [C63_vertex_angle hι g.closed.bordered hd (g.nodup_fan (g.lowerLeft_valid hd)) (g.mem_fan hd hn) (by rw [length_fan]; exact hf)]
  congr 1
  rw [List.map_congr_left (g := fun _ => (1 / 4 : ℝ)) ?_]
  · rw [List.map_const', List.sum_replicate, length_fan, nsmul_eq_mul]
    push_cast
    ring
  · intro a ha
    have had := (sameVertex_valid ((g.mem_fan hd hn a).1 ha)).1 hd
    obtain ⟨hl, he⟩ := (g.dart_iff a).1 had
    rw [cornerAngle_eq (g.polygon _ hl), rect_angle hι (g.width_pos _ hl) (g.height_pos _ hl) he]

/-- On a finite surface the cycles of the commutator are finite. -/
theorem period_pos (g : S.Grid valid r u w h) {ls : List L} (hls : ∀ l, valid l → l ∈ ls) {l : L} (hl : valid l) :
    0 < Function.minimalPeriod (vertexPerm r u) l ∧ Function.minimalPeriod (vertexPerm r u) l ≤ ls.length := by
  have hpos : 0 < Function.minimalPeriod (vertexPerm r u) l := by
    have : ∃ i j, i ≠ j ∧ (vertexPerm r u)^[i] l = (vertexPerm r u)^[j] l := by
      obtain ⟨i, j, hij, he⟩ := Finite.exists_ne_map_eq_of_infinite (fun k : ℕ => (⟨(vertexPerm r u)^[k] l, hls _ (g.commutator_valid hl k)⟩ : {x // x ∈ ls}))
      exact ⟨i, j, hij, congrArg Subtype.val he⟩
    obtain ⟨i, j, hij, he⟩ := this
    have key : ∀ i j, i < j → (vertexPerm r u)^[i] l = (vertexPerm r u)^[j] l → 0 < Function.minimalPeriod (vertexPerm r u) l := by
      intro i j hij he
      refine Function.IsPeriodicPt.minimalPeriod_pos (n := j - i) (by omega) ?_
      have h1 : (vertexPerm r u)^[i] ((vertexPerm r u)^[j - i] l) = (vertexPerm r u)^[i] l := by
        rw [← Function.iterate_add_apply, show i + (j - i) = j by omega, he]
      exact Function.Injective.iterate (vertexPerm r u).injective i h1
    rcases lt_or_gt_of_ne hij with h | h
    · exact key i j h he
    · exact key j i h he.symm
  refine ⟨hpos, ?_⟩
  have hinj : (((List.range (Function.minimalPeriod (vertexPerm r u) l)).map fun k => (vertexPerm r u)^[k] l)).Nodup := by
    refine List.Nodup.map_on ?_ List.nodup_range
    intro a ha b hb hab
    exact Function.iterate_injOn_Iio_minimalPeriod (List.mem_range.1 ha) (List.mem_range.1 hb) hab
  have := (List.Nodup.subperm hinj (l₂ := ls) (by
    intro x hx
    obtain ⟨k, -, rfl⟩ := List.mem_map.1 hx
    exact hls _ (g.commutator_valid hl k))).length_le
  simpa using this

theorem mapM_const_ok {α β : Type} (f : α → Except Err β) (k : α → β) : ∀ (l : List α), (∀ a ∈ l, f a = .ok (k a)) → l.mapM f = .ok (l.map k)
  | [], _ => rfl
  | a :: l, hl => by
    rw [List.mapM_cons, hl a List.mem_cons_self, mapM_const_ok f k l (fun b hb => hl b (List.mem_cons_of_mem _ hb))]
    rfl

/-- The angles and the degrees of the zeros. -/
theorem angles_eq (g : S.Grid valid r u w h) {ι : K →+* ℝ} (hι : StrictMono ι) {ls : List L} (hls : ∀ l, valid l → l ∈ ls) {fuel : ℕ} (hf : 4 * ls.length < fuel)
    {starts : List (L × ℕ)} (hst : ∀ d ∈ starts, S.IsDart valid d) :
    S.angles ι fuel starts = .ok (starts.map fun d => (Function.minimalPeriod (vertexPerm r u) (lowerLeft r u d) : ℝ)) ∧
    S.abelianStratum ι fuel starts = .ok (starts.map fun d => (Function.minimalPeriod (vertexPerm r u) (lowerLeft r u d) : ℤ) - 1) := by
  have h1 : S.angles ι fuel starts = .ok (starts.map fun d => (Function.minimalPeriod (vertexPerm r u) (lowerLeft r u d) : ℝ)) := by
    refine mapM_const_ok _ _ _ fun d hd => ?_
    obtain ⟨h1, h2⟩ := g.period_pos hls (g.lowerLeft_valid (hst d hd))
    exact g.angleVertex_eq hι (hst d hd) h1 (by omega)
  refine ⟨h1, ?_⟩
  unfold abelianStratum
  simp only [h1, bind, Except.bind]
  rw [mapM_const_ok _ (fun a => ⌊a⌋ - 1)]
  · rw [List.map_map]
    congr 1
    refine List.map_congr_left fun d _ => ?_
    simp
  · intro a ha
    obtain ⟨d, -, rfl⟩ := List.mem_map.1 ha
    exact toZZ_ok (by simp)

/-- One rectangle for each cycle of the commutator gives one corner for each vertex. -/
theorem isStarts (g : S.Grid valid r u w h) {cs : List L} (hv : ∀ c ∈ cs, valid c) (ha : cs.Pairwise fun a b => ¬ (vertexPerm r u).SameCycle a b)
    (hc : ∀ l, valid l → ∃ c ∈ cs, (vertexPerm r u).SameCycle c l) : S.IsStarts valid (cs.map fun c => (c, 0)) where
  dart d hd := by
    obtain ⟨c, hc, rfl⟩ := List.mem_map.1 hd
    exact (g.dart_iff _).2 ⟨hv c hc, by simp⟩
  apart := by
    rw [List.pairwise_map]
    refine List.Pairwise.imp_of_mem ?_ ha
    intro a b hma hmb hab hs
    exact hab ((g.sameVertex_iff ((g.dart_iff _).2 ⟨hv a hma, by simp⟩) ((g.dart_iff _).2 ⟨hv b hmb, by simp⟩)).1 hs)
  cover d hd := by
    obtain ⟨c, hcm, hs⟩ := hc _ (g.lowerLeft_valid hd)
    exact ⟨(c, 0), List.mem_map.2 ⟨c, hcm, rfl⟩, (g.sameVertex_iff ((g.dart_iff _).2 ⟨hv c hcm, by simp⟩) hd).2 hs⟩

end Grid
end RSurf
end Flat
