import Verif.Lemmas.Wp
import Verif.Lemmas.Dict
import Mathlib.Tactic.Common

/-!
# The gluing table: effect of the primitive operations and the involution invariant
-/

namespace Flat
namespace MSurf

variable {L P : Type} [LinearOrder L] [NumVertices P]

/-- The entry of the gluing table at position `(l, e)`. -/
def opp (s : MSurf L P) (l : L) (e : ℕ) : Option (L × Int) :=
  match s.gluings.get l with
  | none => none
  | some g => (g[e]?).join

/-- The tables have the right shape: the same labels in both dictionaries and one entry per edge. -/
structure Shape (s : MSurf L P) : Prop where
  nodupP : s.polygons.keys.Nodup
  nodupG : s.gluings.keys.Nodup
  len : ∀ l, (s.gluings.get l).map List.length = (s.polygons.get l).map nv

/-- The gluings form an involution. -/
structure GInv (s : MSurf L P) : Prop extends Shape s where
  inv : ∀ l (e : ℕ) l' e', s.opp l e = some (l', e') → ∃ k : ℕ, e' = k ∧ s.opp l' k = some (l, (e : Int))

/-- `(l, e)` is an edge of the surface. -/
def IsEdge (s : MSurf L P) (l : L) (e : ℕ) : Prop := ∃ p, s.polygons.get l = some p ∧ e < nv p

theorem opp_isEdge {s : MSurf L P} (h : Shape s) {l : L} {e : ℕ} {c} (hc : s.opp l e = some c) :
    s.IsEdge l e := by
  unfold opp at hc
  have hl := h.len l
  revert hc
  cases hg : s.gluings.get l with
  | none => simp
  | some g =>
    intro hc
    rw [hg] at hl
    cases hp : s.polygons.get l with
    | none => simp [hp] at hl
    | some p =>
      simp only [hp, Option.map_some, Option.some.injEq] at hl
      refine ⟨p, hp, ?_⟩
      rw [← hl]
      by_contra hlt
      dsimp only at hc
      rw [List.getElem?_eq_none (by omega)] at hc
      simp at hc

theorem isEdge_iff {s : MSurf L P} (h : Shape s) {l : L} {e : ℕ} :
    s.IsEdge l e ↔ ∃ g, s.gluings.get l = some g ∧ e < g.length := by
  have hl := h.len l
  unfold IsEdge
  cases hg : s.gluings.get l <;> cases hp : s.polygons.get l <;> simp [hg, hp] at hl ⊢
  omega

/-- What `opposite_edge` answers for a non-negative edge index. -/
theorem oppositeEdge_nat {s : MSurf L P} {l : L} {e : ℕ} {c : Option (L × Int)} :
    s.oppositeEdge l (e : Int) = .ok c ↔ ∃ g, s.gluings.get l = some g ∧ g[e]? = some c := by
  unfold oppositeEdge
  cases s.gluings.get l with
  | none => simp
  | some g => simp [pyGet_natCast]

theorem oppositeEdge_eq_opp {s : MSurf L P} (h : Shape s) {l : L} {e : ℕ} (he : s.IsEdge l e) :
    s.oppositeEdge l (e : Int) = .ok (s.opp l e) := by
  obtain ⟨g, hg, hlt⟩ := (isEdge_iff h).1 he
  rw [oppositeEdge_nat]
  refine ⟨g, hg, ?_⟩
  simp [opp, hg, hlt]

theorem oppositeEdge_error {s : MSurf L P} (h : Shape s) {l : L} {e : ℕ} (he : ¬ s.IsEdge l e) :
    s.oppositeEdge l (e : Int) = .error (if l ∈ s.polygons.keys then .indexError else .keyError) := by
  have hl := h.len l
  have hm := s.polygons.mem_keys_iff l
  unfold oppositeEdge
  cases hg : s.gluings.get l with
  | none =>
    cases hp : s.polygons.get l with
    | none => rw [hp] at hm; simp [hm]
    | some p => simp [hg, hp] at hl
  | some g =>
    cases hp : s.polygons.get l with
    | none => simp [hg, hp] at hl
    | some p =>
      rw [hp] at hm
      simp only [hm, Option.isSome_some, if_true]
      rw [isEdge_iff h] at he
      have : ¬ e < g.length := fun hlt => he ⟨g, hg, hlt⟩
      simp [pyGet, pyIndex_natCast, this]

/-- The state after `self._gluings[l][e] = v`. -/
def upd (s : MSurf L P) (l : L) (e : ℕ) (v : Option (L × Int)) : MSurf L P :=
  { s with gluings := s.gluings.set l (((s.gluings.get l).getD []).set e v) }

theorem wp_setGluing {s : MSurf L P} (h : Shape s) {l : L} {e : ℕ} (he : s.IsEdge l e)
    (v : Option (L × Int)) (Q E) :
    wp (setGluing l (e : Int) v : Act L P Unit) Q E s ↔ Q () (s.upd l e v) := by
  obtain ⟨g, hg, hlt⟩ := (isEdge_iff h).1 he
  unfold setGluing
  rw [wp_bind, wp_get]
  simp only [hg, pySet, pyIndex_natCast, hlt, if_true, wp_set, upd, Option.getD_some]

theorem opp_upd {s : MSurf L P} (h : Shape s) {l : L} {e : ℕ} (he : s.IsEdge l e)
    (v : Option (L × Int)) (l' : L) (e' : ℕ) :
    (s.upd l e v).opp l' e' = if l' = l ∧ e' = e then v else s.opp l' e' := by
  obtain ⟨g, hg, hlt⟩ := (isEdge_iff h).1 he
  unfold opp upd
  simp only [Dict.get_set, hg, Option.getD_some]
  by_cases hl : l' = l
  · subst hl
    by_cases hee : e' = e
    · subst hee; simp [hlt]
    · simp [hee, hg, Ne.symm hee]
  · simp [hl]

theorem shape_upd {s : MSurf L P} (h : Shape s) {l : L} {e : ℕ} (he : s.IsEdge l e)
    (v : Option (L × Int)) : Shape (s.upd l e v) := by
  obtain ⟨g, hg, hlt⟩ := (isEdge_iff h).1 he
  refine ⟨h.nodupP, Dict.keys_set_nodup _ h.nodupG _ _, fun l' => ?_⟩
  simp only [upd, Dict.get_set, hg, Option.getD_some]
  rw [← h.len l']
  by_cases hl : l' = l
  · subst hl; simp [hg]
  · simp [hl]

theorem isEdge_upd (s : MSurf L P) (l : L) (e : ℕ) (v) (l' : L) (e' : ℕ) :
    (s.upd l e v).IsEdge l' e' ↔ s.IsEdge l' e' := Iff.rfl

/-- Everything except for gluing entries and roots is unchanged. -/
structure SameTables (s s' : MSurf L P) : Prop where
  polygons : s'.polygons = s.polygons
  mutable : s'.mutable = s.mutable
  nextLabel : s'.nextLabel = s.nextLabel
  shape : Shape s'

/-- `s'` is `s` with `(l, e)` and its partner unglued. -/
structure UnglueSpec (s : MSurf L P) (l : L) (e : ℕ) (s' : MSurf L P) : Prop extends SameTables s s' where
  opp : ∀ l' (e' : ℕ), s'.opp l' e' =
    if (l' = l ∧ e' = e) ∨ s.opp l e = some (l', (e' : Int)) then none else s.opp l' e'

theorem splitRoots_frame (l l' : L) (s : MSurf L P) :
    wp (splitRoots l l') (fun _ s' => ∃ rs, s' = { s with roots := rs })
      (fun _ s' => ∃ rs, s' = { s with roots := rs }) s := by
  have hs : ∃ rs, s = { s with roots := rs } := ⟨s.roots, rfl⟩
  unfold splitRoots
  rw [wp_bind, wp_get, wp_ite]
  refine ⟨fun _ => ?_, fun _ => by simpa [wp_pure] using hs⟩
  rw [wp_bind, wp_liftE]
  refine ⟨fun c _ => ?_, fun _ _ => hs⟩
  rw [wp_ite]
  refine ⟨fun _ => ?_, fun _ => by simpa [wp_pure] using hs⟩
  rw [wp_bind, wp_liftE]
  refine ⟨fun cc _ => ?_, fun _ _ => hs⟩
  rw [wp_ite]
  refine ⟨fun _ => by rw [wp_bind, wp_throw]; exact hs, fun _ => ?_⟩
  cases List.find? (fun r => decide (r ∈ c ∨ r ∈ cc)) s.roots with
  | none => simpa [wp_throw] using hs
  | some r =>
    dsimp only
    rw [wp_bind, wp_liftE]
    refine ⟨fun m _ => ?_, fun _ _ => hs⟩
    rw [wp_set]
    exact ⟨_, rfl⟩

theorem joinRoots_frame (l l' : L) (s : MSurf L P) :
    wp (joinRoots l l') (fun _ s' => ∃ rs, s' = { s with roots := rs })
      (fun _ s' => ∃ rs, s' = { s with roots := rs }) s := by
  have hs : ∃ rs, s = { s with roots := rs } := ⟨s.roots, rfl⟩
  unfold joinRoots
  rw [wp_bind, wp_get, wp_ite]
  refine ⟨fun _ => ?_, fun _ => by simpa [wp_pure] using hs⟩
  rw [wp_bind, wp_liftE]
  refine ⟨fun c _ => ?_, fun _ _ => hs⟩
  rw [wp_ite]
  refine ⟨fun _ => ?_, fun _ => by simpa [wp_pure] using hs⟩
  rw [wp_bind, wp_liftE]
  refine ⟨fun cc _ => ?_, fun _ _ => hs⟩
  cases List.find? (fun r => decide (r ∈ c ∨ r ∈ cc)) s.roots.reverse with
  | none => simpa [wp_throw] using hs
  | some r => exact ⟨_, rfl⟩

theorem Shape.withRoots {s : MSurf L P} (h : Shape s) (rs : List L) : Shape { s with roots := rs } :=
  ⟨h.nodupP, h.nodupG, h.len⟩

theorem GInv.withRoots {s : MSurf L P} (h : GInv s) (rs : List L) : GInv { s with roots := rs } :=
  ⟨h.toShape.withRoots rs, h.inv⟩

theorem SameTables.refl {s : MSurf L P} (h : Shape s) : SameTables s s := ⟨rfl, rfl, rfl, h⟩

theorem SameTables.trans {s s' s'' : MSurf L P} (h : SameTables s s') (h' : SameTables s' s'') :
    SameTables s s'' :=
  ⟨h'.polygons.trans h.polygons, h'.mutable.trans h.mutable, h'.nextLabel.trans h.nextLabel, h'.shape⟩

theorem SameTables.isEdge {s s' : MSurf L P} (h : SameTables s s') {l : L} {e : ℕ} :
    s'.IsEdge l e ↔ s.IsEdge l e := by unfold IsEdge; rw [h.polygons]

/-- The effect of `unglue` on the tables: it either fails without any effect (because the surface is
immutable or there is no such edge), or both entries are cleared (possibly raising afterwards while the
roots are updated). -/
theorem unglue_spec {s : MSurf L P} (h : GInv s) (l : L) (e : ℕ) :
    wp (unglue l (e : Int)) (fun _ s' => s.mutable = true ∧ s.IsEdge l e ∧ UnglueSpec s l e s')
      (fun _ s' => s' = s ∨ (s.mutable = true ∧ s.IsEdge l e ∧ UnglueSpec s l e s')) s := by
  unfold unglue
  rw [wp_bind, wp_checkMutable]
  refine ⟨fun hm => ?_, fun _ => Or.inl rfl⟩
  rw [wp_bind, wp_get, wp_bind, wp_liftE]
  refine ⟨fun c hc => ?_, fun _ _ => Or.inl rfl⟩
  have he : s.IsEdge l e := by
    by_contra hne
    rw [oppositeEdge_error h.toShape hne] at hc
    cases hc
  rw [oppositeEdge_eq_opp h.toShape he] at hc
  injection hc with hc
  cases c with
  | none =>
    rw [wp_setGluing h.toShape he]
    refine ⟨hm, he, ⟨rfl, rfl, rfl, shape_upd h.toShape he _⟩, fun l' e' => ?_⟩
    rw [opp_upd h.toShape he]
    simp [hc]
  | some c =>
    obtain ⟨c1, c2⟩ := c
    obtain ⟨k, rfl, hk⟩ := h.inv _ _ _ _ hc
    have hek : s.IsEdge c1 k := opp_isEdge h.toShape hk
    dsimp only
    rw [wp_bind, wp_setGluing h.toShape hek, wp_bind]
    have hsh := shape_upd h.toShape hek none
    rw [wp_setGluing hsh he]
    have spec : ∀ rs, UnglueSpec s l e { ((s.upd c1 k none).upd l e none) with roots := rs } := by
      intro rs
      refine ⟨⟨rfl, rfl, rfl, (shape_upd hsh he none).withRoots rs⟩, fun l' e' => ?_⟩
      have : ({ ((s.upd c1 k none).upd l e none) with roots := rs }).opp l' e'
          = ((s.upd c1 k none).upd l e none).opp l' e' := rfl
      rw [this, opp_upd hsh he, opp_upd h.toShape hek, hc]
      by_cases h1 : l' = l ∧ e' = e
      · simp [h1]
      · by_cases h2 : l' = c1 ∧ e' = k
        · obtain ⟨rfl, rfl⟩ := h2; simp
        · have h3 : ¬ (c1 = l' ∧ k = e') := fun h3 => h2 ⟨h3.1.symm, h3.2.symm⟩
          rw [if_neg h1, if_neg h2, if_neg]
          rintro (h4 | h4)
          · exact h1 h4
          · simp only [Option.some.injEq, Prod.mk.injEq, Int.natCast_inj] at h4
            exact h3 h4
    refine wp_mono (splitRoots_frame l c1 _) ?_ ?_
    · rintro _ s' ⟨rs, rfl⟩
      exact ⟨hm, he, spec rs⟩
    · rintro _ s' ⟨rs, rfl⟩
      exact Or.inr ⟨hm, he, spec rs⟩

theorem UnglueSpec.ginv {s s' : MSurf L P} (h : GInv s) {l : L} {e : ℕ} (hs : UnglueSpec s l e s') :
    GInv s' := by
  refine ⟨hs.shape, fun l1 e1 l2 e2 h1 => ?_⟩
  rw [hs.opp] at h1
  split_ifs at h1 with hc
  push Not at hc
  obtain ⟨k, rfl, hk⟩ := h.inv _ _ _ _ h1
  refine ⟨k, rfl, ?_⟩
  rw [hs.opp, if_neg, hk]
  push Not
  constructor
  · rintro rfl rfl
    exact hc.2 hk
  · intro hle
    obtain ⟨k', hk', hle'⟩ := h.inv _ _ _ _ hle
    simp only [Int.natCast_inj] at hk'
    subst hk'
    rw [hk] at hle'
    simp only [Option.some.injEq, Prod.mk.injEq, Int.natCast_inj] at hle'
    exact hc.1 hle'.1 hle'.2

theorem unglue_ginv {s : MSurf L P} (h : GInv s) (l : L) (e : ℕ) :
    wp (unglue l (e : Int)) (fun _ => GInv) (fun _ => GInv) s := by
  refine wp_mono (unglue_spec h l e) ?_ ?_
  · rintro _ s' ⟨_, _, hs⟩; exact hs.ginv h
  · rintro _ s' (rfl | ⟨_, _, hs⟩)
    · exact h
    · exact hs.ginv h

/-- `s'` is `s` with `x` and `y` unglued from their partners and glued to each other. -/
structure GlueSpec (s : MSurf L P) (x y : L × ℕ) (s' : MSurf L P) : Prop extends SameTables s s' where
  opp_x : s'.opp x.1 x.2 = some (y.1, (y.2 : Int))
  opp_y : s'.opp y.1 y.2 = some (x.1, (x.2 : Int))
  opp_other : ∀ l (e : ℕ), (l, e) ≠ x → (l, e) ≠ y → s'.opp l e =
    if s.opp x.1 x.2 = some (l, (e : Int)) ∨ s.opp y.1 y.2 = some (l, (e : Int)) then none
    else s.opp l e

theorem glue_spec {s : MSurf L P} (h : GInv s) (x y : L × ℕ) :
    wp (glue (x.1, (x.2 : Int)) (y.1, (y.2 : Int)))
      (fun _ s' => s.mutable = true ∧ s.IsEdge x.1 x.2 ∧ s.IsEdge y.1 y.2 ∧ GlueSpec s x y s')
      (fun _ s' => GInv s' ∧ SameTables s s' ∧
        ∀ l (e : ℕ), s'.opp l e ≠ s.opp l e → s'.opp l e = none ∧
          ((l, e) = x ∨ (l, e) = y ∨ s.opp x.1 x.2 = some (l, (e : Int)) ∨
            s.opp y.1 y.2 = some (l, (e : Int)))) s := by
  have hrefl : GInv s ∧ SameTables s s ∧
        ∀ l (e : ℕ), s.opp l e ≠ s.opp l e → s.opp l e = none ∧
          ((l, e) = x ∨ (l, e) = y ∨ s.opp x.1 x.2 = some (l, (e : Int)) ∨
            s.opp y.1 y.2 = some (l, (e : Int))) :=
    ⟨h, SameTables.refl h.toShape, fun _ _ hne => absurd rfl hne⟩
  unfold glue
  rw [wp_bind, wp_checkMutable]
  refine ⟨fun hm => ?_, fun _ => hrefl⟩
  rw [wp_bind, wp_get, wp_ite]
  refine ⟨fun _ => by simpa [wp_bind, wp_throw] using hrefl, fun _ => ?_⟩
  rw [wp_ite]
  refine ⟨fun _ => by simpa [wp_bind, wp_throw] using hrefl, fun _ => ?_⟩
  rw [wp_bind]
  refine wp_mono (unglue_spec h x.1 x.2) ?_ ?_
  swap
  · rintro _ s1 (rfl | ⟨_, _, hs1⟩)
    · exact hrefl
    · refine ⟨hs1.ginv h, hs1.toSameTables, fun l e hne => ?_⟩
      rw [hs1.opp] at hne ⊢
      split_ifs at hne ⊢ with hc
      · refine ⟨rfl, ?_⟩
        rcases hc with ⟨rfl, rfl⟩ | hc
        · exact Or.inl rfl
        · exact Or.inr (Or.inr (Or.inl hc))
      · exact absurd rfl hne
  · rintro _ s1 ⟨_, hex, hs1⟩
    have h1 := hs1.ginv h
    rw [wp_bind]
    -- the combined effect of the two calls to unglue
    have comb : ∀ s2, UnglueSpec s1 y.1 y.2 s2 → ∀ l (e : ℕ), s2.opp l e =
        if (l, e) = x ∨ (l, e) = y ∨ s.opp x.1 x.2 = some (l, (e : Int)) ∨
            s.opp y.1 y.2 = some (l, (e : Int)) then none else s.opp l e := by
      intro s2 hs2 l e
      rw [hs2.opp, hs1.opp, hs1.opp]
      by_cases hx : (l = x.1 ∧ e = x.2) ∨ s.opp x.1 x.2 = some (l, (e : Int))
      · have : (l, e) = x ∨ (l, e) = y ∨ s.opp x.1 x.2 = some (l, (e : Int)) ∨
            s.opp y.1 y.2 = some (l, (e : Int)) := by
          rcases hx with ⟨rfl, rfl⟩ | hx
          · exact Or.inl rfl
          · exact Or.inr (Or.inr (Or.inl hx))
        rw [if_pos this]
        split_ifs <;> rfl
      · have hx1 : ¬ (l, e) = x := fun hh => hx (Or.inl (by rw [← hh]; exact ⟨rfl, rfl⟩))
        have hx2 : ¬ s.opp x.1 x.2 = some (l, (e : Int)) := fun hh => hx (Or.inr hh)
        have hyy : (l = y.1 ∧ e = y.2) ↔ (l, e) = y := by rw [Prod.ext_iff]
        rw [if_neg hx]
        by_cases hyx : (y.1 = x.1 ∧ y.2 = x.2) ∨ s.opp x.1 x.2 = some (y.1, (y.2 : Int))
        · rw [if_pos hyx]
          have : ¬ s.opp y.1 y.2 = some (l, (e : Int)) := by
            intro hh
            rcases hyx with ⟨e1, e2⟩ | hyx
            · rw [e1, e2] at hh; exact hx2 hh
            · obtain ⟨k, hk, hkk⟩ := h.inv _ _ _ _ hyx
              simp only [Int.natCast_inj] at hk
              subst hk
              rw [hh] at hkk
              simp only [Option.some.injEq, Prod.mk.injEq, Int.natCast_inj] at hkk
              exact hx (Or.inl hkk)
          simp only [hyy, hx1, hx2, false_or, or_false, reduceCtorEq, this]
        · rw [if_neg hyx]
          simp only [hyy, hx1, hx2, false_or]
    refine wp_mono (unglue_spec h1 y.1 y.2) ?_ ?_
    swap
    · rintro _ s2 (rfl | ⟨_, _, hs2⟩)
      · refine ⟨h1, hs1.toSameTables, fun l e hne => ?_⟩
        rw [hs1.opp] at hne ⊢
        split_ifs at hne ⊢ with hc
        · refine ⟨rfl, ?_⟩
          rcases hc with ⟨rfl, rfl⟩ | hc
          · exact Or.inl rfl
          · exact Or.inr (Or.inr (Or.inl hc))
        · exact absurd rfl hne
      · refine ⟨hs2.ginv h1, hs1.toSameTables.trans hs2.toSameTables, fun l e hne => ?_⟩
        rw [comb s2 hs2] at hne ⊢
        split_ifs at hne ⊢ with hc
        · exact ⟨rfl, hc⟩
        · exact absurd rfl hne
    · rintro _ s2 ⟨_, hey, hs2⟩
      have h2 := hs2.ginv h1
      have hc2 := comb s2 hs2
      have hey' : s.IsEdge y.1 y.2 := hs1.toSameTables.isEdge.1 hey
      rw [wp_bind]
      refine wp_mono (joinRoots_frame x.1 y.1 s2) ?_ ?_
      swap
      · rintro _ s3 ⟨rs, rfl⟩
        refine ⟨h2.withRoots rs, (hs1.toSameTables.trans hs2.toSameTables).trans
          ⟨rfl, rfl, rfl, h2.toShape.withRoots rs⟩, fun l e hne => ?_⟩
        have : ({ s2 with roots := rs } : MSurf L P).opp l e = s2.opp l e := rfl
        rw [this, hc2] at hne ⊢
        split_ifs at hne ⊢ with hc
        · exact ⟨rfl, hc⟩
        · exact absurd rfl hne
      · rintro _ s3 ⟨rs, hs3⟩
        have h3 : GInv s3 := hs3 ▸ h2.withRoots rs
        have t3 : SameTables s s3 := (hs1.toSameTables.trans hs2.toSameTables).trans
          (hs3 ▸ ⟨rfl, rfl, rfl, h2.toShape.withRoots rs⟩)
        have o3 : ∀ l e, s3.opp l e = s2.opp l e := by intro l e; rw [hs3]; rfl
        have hex3 : s3.IsEdge x.1 x.2 := t3.isEdge.2 hex
        have hey3 : s3.IsEdge y.1 y.2 := t3.isEdge.2 hey'
        dsimp only
        rw [wp_bind, wp_setGluing h3.toShape hex3]
        have h4 := shape_upd h3.toShape hex3 (some (y.1, (y.2 : Int)))
        have hey4 : (s3.upd x.1 x.2 (some (y.1, (y.2 : Int)))).IsEdge y.1 y.2 := hey3
        rw [wp_setGluing h4 hey4]
        have h5 := shape_upd h4 hey4 (some (x.1, (x.2 : Int)))
        refine ⟨hm, hex, hey', ⟨t3.polygons, t3.mutable, t3.nextLabel, h5⟩, ?_, ?_, ?_⟩
        · rw [opp_upd h4 hey4, opp_upd h3.toShape hex3]
          by_cases hxy : x.1 = y.1 ∧ x.2 = y.2
          · simp [hxy]
          · simp [hxy]
        · rw [opp_upd h4 hey4]; simp
        · intro l e hx hy
          have hx' : ¬ (l = x.1 ∧ e = x.2) := fun hh => hx (Prod.ext hh.1 hh.2)
          have hy' : ¬ (l = y.1 ∧ e = y.2) := fun hh => hy (Prod.ext hh.1 hh.2)
          rw [opp_upd h4 hey4, if_neg hy', opp_upd h3.toShape hex3, if_neg hx', o3, hc2]
          simp only [hx, hy, false_or]

theorem GlueSpec.ginv {s s' : MSurf L P} (h : GInv s) {x y : L × ℕ} (hs : GlueSpec s x y s') :
    GInv s' := by
  refine ⟨hs.shape, fun l1 e1 l2 e2 h1 => ?_⟩
  by_cases hx : (l1, e1) = x
  · have := hs.opp_x
    rw [← hx] at this
    dsimp only at this
    rw [h1] at this
    simp only [Option.some.injEq, Prod.mk.injEq] at this
    refine ⟨y.2, this.2, ?_⟩
    have hy := hs.opp_y
    rw [← this.1, ← hx] at hy
    exact hy
  · by_cases hy : (l1, e1) = y
    · have := hs.opp_y
      rw [← hy] at this
      dsimp only at this
      rw [h1] at this
      simp only [Option.some.injEq, Prod.mk.injEq] at this
      refine ⟨x.2, this.2, ?_⟩
      have hx := hs.opp_x
      rw [← this.1, ← hy] at hx
      exact hx
    · rw [hs.opp_other _ _ hx hy] at h1
      split_ifs at h1 with hc
      push Not at hc
      obtain ⟨k, rfl, hk⟩ := h.inv _ _ _ _ h1
      refine ⟨k, rfl, ?_⟩
      have hkx : (l2, k) ≠ x := by
        rintro rfl; exact hc.1 hk
      have hky : (l2, k) ≠ y := by
        rintro rfl; exact hc.2 hk
      rw [hs.opp_other _ _ hkx hky, if_neg, hk]
      push Not
      constructor
      · intro hh
        obtain ⟨k', hk', hh'⟩ := h.inv _ _ _ _ hh
        simp only [Int.natCast_inj] at hk'
        subst hk'
        rw [hk] at hh'
        simp only [Option.some.injEq, Prod.mk.injEq, Int.natCast_inj] at hh'
        exact hx (Prod.ext hh'.1 hh'.2)
      · intro hh
        obtain ⟨k', hk', hh'⟩ := h.inv _ _ _ _ hh
        simp only [Int.natCast_inj] at hk'
        subst hk'
        rw [hk] at hh'
        simp only [Option.some.injEq, Prod.mk.injEq, Int.natCast_inj] at hh'
        exact hy (Prod.ext hh'.1 hh'.2)

theorem glue_ginv {s : MSurf L P} (h : GInv s) (x y : L × ℕ) :
    wp (glue (x.1, (x.2 : Int)) (y.1, (y.2 : Int))) (fun _ => GInv) (fun _ => GInv) s := by
  refine wp_mono (glue_spec h x y) ?_ ?_
  · rintro _ s' ⟨_, _, _, hs⟩; exact hs.ginv h
  · rintro _ s' ⟨hs, _⟩; exact hs

end MSurf
end Flat
