import Verif.Lemmas.Composite

/-!
# Gluing a list of pairs according to a given involution

The composite operations of a surface remove polygons, add polygons and then glue pairs of edges.  When the
pairs are part of an involution, no `glue` undoes a former one.
-/

namespace Flat
namespace MSurf
variable {L P : Type} [LinearOrder L] [NumVertices P]

/-- When the edge exists, `unglue` can only fail in the bookkeeping of roots. -/
theorem unglue_err {s : MSurf L P} (h : GInv s) (hm : s.mutable = true) {l : L} {e : ℕ} (he : s.IsEdge l e) :
    wp (unglue l (e : Int)) (fun _ s' => s.roots = [] → s'.roots = [])
      (fun x _ => x = .assertionError ∧ s.roots ≠ []) s := by
  unfold unglue
  rw [wp_bind, wp_checkMutable]
  refine ⟨fun _ => ?_, fun h' => by rw [hm] at h'; cases h'⟩
  rw [wp_bind, wp_get, wp_bind, wp_liftE, oppositeEdge_eq_opp h.toShape he]
  refine ⟨fun c hc => ?_, fun _ h' => by cases h'⟩
  injection hc with hc
  cases c with
  | none =>
    rw [wp_setGluing h.toShape he]
    exact fun hr => hr
  | some c =>
    obtain ⟨c1, c2⟩ := c
    obtain ⟨k, rfl, hk⟩ := h.inv _ _ _ _ hc
    have hek : s.IsEdge c1 k := opp_isEdge h.toShape hk
    dsimp only
    rw [wp_bind, wp_setGluing h.toShape hek, wp_bind]
    have hsh := shape_upd h.toShape hek none
    rw [wp_setGluing hsh he]
    have spec : UnglueSpec s l e ((s.upd c1 k none).upd l e none) := by
      refine ⟨⟨rfl, rfl, rfl, (shape_upd hsh he none)⟩, fun l' e' => ?_⟩
      rw [opp_upd hsh he, opp_upd h.toShape hek, hc]
      by_cases h1 : l' = l ∧ e' = e
      · simp [h1]
      · by_cases h2 : l' = c1 ∧ e' = k
        · obtain ⟨rfl, rfl⟩ := h2; simp
        · have h3 : ¬ (c1 = l' ∧ k = e') := fun h3 => h2 ⟨h3.1.symm, h3.2.symm⟩
          rw [if_neg h1, if_neg h2, if_neg]
          rintro (h4 | h4)
          · exact h1 h4
          · simp only [Option.some.injEq, Prod.mk.injEq, Int.natCast_inj] at h4
            exact h3 h4
    refine wp_mono (splitRoots_spec (spec.ginv h) l c1 (isEdge_mem he) (isEdge_mem hek)) ?_ ?_
    · rintro _ s' (⟨rfl, _⟩ | ⟨hne, _⟩) hr
      · exact hr
      · exact absurd hr hne
    · rintro x s' ⟨rfl, _, hne, _⟩
      exact ⟨rfl, hne⟩

/-- When the edges exist, `glue` can only fail in the bookkeeping of roots. -/
theorem glue_err {s : MSurf L P} (h : GInv s) (hm : s.mutable = true) {x y : L × ℕ}
    (hx : s.IsEdge x.1 x.2) (hy : s.IsEdge y.1 y.2) :
    wp (glue (x.1, (x.2 : Int)) (y.1, (y.2 : Int))) (fun _ s' => s.roots = [] → s'.roots = [])
      (fun e _ => e = .assertionError ∧ s.roots ≠ []) s := by
  unfold glue
  rw [wp_bind, wp_checkMutable]
  refine ⟨fun _ => ?_, fun h' => by rw [hm] at h'; cases h'⟩
  rw [wp_bind, wp_get, wp_ite]
  refine ⟨fun h' => absurd (isEdge_mem hx) h', fun _ => ?_⟩
  rw [wp_ite]
  refine ⟨fun h' => absurd (isEdge_mem hy) h', fun _ => ?_⟩
  rw [wp_bind]
  refine wp_mono (wp_and (unglue_spec h x.1 x.2) (unglue_err h hm hx)) ?_ (fun _ _ hh => hh.2)
  rintro _ s1 ⟨⟨_, _, u1⟩, hr1⟩
  have h1 := u1.ginv h
  have hx1 : s1.IsEdge x.1 x.2 := u1.toSameTables.isEdge.2 hx
  have hy1 : s1.IsEdge y.1 y.2 := u1.toSameTables.isEdge.2 hy
  rw [wp_bind]
  have hm1 : s1.mutable = true := by rw [u1.mutable, hm]
  have hne : s1.roots ≠ [] → s.roots ≠ [] := fun hh hr => hh (hr1 hr)
  refine wp_mono (wp_and (unglue_spec h1 y.1 y.2) (unglue_err h1 hm1 hy1)) ?_ (fun _ _ hh => ⟨hh.2.1, hne hh.2.2⟩)
  rintro _ s2 ⟨⟨_, _, u2⟩, hr2⟩
  have h2 := u2.ginv h1
  have hx2 : s2.IsEdge x.1 x.2 := u2.toSameTables.isEdge.2 hx1
  have hy2 : s2.IsEdge y.1 y.2 := u2.toSameTables.isEdge.2 hy1
  rw [wp_bind]
  refine wp_mono (wp_and (joinRoots_frame x.1 y.1 s2) (joinRoots_spec h2 x.1 y.1 (isEdge_mem hx2) (isEdge_mem hy2))) ?_
    (fun _ _ hh => ⟨hh.2.1, fun hr => hh.2.2.2.1 (hr2 (hr1 hr))⟩)
  rintro _ s3 ⟨⟨rs, rfl⟩, hj⟩
  have sh3 : Shape ({ s2 with roots := rs } : MSurf L P) := h2.toShape.withRoots rs
  have ex : ({ s2 with roots := rs } : MSurf L P).IsEdge x.1 x.2 := hx2
  have ey : ({ s2 with roots := rs } : MSurf L P).IsEdge y.1 y.2 := hy2
  rw [wp_bind, wp_setGluing sh3 ex, wp_setGluing (shape_upd sh3 ex _) ey]
  intro hr
  rcases hj with ⟨he, _⟩ | ⟨hne', _⟩
  · have : rs = s2.roots := congrArg MSurf.roots he
    change rs = []
    rw [this]
    exact hr2 (hr1 hr)
  · exact absurd (hr2 (hr1 hr)) hne'

/-- The gluings of `s` are some of the gluings `G`. -/
def Sub (s : MSurf L P) (G : L → ℕ → Option (L × Int)) : Prop := ∀ l e c, s.opp l e = some c → G l e = some c

/-- `G` is an involution on edges of `s`. -/
structure Target (s : MSurf L P) (G : L → ℕ → Option (L × Int)) : Prop where
  inv : ∀ l (e : ℕ) l' e', G l e = some (l', e') → ∃ k : ℕ, e' = k ∧ G l' k = some (l, (e : Int))
  edge : ∀ l e c, G l e = some c → s.IsEdge l e

/-- `t'` arises from `t` by making some of the gluings of `G`. -/
structure Grown (G : L → ℕ → Option (L × Int)) (t t' : MSurf L P) : Prop extends SameTables t t' where
  ginv : GInv t'
  rootsOK : RootsOK t'
  full : FullRoots t → FullRoots t'
  nil : t.roots = [] → t'.roots = []
  sub : Sub t' G
  keep : ∀ l e c, t.opp l e = some c → t'.opp l e = some c

theorem Grown.refl {G : L → ℕ → Option (L × Int)} {t : MSurf L P} (h : GInv t) (hr : RootsOK t) (hs : Sub t G) :
    Grown G t t := ⟨SameTables.refl h.toShape, h, hr, id, id, hs, fun _ _ _ h => h⟩

theorem Grown.trans {G : L → ℕ → Option (L × Int)} {t t' t'' : MSurf L P} (h : Grown G t t')
    (h' : Grown G t' t'') : Grown G t t'' :=
  ⟨h.toSameTables.trans h'.toSameTables, h'.ginv, h'.rootsOK, fun hf => h'.full (h.full hf),
    fun hf => h'.nil (h.nil hf), h'.sub, fun l e c hc => h'.keep l e c (h.keep l e c hc)⟩

theorem Target.congr {s t : MSurf L P} {G : L → ℕ → Option (L × Int)} (h : Target s G)
    (he : SameTables s t) : Target t G := ⟨h.inv, fun l e c hc => he.isEdge.2 (h.edge l e c hc)⟩

/-- One step: gluing an edge to its partner with respect to `G`. -/
theorem glue_sub {G : L → ℕ → Option (L × Int)} {t : MSurf L P} (h : GInv t) (hm : t.mutable = true)
    (hr : RootsOK t) (hG : Target t G) (hs : Sub t G) (l : L) (e : ℕ) (c : L × Int) (hc : G l e = some c) :
    wp (glue (l, (e : Int)) c) (fun _ t' => Grown G t t' ∧ t'.opp l e = some c)
      (fun x _ => x = .assertionError ∧ ¬ FullRoots t) t := by
  obtain ⟨l', e'⟩ := c
  obtain ⟨k, rfl, hk⟩ := hG.inv _ _ _ _ hc
  have hx : t.IsEdge l e := hG.edge _ _ _ hc
  have hy : t.IsEdge l' k := hG.edge _ _ _ hk
  refine wp_mono (wp_and (wp_and (glue_spec h (l, e) (l', k)) (glue_roots h hr (l, e) (l', k)))
    (glue_err h hm (x := (l, e)) (y := (l', k)) hx hy)) ?_ ?_
  · rintro _ t' ⟨⟨⟨-, -, -, gs⟩, hr', hf'⟩, hn⟩
    have other : ∀ a (b : ℕ), (a, b) ≠ (l, e) → (a, b) ≠ (l', k) → t'.opp a b = t.opp a b := by
      intro a b h1 h2
      rw [gs.opp_other a b h1 h2]
      rw [if_neg]
      rintro (h3 | h3)
      · have := hs _ _ _ h3
        rw [hc] at this
        simp only [Option.some.injEq, Prod.mk.injEq, Int.natCast_inj] at this
        exact h2 (by rw [this.1, this.2])
      · have := hs _ _ _ h3
        rw [hk] at this
        simp only [Option.some.injEq, Prod.mk.injEq, Int.natCast_inj] at this
        exact h1 (by rw [this.1, this.2])
    refine ⟨⟨gs.toSameTables, gs.ginv h, hr', hf', hn, ?_, ?_⟩, gs.opp_x⟩
    · intro a b c hab
      by_cases h1 : (a, b) = (l, e)
      · simp only [Prod.mk.injEq] at h1
        obtain ⟨rfl, rfl⟩ := h1
        rw [gs.opp_x] at hab
        rw [hc, ← hab]
      · by_cases h2 : (a, b) = (l', k)
        · simp only [Prod.mk.injEq] at h2
          obtain ⟨rfl, rfl⟩ := h2
          rw [gs.opp_y] at hab
          rw [hk, ← hab]
        · rw [other a b h1 h2] at hab
          exact hs _ _ _ hab
    · intro a b c hab
      by_cases h1 : (a, b) = (l, e)
      · simp only [Prod.mk.injEq] at h1
        obtain ⟨rfl, rfl⟩ := h1
        rw [gs.opp_x, ← hc, ← hs _ _ _ hab]
      · by_cases h2 : (a, b) = (l', k)
        · simp only [Prod.mk.injEq] at h2
          obtain ⟨rfl, rfl⟩ := h2
          rw [gs.opp_y, ← hk, ← hs _ _ _ hab]
        · rw [other a b h1 h2]; exact hab
  · rintro x t' ⟨⟨_, _, hf⟩, rfl, _⟩
    refine ⟨rfl, fun hfull => (hf hfull).2 rfl⟩

/-- Gluing along a list of pairs. -/
theorem glueAll_sub {G : L → ℕ → Option (L × Int)} {t : MSurf L P} (h : GInv t) (hm : t.mutable = true)
    (hr : RootsOK t) (hG : Target t G) (hs : Sub t G) (l : L) (n : ℕ) (cs : List (L × Int))
    (hcs : ∀ i (hi : i < cs.length), G l (n + i) = some cs[i]) :
    wp (glueAll l n cs) (fun _ t' => Grown G t t' ∧ ∀ i (hi : i < cs.length), t'.opp l (n + i) = some cs[i])
      (fun x _ => x = .assertionError ∧ ¬ FullRoots t) t := by
  induction cs generalizing t n with
  | nil => exact ⟨Grown.refl h hr hs, fun i hi => by simp at hi⟩
  | cons c cs ih =>
    unfold glueAll
    rw [wp_bind]
    refine wp_mono (glue_sub h hm hr hG hs l n c (hcs 0 (by simp))) ?_ (fun _ _ hh => hh)
    rintro _ t1 ⟨g1, o1⟩
    refine wp_mono (ih g1.ginv (by rw [g1.mutable, hm]) g1.rootsOK (hG.congr g1.toSameTables) g1.sub (n + 1)
      (fun i hi => ?_)) ?_ (fun x _ hh => ⟨hh.1, fun hf => hh.2 (g1.full hf)⟩)
    · have := hcs (i + 1) (by simpa using hi)
      rw [show n + 1 + i = n + (i + 1) by ring]
      simpa using this
    · rintro _ t2 ⟨g2, o2⟩
      refine ⟨g1.trans g2, fun i hi => ?_⟩
      cases i with
      | zero => exact g2.keep _ _ _ o1
      | succ i =>
        have := o2 i (by simpa using hi)
        rw [show n + (i + 1) = n + 1 + i by ring]
        simpa using this

theorem gluePairs_sub {K : Type} [Field K] [LinearOrder K] [IsStrictOrderedRing K]
    {G : L → ℕ → Option (L × Int)} {t : MSurf L (Poly K)} (h : GInv t) (hm : t.mutable = true)
    (hr : RootsOK t) (hG : Target t G) (hs : Sub t G) (cs : List ((L × Int) × (L × Int)))
    (hcs : ∀ x ∈ cs, ∃ e : ℕ, x.1.2 = e ∧ G x.1.1 e = some x.2) :
    wp (gluePairs cs) (fun _ t' => Grown G t t' ∧
        ∀ x ∈ cs, ∀ e : ℕ, x.1.2 = e → t'.opp x.1.1 e = some x.2)
      (fun x _ => x = .assertionError ∧ ¬ FullRoots t) t := by
  induction cs generalizing t with
  | nil => exact ⟨Grown.refl h hr hs, fun i hi => by simp at hi⟩
  | cons c cs ih =>
    unfold gluePairs
    rw [wp_bind]
    obtain ⟨e, he, hG'⟩ := hcs c (by simp)
    have hc1 : c.1 = (c.1.1, (e : Int)) := by rw [← he]
    rw [hc1]
    refine wp_mono (glue_sub h hm hr hG hs c.1.1 e c.2 hG') ?_ (fun _ _ hh => hh)
    rintro _ t1 ⟨g1, o1⟩
    refine wp_mono (ih g1.ginv (by rw [g1.mutable, hm]) g1.rootsOK (hG.congr g1.toSameTables) g1.sub
      (fun x hx => hcs x (by simp [hx]))) ?_ (fun x _ hh => ⟨hh.1, fun hf => hh.2 (g1.full hf)⟩)
    rintro _ t2 ⟨g2, o2⟩
    refine ⟨g1.trans g2, fun x hx e' he' => ?_⟩
    rcases List.mem_cons.1 hx with rfl | hx
    · rw [he, Int.natCast_inj] at he'
      subst he'
      exact g2.keep _ _ _ o1
    · exact o2 x hx e' he'

theorem glueOptions_sub {K : Type} [Field K] [LinearOrder K] [IsStrictOrderedRing K]
    {G : L → ℕ → Option (L × Int)} {t : MSurf L (Poly K)} (h : GInv t) (hm : t.mutable = true)
    (hr : RootsOK t) (hG : Target t G) (hs : Sub t G) (l : L) (n : ℕ) (cs : List (Option (L × Int)))
    (hcs : ∀ i (hi : i < cs.length), cs[i] ≠ none → G l (n + i) = cs[i]) :
    wp (glueOptions l n cs)
      (fun _ t' => Grown G t t' ∧ ∀ i (hi : i < cs.length), cs[i] ≠ none ∧ t'.opp l (n + i) = cs[i])
      (fun x _ => (x = .typeError ∧ none ∈ cs) ∨ x = .assertionError ∧ ¬ FullRoots t) t := by
  induction cs generalizing t n with
  | nil => exact ⟨Grown.refl h hr hs, fun i hi => by simp at hi⟩
  | cons c cs ih =>
    cases c with
    | none =>
      unfold glueOptions
      rw [wp_throw]
      exact Or.inl ⟨rfl, by simp⟩
    | some c =>
      unfold glueOptions
      rw [wp_bind]
      refine wp_mono (glue_sub h hm hr hG hs l n c (hcs 0 (by simp) (by simp))) ?_ (fun _ _ hh => Or.inr hh)
      rintro _ t1 ⟨g1, o1⟩
      refine wp_mono (ih g1.ginv (by rw [g1.mutable, hm]) g1.rootsOK (hG.congr g1.toSameTables) g1.sub (n + 1)
        (fun i hi hne => ?_)) ?_ ?_
      · have := hcs (i + 1) (by simpa using hi) (by simpa using hne)
        rw [show n + 1 + i = n + (i + 1) by ring]
        simpa using this
      · rintro _ t2 ⟨g2, o2⟩
        refine ⟨g1.trans g2, fun i hi => ?_⟩
        cases i with
        | zero => exact ⟨by simp, g2.keep _ _ _ o1⟩
        | succ i =>
          have := o2 i (by simpa using hi)
          rw [show n + (i + 1) = n + 1 + i by ring]
          simpa using this
      · rintro x _ (⟨rfl, hh⟩ | ⟨rfl, hh⟩)
        · exact Or.inl ⟨rfl, by simp [hh]⟩
        · exact Or.inr ⟨rfl, fun hf => hh (g1.full hf)⟩

end MSurf
end Flat
