import Verif.Lemmas.Rebuild
import Verif.Props.Copy

/-!
# Building a surface by gluing unglued polygons

Several constructions (`polygon_double`, `billiard`, `subdivide`, `subdivide_edges`) add polygons to an empty
surface, possibly call `set_roots`, and then glue.
-/

namespace Flat
namespace MSurf

section
variable {L P : Type} [LinearOrder L] [NumVertices P]

/-- Nothing happens to the roots when the polygons are still connected. -/
theorem splitRoots_conn {s : MSurf L P} (h : GInv s) (l l' : L) (hl : l ∈ s.polygons.keys) (hc : s.Conn l l') :
    wp (splitRoots l l') (fun _ s' => s' = s) (fun _ _ => False) s := by
  unfold splitRoots
  rw [wp_bind, wp_get, wp_ite]
  refine ⟨fun _ => ?_, fun _ => rfl⟩
  obtain ⟨c, hcc, _, hcm⟩ := component_spec h hl
  rw [wp_bind, wp_liftE, hcc]
  refine ⟨fun a ha => ?_, fun _ he => by cases he⟩
  injection ha with ha
  subst ha
  rw [wp_ite]
  exact ⟨fun hn => absurd ((hcm l').2 hc) hn, fun _ => rfl⟩

/-- Nothing happens to the roots when the polygons are already connected. -/
theorem joinRoots_conn {s : MSurf L P} (h : GInv s) (l l' : L) (hl : l ∈ s.polygons.keys) (hc : s.Conn l l') :
    wp (joinRoots l l') (fun _ s' => s' = s) (fun _ _ => False) s := by
  unfold joinRoots
  rw [wp_bind, wp_get, wp_ite]
  refine ⟨fun _ => ?_, fun _ => rfl⟩
  obtain ⟨c, hcc, _, hcm⟩ := component_spec h hl
  rw [wp_bind, wp_liftE, hcc]
  refine ⟨fun a ha => ?_, fun _ he => by cases he⟩
  injection ha with ha
  subst ha
  rw [wp_ite]
  exact ⟨fun hn => absurd ((hcm l').2 hc) hn, fun _ => rfl⟩

/-- Ungluing an edge that is glued to the polygon itself (if at all) does not change the roots. -/
theorem unglue_self {s : MSurf L P} (h : GInv s) (hm : s.mutable = true) {l : L} {e : ℕ} (he : s.IsEdge l e)
    (hc : ∀ c, s.opp l e = some c → c.1 = l) :
    wp (unglue l (e : Int)) (fun _ s' => s'.roots = s.roots) (fun _ _ => False) s := by
  unfold unglue
  rw [wp_bind, wp_checkMutable]
  refine ⟨fun _ => ?_, fun h' => by rw [hm] at h'; cases h'⟩
  rw [wp_bind, wp_get, wp_bind, wp_liftE, oppositeEdge_eq_opp h.toShape he]
  refine ⟨fun c hcc => ?_, fun _ h' => by cases h'⟩
  injection hcc with hcc
  cases c with
  | none =>
    rw [wp_setGluing h.toShape he]
    rfl
  | some c =>
    obtain ⟨c1, c2⟩ := c
    obtain rfl : c1 = l := hc _ hcc
    obtain ⟨k, rfl, hk⟩ := h.inv _ _ _ _ hcc
    have hek : s.IsEdge c1 k := opp_isEdge h.toShape hk
    dsimp only
    rw [wp_bind, wp_setGluing h.toShape hek, wp_bind]
    have hsh := shape_upd h.toShape hek none
    rw [wp_setGluing hsh he]
    have spec : UnglueSpec s c1 e ((s.upd c1 k none).upd c1 e none) := by
      refine ⟨⟨rfl, rfl, rfl, (shape_upd hsh he none)⟩, fun l' e' => ?_⟩
      rw [opp_upd hsh he, opp_upd h.toShape hek, hcc]
      by_cases h1 : l' = c1 ∧ e' = e
      · simp [h1]
      · by_cases h2 : l' = c1 ∧ e' = k
        · obtain ⟨rfl, rfl⟩ := h2; simp
        · have h3 : ¬ (c1 = l' ∧ k = e') := fun h3 => h2 ⟨h3.1.symm, h3.2.symm⟩
          rw [if_neg h1, if_neg h2, if_neg]
          rintro (h4 | h4)
          · exact h1 h4
          · simp only [Option.some.injEq, Prod.mk.injEq, Int.natCast_inj] at h4
            exact h3 h4
    refine wp_mono (splitRoots_conn (spec.ginv h) c1 c1 (isEdge_mem he) Relation.ReflTransGen.refl) ?_ (fun _ _ hh => hh)
    rintro _ s' rfl
    rfl

/-- No polygon is glued to another one. -/
def NoCross (s : MSurf L P) : Prop := ∀ l e c, s.opp l e = some c → c.1 = l

theorem NoCross.conn {s : MSurf L P} (h : NoCross s) {l l' : L} (hc : s.Conn l l') : l' = l := by
  induction hc with
  | refl => rfl
  | tail _ hbc ih =>
    obtain ⟨e, k, hk⟩ := hbc
    rw [← ih]
    exact h _ _ _ hk

/-- A surface whose polygons are not glued to each other, with a single root: gluing does not raise when it glues a
polygon to itself or the root to another polygon. In the latter case the root is forgotten. -/
theorem glue_single {G : L → ℕ → Option (L × Int)} {s : MSurf L P} (h : GInv s) (hm : s.mutable = true)
    (hs : Sub s G) (hn : NoCross s) {r : L} (hr : s.roots = [r]) {x y : L × ℕ}
    (hx : s.IsEdge x.1 x.2) (hy : s.IsEdge y.1 y.2) (hG : G x.1 x.2 = some (y.1, (y.2 : Int)))
    (hG' : G y.1 y.2 = some (x.1, (x.2 : Int))) (hroot : x.1 = y.1 ∨ x.1 = r) :
    wp (glue (x.1, (x.2 : Int)) (y.1, (y.2 : Int))) (fun _ s' => s'.roots = if x.1 = y.1 then [r] else [])
      (fun _ _ => False) s := by
  unfold glue
  rw [wp_bind, wp_checkMutable]
  refine ⟨fun _ => ?_, fun h' => by rw [hm] at h'; cases h'⟩
  rw [wp_bind, wp_get, wp_ite]
  refine ⟨fun h' => absurd (isEdge_mem hx) h', fun _ => ?_⟩
  rw [wp_ite]
  refine ⟨fun h' => absurd (isEdge_mem hy) h', fun _ => ?_⟩
  rw [wp_bind]
  refine wp_mono (wp_and (unglue_spec h x.1 x.2) (unglue_self h hm hx (hn _ _))) ?_ (fun _ _ hh => hh.2)
  rintro _ s1 ⟨⟨_, _, u1⟩, hr1⟩
  have h1 := u1.ginv h
  have hx1 : s1.IsEdge x.1 x.2 := u1.toSameTables.isEdge.2 hx
  have hy1 : s1.IsEdge y.1 y.2 := u1.toSameTables.isEdge.2 hy
  have n1 : NoCross s1 := by
    intro l e c hc
    rw [u1.opp] at hc
    split_ifs at hc
    exact hn _ _ _ hc
  rw [wp_bind]
  have hm1 : s1.mutable = true := by rw [u1.mutable, hm]
  refine wp_mono (wp_and (unglue_spec h1 y.1 y.2) (unglue_self h1 hm1 hy1 (n1 _ _))) ?_ (fun _ _ hh => hh.2)
  rintro _ s2 ⟨⟨_, _, u2⟩, hr2⟩
  have h2 := u2.ginv h1
  have hx2 : s2.IsEdge x.1 x.2 := u2.toSameTables.isEdge.2 hx1
  have hy2 : s2.IsEdge y.1 y.2 := u2.toSameTables.isEdge.2 hy1
  have n2 : NoCross s2 := by
    intro l e c hc
    rw [u2.opp] at hc
    split_ifs at hc
    exact n1 _ _ _ hc
  have hrs : s2.roots = [r] := by rw [hr2, hr1, hr]
  rw [wp_bind]
  have fin : ∀ rs : List L, wp (setGluing x.1 (x.2 : Int) (some (y.1, (y.2 : Int))) >>= fun _ =>
          setGluing y.1 (y.2 : Int) (some (x.1, (x.2 : Int))) : Act L P Unit)
        (fun _ s' => s'.roots = rs) (fun _ _ => False) { s2 with roots := rs } := by
    intro rs
    have sh3 : Shape ({ s2 with roots := rs } : MSurf L P) := h2.toShape.withRoots rs
    have ex : ({ s2 with roots := rs } : MSurf L P).IsEdge x.1 x.2 := hx2
    have ey : ({ s2 with roots := rs } : MSurf L P).IsEdge y.1 y.2 := hy2
    rw [wp_bind, wp_setGluing sh3 ex, wp_setGluing (shape_upd sh3 ex _) ey]
    rfl
  by_cases hxy : x.1 = y.1
  · refine wp_mono (joinRoots_conn h2 x.1 y.1 (isEdge_mem hx2) (by rw [hxy]; exact Relation.ReflTransGen.refl)) ?_ (fun _ _ hh => hh)
    rintro _ s3 hs3
    rw [if_pos hxy, ← hrs, hs3]
    exact fin s2.roots
  · have hxr := hroot.resolve_left hxy
    refine wp_mono (joinRoots_spec h2 x.1 y.1 (isEdge_mem hx2) (isEdge_mem hy2)) ?_ ?_
    · rintro _ s3 (⟨_, hc | hc⟩ | ⟨_, _, q, hq, rfl, _⟩)
      · rw [hrs] at hc; cases hc
      · exact absurd (n2.conn hc).symm hxy
      · rw [hrs, List.mem_singleton] at hq
        rw [if_neg hxy, hq, hrs]
        have : [r].filter (fun r' => decide (r' ≠ r)) = [] := by simp
        rw [this]
        exact fin []
    · rintro e s3 ⟨_, _, _, hno⟩
      exact (hno r (by rw [hrs]; simp)).1 (by rw [hxr]; exact Relation.ReflTransGen.refl)

end

section
variable {L K : Type} [LinearOrder L] [Field K] [LinearOrder K] [IsStrictOrderedRing K]

/-- The first of the pairs that glues different polygons glues the polygon `r`. -/
def FirstCross (r : L) : List ((L × Int) × (L × Int)) → Prop
  | [] => True
  | x :: xs => if x.1.1 = x.2.1 then FirstCross r xs else x.1.1 = r

/-- Gluing along a list of pairs on a surface with at most one explicit root. -/
theorem gluePairs_single {G : L → ℕ → Option (L × Int)} {t : MSurf L (Poly K)} (h : GInv t) (hm : t.mutable = true)
    (hr : RootsOK t) (hG : Target t G) (hs : Sub t G) (hn : NoCross t) {r : L} (hrt : t.roots = [r])
    (cs : List ((L × Int) × (L × Int))) (hcs : ∀ x ∈ cs, ∃ e : ℕ, x.1.2 = e ∧ G x.1.1 e = some x.2)
    (hf : FirstCross r cs) :
    wp (gluePairs cs) (fun _ t' => Grown G t t' ∧
        ∀ x ∈ cs, ∀ e : ℕ, x.1.2 = e → t'.opp x.1.1 e = some x.2) (fun _ _ => False) t := by
  induction cs generalizing t with
  | nil => exact ⟨Grown.refl h hr hs, fun i hi => by simp at hi⟩
  | cons c cs ih =>
    unfold gluePairs
    rw [wp_bind]
    obtain ⟨⟨a, ea⟩, b, eb⟩ := c
    obtain ⟨e, he, hG'⟩ := hcs ((a, ea), b, eb) (by simp)
    dsimp only at he hG'
    subst he
    obtain ⟨k, rfl, hk⟩ := hG.inv _ _ _ _ hG'
    have hroot : a = b ∨ a = r := by
      by_cases hab : a = b
      · exact Or.inl hab
      · unfold FirstCross at hf
        rw [if_neg hab] at hf
        exact Or.inr hf
    refine wp_mono (wp_and (wp_and (glue_sub h hm hr hG hs a e (b, (k : Int)) hG')
      (glue_single h hm hs hn hrt (x := (a, e)) (y := (b, k)) (hG.edge _ _ _ hG') (hG.edge _ _ _ hk) hG' hk hroot))
      (glue_spec h (a, e) (b, k))) ?_ (fun _ _ hh => hh.1.2)
    rintro _ t1 ⟨⟨⟨g1, o1⟩, hroots⟩, -, -, -, gs⟩
    have last : ∀ t2, Grown G t1 t2 → (∀ x ∈ cs, ∀ e : ℕ, x.1.2 = e → t2.opp x.1.1 e = some x.2) →
        Grown G t t2 ∧ ∀ x ∈ ((a, (e : Int)), b, (k : Int)) :: cs, ∀ e : ℕ, x.1.2 = e → t2.opp x.1.1 e = some x.2 := by
      intro t2 g2 o2
      refine ⟨g1.trans g2, fun x hx e' he' => ?_⟩
      rcases List.mem_cons.1 hx with rfl | hx
      · rw [Int.natCast_inj] at he'
        subst he'
        exact g2.keep _ _ _ o1
      · exact o2 x hx e' he'
    by_cases hab : a = b
    · dsimp only at hroots
      rw [if_pos hab] at hroots
      subst hab
      refine wp_mono (ih g1.ginv (by rw [g1.mutable, hm]) g1.rootsOK (hG.congr g1.toSameTables) g1.sub ?_ hroots
        (fun x hx => hcs x (by simp [hx])) ?_) ?_ (fun _ _ hh => hh)
      · intro l e' c hc
        by_cases h1 : (l, e') = (a, e)
        · simp only [Prod.mk.injEq] at h1
          obtain ⟨rfl, rfl⟩ := h1
          rw [gs.opp_x] at hc
          injection hc with hc
          rw [← hc]
        · by_cases h2 : (l, e') = (a, k)
          · simp only [Prod.mk.injEq] at h2
            obtain ⟨rfl, rfl⟩ := h2
            rw [gs.opp_y] at hc
            injection hc with hc
            rw [← hc]
          · rw [gs.opp_other l e' h1 h2] at hc
            split_ifs at hc
            exact hn _ _ _ hc
      · unfold FirstCross at hf
        rwa [if_pos rfl] at hf
      · rintro _ t2 ⟨g2, o2⟩
        exact last t2 g2 o2
    · dsimp only at hroots
      rw [if_neg hab] at hroots
      refine wp_mono (gluePairs_sub g1.ginv (by rw [g1.mutable, hm]) g1.rootsOK (hG.congr g1.toSameTables) g1.sub cs
        (fun x hx => hcs x (by simp [hx]))) ?_ (fun _ _ hh => hh.2 (Or.inl hroots))
      rintro _ t2 ⟨g2, o2⟩
      exact last t2 g2 o2

variable [LabelNum L]

theorem wp_reachable {s : MSurf L (Poly K)} (h : Reachable s) (hm : s.mutable = true) (op : Op L K) (hop : op.NonNeg)
    (hr : ∀ l t gl, op ≠ .refinePolygon l t gl) : wp op.run (fun _ => Reachable) (fun _ => Reachable) s := by
  rw [wp_stateOf]
  exact Reachable.step s op h hm hop (fun l t gl he => absurd he (hr l t gl))

theorem reachable_addAll {s : MSurf L (Poly K)} (h : Reachable s) (hm : s.mutable = true) (ps : List (L × Poly K)) :
    wp (addAll ps) (fun _ => Reachable) (fun _ => Reachable) s := by
  induction ps generalizing s with
  | nil => exact h
  | cons x ps ih =>
    unfold addAll
    rw [wp_bind]
    have h1 := wp_reachable h hm (.addPolygon x.2 (some x.1)) trivial (fun _ _ _ => by simp)
    simp only [Op.run] at h1
    rw [wp_bind] at h1
    refine wp_mono (wp_and h1 (keeps_addPolygon ⟨h.ginv, hm, h.rootsOK⟩ x.2 (some x.1))) ?_ (fun _ _ hh => hh.1)
    rintro _ t ⟨ht, hg⟩
    exact ih ht hg.2.1

theorem reachable_gluePairs {s : MSurf L (Poly K)} (h : Reachable s) (hm : s.mutable = true)
    (gs : List ((L × Int) × (L × Int))) (hgs : ∀ x ∈ gs, 0 ≤ x.1.2 ∧ 0 ≤ x.2.2) :
    wp (gluePairs gs) (fun _ => Reachable) (fun _ => Reachable) s := by
  induction gs generalizing s with
  | nil => exact h
  | cons x gs ih =>
    unfold gluePairs
    rw [wp_bind]
    have hx := hgs x (by simp)
    refine wp_mono (wp_and (wp_reachable h hm (.glue x.1 x.2) hx (fun _ _ _ => by simp))
      (keeps_glue ⟨h.ginv, hm, h.rootsOK⟩ x.1 x.2 hx.1 hx.2)) ?_ (fun _ _ hh => hh.1)
    rintro _ t ⟨ht, hg⟩
    exact ih ht hg.2.1 (fun y hy => hgs y (by simp [hy]))

/-- Making the gluings of an involution on a surface without gluings. -/
theorem build_glue {t : MSurf L (Poly K)} (hre : Reachable t) (hm : t.mutable = true) (hno : ∀ l e, t.opp l e = none)
    (G : L → ℕ → Option (L × Int))
    (hinv : ∀ l (e : ℕ) l' e', G l e = some (l', e') → ∃ k : ℕ, e' = k ∧ G l' k = some (l, (e : Int)))
    (hedge : ∀ l e c, G l e = some c → t.IsEdge l e)
    (gs : List ((L × Int) × (L × Int)))
    (hsub : ∀ x ∈ gs, ∃ e : ℕ, x.1.2 = e ∧ G x.1.1 e = some x.2)
    (hcov : ∀ l (e : ℕ) c, G l e = some c → ((l, (e : Int)), c) ∈ gs ∨ (c, (l, (e : Int))) ∈ gs)
    (hrs : t.roots = [] ∨ ∃ r, t.roots = [r] ∧ FirstCross r gs) :
    wp (gluePairs gs)
      (fun _ t' => Reachable t' ∧ t'.mutable = true ∧ t'.polygons = t.polygons ∧ (∀ l e, t'.opp l e = G l e))
      (fun _ _ => False) t := by
  have hG : Target t G := ⟨hinv, hedge⟩
  have hsub' : Sub t G := by
    intro l e c hc
    rw [hno] at hc
    cases hc
  have key : wp (gluePairs gs) (fun _ t2 => Grown G t t2 ∧
        ∀ x ∈ gs, ∀ e : ℕ, x.1.2 = e → t2.opp x.1.1 e = some x.2) (fun _ _ => False) t := by
    rcases hrs with h1 | ⟨r, h1, h2⟩
    · exact wp_mono (gluePairs_sub hre.ginv hm hre.rootsOK hG hsub' gs hsub) (fun _ _ hh => hh) (fun _ _ hh => hh.2 (Or.inl h1))
    · exact gluePairs_single hre.ginv hm hre.rootsOK hG hsub' (fun l e c hc => by rw [hno] at hc; cases hc) h1 gs hsub h2
  have hgs : ∀ x ∈ gs, 0 ≤ x.1.2 ∧ 0 ≤ x.2.2 := by
    intro x hx
    obtain ⟨e, he, hxG⟩ := hsub x hx
    obtain ⟨k, hk, -⟩ := hinv _ _ _ _ hxG
    rw [he, hk]
    exact ⟨Int.natCast_nonneg _, Int.natCast_nonneg _⟩
  refine wp_mono (wp_and key (reachable_gluePairs hre hm gs hgs)) ?_ (fun _ _ hh => hh.1)
  rintro _ t2 ⟨⟨g, hgl⟩, hre2⟩
  have hopp : ∀ l e, t2.opp l e = G l e := by
    intro l e
    cases hc : G l e with
    | some c =>
      rcases hcov l e c hc with h1 | h1
      · exact hgl _ h1 e rfl
      · obtain ⟨c1, c2⟩ := c
        obtain ⟨k, rfl, hk⟩ := hinv _ _ _ _ hc
        have := hgl _ h1 k rfl
        obtain ⟨e', he', hk'⟩ := g.ginv.inv _ _ _ _ this
        rw [Int.natCast_inj] at he'
        subst he'
        exact hk'
    | none =>
      cases ho2 : t2.opp l e with
      | none => rfl
      | some c => rw [g.sub _ _ _ ho2] at hc; cases hc
  exact ⟨hre2, by rw [g.mutable]; exact hm, g.polygons, hopp⟩

/-- Gluing unglued polygons along an involution. The pairs have to contain every gluing in at least one direction. -/
theorem build_tail {t : MSurf L (Poly K)} (hre : Reachable t) (hm : t.mutable = true) (hno : ∀ l e, t.opp l e = none)
    (G : L → ℕ → Option (L × Int))
    (hinv : ∀ l (e : ℕ) l' e', G l e = some (l', e') → ∃ k : ℕ, e' = k ∧ G l' k = some (l, (e : Int)))
    (hedge : ∀ l e c, G l e = some c → t.IsEdge l e)
    (gs : List ((L × Int) × (L × Int)))
    (hsub : ∀ x ∈ gs, ∃ e : ℕ, x.1.2 = e ∧ G x.1.1 e = some x.2)
    (hcov : ∀ l (e : ℕ) c, G l e = some c → ((l, (e : Int)), c) ∈ gs ∨ (c, (l, (e : Int))) ∈ gs)
    (hrs : t.roots = [] ∨ ∃ r, t.roots = [r] ∧ FirstCross r gs) :
    wp (do gluePairs gs; setImmutable)
      (fun _ t' => Reachable t' ∧ t'.mutable = false ∧ t'.polygons = t.polygons ∧ (∀ l e, t'.opp l e = G l e))
      (fun _ _ => False) t := by
  rw [wp_bind]
  refine wp_mono (build_glue hre hm hno G hinv hedge gs hsub hcov hrs) ?_ (fun _ _ hh => hh)
  rintro _ t2 ⟨hre2, hm2, hp2, hopp⟩
  refine wp_mono (wp_and (wp_and (setImmutable_ok hre2.ginv hre2.rootsOK) (setImmutable_frame t2))
    (wp_reachable hre2 hm2 .setImmutable trivial (fun _ _ _ => by simp))) ?_ (fun _ _ hh => hh.1.1)
  rintro _ t3 ⟨⟨_, h3, _⟩, hre3⟩
  have ho3 : ∀ l e, t3.opp l e = t2.opp l e := by rw [h3]; exact fun _ _ => rfl
  have hp3 : t3.polygons = t2.polygons := by rw [h3]
  exact ⟨hre3, by rw [h3], by rw [hp3, hp2], fun l e => by rw [ho3, hopp]⟩

/-- Adding polygons to an empty surface, choosing at most one root, gluing along an involution. -/
theorem build_spec (ps : List (L × Poly K)) (hn : (Dict.keys ps).Nodup) (G : L → ℕ → Option (L × Int))
    (hinv : ∀ l (e : ℕ) l' e', G l e = some (l', e') → ∃ k : ℕ, e' = k ∧ G l' k = some (l, (e : Int)))
    (hedge : ∀ l e c, G l e = some c → ∃ p, Dict.get ps l = some p ∧ e < nv p)
    (gs : List ((L × Int) × (L × Int)))
    (hsub : ∀ x ∈ gs, ∃ e : ℕ, x.1.2 = e ∧ G x.1.1 e = some x.2)
    (hcov : ∀ l (e : ℕ) c, G l e = some c → ((l, (e : Int)), c) ∈ gs ∨ (c, (l, (e : Int))) ∈ gs)
    (rs : List L) (hrs : rs = [] ∨ ∃ r, rs = [r] ∧ r ∈ Dict.keys ps ∧ FirstCross r gs) :
    wp (do addAll ps; setRoots rs; gluePairs gs; setImmutable)
      (fun _ t => Reachable t ∧ t.mutable = false ∧ (∀ l, t.polygons.get l = Dict.get ps l) ∧
        (∀ l e, t.opp l e = G l e))
      (fun _ _ => False) MSurf.empty := by
  obtain ⟨e1, e2, e3⟩ := empty_of_keys (s := (MSurf.empty : MSurf L (Poly K))) good_empty (by simp [MSurf.empty, Dict.keys])
  rw [wp_bind]
  refine wp_mono (wp_and (addAll_spec good_empty ps hn (fun l _ => by simp [MSurf.empty, Dict.keys]))
    (reachable_addAll Reachable.empty rfl ps)) ?_ (fun _ _ hh => hh.1)
  rintro _ t ⟨⟨ht, hp, ho, hr, _⟩, hre⟩
  have hp' : ∀ l, t.polygons.get l = Dict.get ps l := by
    intro l
    rw [hp, e1]
    simp [Dict.get]
  have hkeys : ∀ l, l ∈ t.polygons.keys ↔ l ∈ Dict.keys ps := by
    intro l
    rw [Dict.mem_keys_iff, Dict.mem_keys_iff, hp']
  have hno : ∀ l e, t.opp l e = none := fun l e => by rw [ho, e3]
  rw [wp_bind]
  refine wp_mono (wp_and (setRoots_ok ht.1 ht.2.2 ht.2.1 rs ?_ ?_)
    (wp_reachable hre ht.2.1 (.setRoots rs) trivial (fun _ _ _ => by simp))) ?_ (fun _ _ hh => hh.1)
  · rcases hrs with rfl | ⟨r, rfl, h1, _⟩
    · intro r hr'; cases hr'
    · intro r' hr'
      rw [List.mem_singleton] at hr'
      rw [hr', hkeys]; exact h1
  · rcases hrs with rfl | ⟨r, rfl, _⟩
    · exact List.Pairwise.nil
    · exact List.pairwise_singleton _ _
  rintro _ t' ⟨rfl, hre'⟩
  refine wp_mono (build_tail hre' ht.2.1 hno G hinv ?_ gs hsub hcov ?_) ?_ (fun _ _ hh => hh)
  · intro l e c hc
    obtain ⟨p, h1, h2⟩ := hedge l e c hc
    exact ⟨p, by rw [← h1, ← hp'], h2⟩
  · rcases hrs with rfl | ⟨r, rfl, h1, h2⟩
    · exact Or.inl rfl
    · exact Or.inr ⟨r, rfl, h2⟩
  · rintro _ t3 ⟨h1, h2, h3, h4⟩
    exact ⟨h1, h2, fun l => by rw [h3, ← hp'], h4⟩

end
end MSurf
end Flat
