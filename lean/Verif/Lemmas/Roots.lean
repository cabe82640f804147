import Verif.Lemmas.Traversal
import Verif.Lemmas.SurfaceOps

/-!
# Bookkeeping of roots
-/

namespace Flat
namespace MSurf
variable {L P : Type} [LinearOrder L] [NumVertices P]

/-- There are no explicit roots or every component contains one. -/
def FullRoots (s : MSurf L P) : Prop := s.roots = [] ∨ ∀ l ∈ s.polygons.keys, ∃ r ∈ s.roots, s.Conn r l

theorem conn_mono {s s' : MSurf L P} (h : ∀ l (e : ℕ) c, s'.opp l e = some c → s.opp l e = some c)
    {a b : L} (hc : s'.Conn a b) : s.Conn a b :=
  Relation.ReflTransGen.mono (fun _ _ ⟨e, e', ho⟩ => ⟨e, e', h _ _ _ ho⟩) _ _ hc

theorem conn_congr {s s' : MSurf L P} (h : ∀ l (e : ℕ), s'.opp l e = s.opp l e) {a b : L} :
    s'.Conn a b ↔ s.Conn a b :=
  ⟨conn_mono fun l e c hc => by rw [← h]; exact hc, conn_mono fun l e c hc => by rw [h]; exact hc⟩

/-- Fewer gluings and fewer roots keep the roots consistent. -/
theorem RootsOK.mono {s s' : MSurf L P} (hr : RootsOK s)
    (h : ∀ l (e : ℕ) c, s'.opp l e = some c → s.opp l e = some c) (hroots : s'.roots.Sublist s.roots)
    (hk : ∀ r ∈ s'.roots, r ∈ s'.polygons.keys) : RootsOK s' :=
  ⟨hk, (hr.sep.imp fun hab hc => hab (conn_mono h hc)).sublist hroots⟩

theorem sep_unique {s : MSurf L P} (h : GInv s) (hr : RootsOK s) {a b : L} (ha : a ∈ s.roots)
    (hb : b ∈ s.roots) (hab : s.Conn a b) : a = b := by
  have : ∀ rs : List L, rs.Pairwise (fun a b => ¬ s.Conn a b) → a ∈ rs → b ∈ rs → a = b := by
    intro rs hp
    induction hp with
    | nil => intro ha; cases ha
    | cons h1 _ ih =>
      intro ha hb
      rcases List.mem_cons.1 ha with ha | ha <;> rcases List.mem_cons.1 hb with hb | hb
      · rw [ha, hb]
      · rw [ha] at hab; exact absurd hab (h1 b hb)
      · rw [hb] at hab; exact absurd (conn_symm h hab) (h1 a ha)
      · exact ih ha hb
  exact this _ hr.sep ha hb

theorem splitRoots_spec {s : MSurf L P} (h : GInv s) (l l' : L) (hl : l ∈ s.polygons.keys)
    (hl' : l' ∈ s.polygons.keys) :
    wp (splitRoots l l')
      (fun _ s' => (s' = s ∧ (s.roots = [] ∨ s.Conn l l')) ∨
        (s.roots ≠ [] ∧ ¬ s.Conn l l' ∧ ∃ r ∈ s.roots, ∃ m, s' = { s with roots := s.roots ++ [m] } ∧
          ((s.Conn l r ∧ s.Conn l' m) ∨ (s.Conn l' r ∧ s.Conn l m))))
      (fun e s' => e = .assertionError ∧ s' = s ∧ s.roots ≠ [] ∧
        ∀ r ∈ s.roots, ¬ s.Conn l r ∧ ¬ s.Conn l' r) s := by
  unfold splitRoots
  rw [wp_bind, wp_get, wp_ite]
  refine ⟨fun hne => ?_, fun he => by
    rw [not_not] at he
    exact Or.inl ⟨rfl, Or.inl he⟩⟩
  obtain ⟨c, hc, _, hcm⟩ := component_spec h hl
  obtain ⟨c', hc', _, hcm'⟩ := component_spec h hl'
  rw [wp_bind, wp_liftE, hc]
  refine ⟨fun a ha => ?_, fun _ he => by cases he⟩
  injection ha with ha
  subst ha
  rw [wp_ite]
  refine ⟨fun hn => ?_, fun hn => Or.inl ⟨rfl, Or.inr ?_⟩⟩
  swap
  · rw [not_not] at hn
    exact (hcm l').1 hn
  have hnc : ¬ s.Conn l l' := fun hh => hn ((hcm l').2 hh)
  rw [wp_bind, wp_liftE, hc']
  refine ⟨fun a ha => ?_, fun _ he => by cases he⟩
  injection ha with ha
  subst ha
  rw [wp_ite]
  refine ⟨fun hx => absurd (conn_symm h ((hcm' l).1 hx)) hnc, fun _ => ?_⟩
  split
  · rename_i hf
    rw [wp_throw]
    refine ⟨rfl, rfl, hne, fun r hr => ?_⟩
    have := List.find?_eq_none.1 hf r hr
    simp only [decide_eq_true_eq, not_or] at this
    rw [hcm, hcm'] at this
    exact this
  · rename_i r hf
    have hr := List.mem_of_find?_eq_some hf
    have hp := List.find?_some hf
    simp only [decide_eq_true_eq] at hp
    rw [wp_bind, wp_liftE]
    by_cases hrc : r ∈ l :: c
    · rw [if_pos hrc]
      obtain ⟨m, hm, hmin⟩ := minLabel_spec (ls := l' :: c') (by simp)
      rw [hmin]
      refine ⟨fun a ha => ?_, fun _ he => by cases he⟩
      injection ha with ha
      subst ha
      exact Or.inr ⟨hne, hnc, r, hr, m, rfl, Or.inl ⟨(hcm r).1 hrc, (hcm' m).1 hm⟩⟩
    · rw [if_neg hrc]
      obtain ⟨m, hm, hmin⟩ := minLabel_spec (ls := l :: c) (by simp)
      rw [hmin]
      refine ⟨fun a ha => ?_, fun _ he => by cases he⟩
      injection ha with ha
      subst ha
      exact Or.inr ⟨hne, hnc, r, hr, m, rfl, Or.inr ⟨(hcm' r).1 (hp.resolve_left hrc), (hcm m).1 hm⟩⟩

theorem joinRoots_spec {s : MSurf L P} (h : GInv s) (l l' : L) (hl : l ∈ s.polygons.keys)
    (hl' : l' ∈ s.polygons.keys) :
    wp (joinRoots l l')
      (fun _ s' => (s' = s ∧ (s.roots = [] ∨ s.Conn l l')) ∨
        (s.roots ≠ [] ∧ ¬ s.Conn l l' ∧ ∃ r ∈ s.roots,
          s' = { s with roots := s.roots.filter (fun r' => r' ≠ r) } ∧ (s.Conn l r ∨ s.Conn l' r)))
      (fun e s' => e = .assertionError ∧ s' = s ∧ s.roots ≠ [] ∧
        ∀ r ∈ s.roots, ¬ s.Conn l r ∧ ¬ s.Conn l' r) s := by
  unfold joinRoots
  rw [wp_bind, wp_get, wp_ite]
  refine ⟨fun hne => ?_, fun he => by
    rw [not_not] at he
    exact Or.inl ⟨rfl, Or.inl he⟩⟩
  obtain ⟨c, hc, _, hcm⟩ := component_spec h hl
  obtain ⟨c', hc', _, hcm'⟩ := component_spec h hl'
  rw [wp_bind, wp_liftE, hc]
  refine ⟨fun a ha => ?_, fun _ he => by cases he⟩
  injection ha with ha
  subst ha
  rw [wp_ite]
  refine ⟨fun hn => ?_, fun hn => Or.inl ⟨rfl, Or.inr ?_⟩⟩
  swap
  · rw [not_not] at hn
    exact (hcm l').1 hn
  have hnc : ¬ s.Conn l l' := fun hh => hn ((hcm l').2 hh)
  rw [wp_bind, wp_liftE, hc']
  refine ⟨fun a ha => ?_, fun _ he => by cases he⟩
  injection ha with ha
  subst ha
  split
  · rename_i hf
    rw [wp_throw]
    refine ⟨rfl, rfl, hne, fun r hr => ?_⟩
    have := List.find?_eq_none.1 hf r (List.mem_reverse.2 hr)
    simp only [decide_eq_true_eq, not_or] at this
    rw [hcm, hcm'] at this
    exact this
  · rename_i r hf
    have hr := List.mem_reverse.1 (List.mem_of_find?_eq_some hf)
    have hp := List.find?_some hf
    simp only [decide_eq_true_eq] at hp
    rw [hcm, hcm'] at hp
    exact Or.inr ⟨hne, hnc, r, hr, rfl, hp⟩

theorem isEdge_mem {s : MSurf L P} {l : L} {e : ℕ} (he : s.IsEdge l e) : l ∈ s.polygons.keys := by
  obtain ⟨p, hp, _⟩ := he
  rw [Dict.mem_keys_iff, hp]; simp

/-- `unglue` keeps the roots consistent and, when every component has a root, never runs into an assertion
error. -/
theorem unglue_roots {s : MSurf L P} (h : GInv s) (hr : RootsOK s) (l : L) (e : ℕ) :
    wp (unglue l (e : Int)) (fun _ s' => RootsOK s' ∧ (FullRoots s → FullRoots s'))
      (fun x s' => RootsOK s' ∧ (FullRoots s → FullRoots s' ∧ x ≠ .assertionError)) s := by
  unfold unglue
  rw [wp_bind, wp_checkMutable]
  refine ⟨fun hm => ?_, fun _ => ⟨hr, fun hf => ⟨hf, by simp⟩⟩⟩
  rw [wp_bind, wp_get, wp_bind, wp_liftE]
  refine ⟨fun c hc => ?_, fun x hx => ⟨hr, fun hf => ⟨hf, ?_⟩⟩⟩
  swap
  · rintro rfl
    unfold oppositeEdge at hx
    split at hx
    · cases hx
    · unfold pyGet at hx
      split at hx
      · cases hx
      · split at hx <;> cases hx
  have he : s.IsEdge l e := by
    by_contra hne
    rw [oppositeEdge_error h.toShape hne] at hc
    cases hc
  rw [oppositeEdge_eq_opp h.toShape he] at hc
  injection hc with hc
  cases c with
  | none =>
    rw [wp_setGluing h.toShape he]
    have hopp : ∀ l' e', (s.upd l e none).opp l' e' = s.opp l' e' := by
      intro l' e'
      rw [opp_upd h.toShape he]
      split_ifs with hh
      · rw [hh.1, hh.2, hc]
      · rfl
    refine ⟨⟨hr.mem, hr.sep.imp fun hab hc => hab ((conn_congr hopp).1 hc)⟩, fun hf => ?_⟩
    rcases hf with hf | hf
    · exact Or.inl hf
    · refine Or.inr fun l hl => ?_
      obtain ⟨r, hrr, hrc⟩ := hf l hl
      exact ⟨r, hrr, (conn_congr hopp).2 hrc⟩
  | some c =>
    obtain ⟨c1, c2⟩ := c
    obtain ⟨k, rfl, hk⟩ := h.inv _ _ _ _ hc
    have hek : s.IsEdge c1 k := opp_isEdge h.toShape hk
    dsimp only
    rw [wp_bind, wp_setGluing h.toShape hek, wp_bind]
    have hsh := shape_upd h.toShape hek none
    rw [wp_setGluing hsh he]
    set s1 := (s.upd c1 k none).upd l e none with hs1
    have hopp : ∀ l' e', s1.opp l' e' = if (l' = l ∧ e' = e) ∨ (l' = c1 ∧ e' = k) then none
        else s.opp l' e' := by
      intro l' e'
      rw [hs1, opp_upd hsh he, opp_upd h.toShape hek]
      by_cases p : l' = l ∧ e' = e
      · rw [if_pos p, if_pos (Or.inl p)]
      · rw [if_neg p]
        by_cases q : l' = c1 ∧ e' = k
        · rw [if_pos q, if_pos (Or.inr q)]
        · rw [if_neg q, if_neg (not_or.2 ⟨p, q⟩)]
    have hmono : ∀ l' (e' : ℕ) c, s1.opp l' e' = some c → s.opp l' e' = some c := by
      intro l' e' c hcc
      rw [hopp] at hcc
      split_ifs at hcc
      exact hcc
    have h1 : GInv s1 := by
      refine ⟨shape_upd hsh he none, fun a ea b eb hab => ?_⟩
      have hab' := hmono _ _ _ hab
      obtain ⟨k', rfl, hk'⟩ := h.inv _ _ _ _ hab'
      refine ⟨k', rfl, ?_⟩
      rw [hopp] at hab ⊢
      split_ifs at hab with hh
      rw [if_neg, hk']
      rintro (⟨rfl, rfl⟩ | ⟨rfl, rfl⟩)
      · rw [hc] at hk'
        simp only [Option.some.injEq, Prod.mk.injEq, Int.natCast_inj] at hk'
        exact hh (Or.inr ⟨hk'.1.symm, hk'.2.symm⟩)
      · rw [hk] at hk'
        simp only [Option.some.injEq, Prod.mk.injEq, Int.natCast_inj] at hk'
        exact hh (Or.inl ⟨hk'.1.symm, hk'.2.symm⟩)
    have r1 : RootsOK s1 := hr.mono hmono (List.Sublist.refl _) hr.mem
    have hadj : s.Conn l c1 := Relation.ReflTransGen.single ⟨e, k, hc⟩
    -- connected before: connected now, or through the removed gluing
    have hsplit : ∀ a b, s.Conn a b → s1.Conn a b ∨ ((s1.Conn a l ∨ s1.Conn a c1) ∧
        (s1.Conn l b ∨ s1.Conn c1 b)) := by
      intro a b hab
      induction hab with
      | refl => exact Or.inl Relation.ReflTransGen.refl
      | tail hab hbc ih =>
        rename_i b d
        obtain ⟨eb, ed, hbd⟩ := hbc
        by_cases hh : (b = l ∧ eb = e) ∨ (b = c1 ∧ eb = k)
        · rcases hh with ⟨rfl, rfl⟩ | ⟨rfl, rfl⟩
          · rw [hc] at hbd
            simp only [Option.some.injEq, Prod.mk.injEq] at hbd
            obtain ⟨rfl, _⟩ := hbd
            rcases ih with ih | ⟨ih, _⟩
            · exact Or.inr ⟨Or.inl ih, Or.inr Relation.ReflTransGen.refl⟩
            · exact Or.inr ⟨ih, Or.inr Relation.ReflTransGen.refl⟩
          · rw [hk] at hbd
            simp only [Option.some.injEq, Prod.mk.injEq] at hbd
            obtain ⟨rfl, _⟩ := hbd
            rcases ih with ih | ⟨ih, _⟩
            · exact Or.inr ⟨Or.inr ih, Or.inl Relation.ReflTransGen.refl⟩
            · exact Or.inr ⟨ih, Or.inl Relation.ReflTransGen.refl⟩
        · have : s1.Adj b d := ⟨eb, ed, by rw [hopp, if_neg hh]; exact hbd⟩
          rcases ih with ih | ⟨ih, ih'⟩
          · exact Or.inl (Relation.ReflTransGen.tail ih this)
          · refine Or.inr ⟨ih, ?_⟩
            rcases ih' with ih' | ih'
            · exact Or.inl (Relation.ReflTransGen.tail ih' this)
            · exact Or.inr (Relation.ReflTransGen.tail ih' this)
    refine wp_mono (splitRoots_spec h1 l c1 (isEdge_mem he) (isEdge_mem hek)) ?_ ?_
    · rintro _ s' (⟨rfl, hcase⟩ | ⟨hne, hnc, r, hrr, m, rfl, hrm⟩)
      · refine ⟨r1, fun hf => ?_⟩
        rcases hf with hf | hf
        · exact Or.inl hf
        rcases hcase with hcase | hcase
        · exact Or.inl hcase
        · refine Or.inr fun b hb => ?_
          obtain ⟨r, hrr, hrb⟩ := hf b hb
          refine ⟨r, hrr, ?_⟩
          rcases hsplit r b hrb with hh | ⟨hh1, hh2⟩
          · exact hh
          · have h1' : s1.Conn r l := by
              rcases hh1 with hh1 | hh1
              · exact hh1
              · exact conn_trans hh1 (conn_symm h1 hcase)
            have h2' : s1.Conn l b := by
              rcases hh2 with hh2 | hh2
              · exact hh2
              · exact conn_trans hcase hh2
            exact conn_trans h1' h2'
      · have hmk : m ∈ s1.polygons.keys := by
          rcases hrm with ⟨_, hm'⟩ | ⟨_, hm'⟩
          · exact conn_mem h1 hm' (isEdge_mem hek)
          · exact conn_mem h1 hm' (isEdge_mem he)
        have hcr : ∀ a b, ({ s1 with roots := s1.roots ++ [m] } : MSurf L P).Conn a b ↔ s1.Conn a b :=
          fun a b => conn_congr (fun _ _ => rfl)
        refine ⟨⟨?_, ?_⟩, fun hf => Or.inr fun b hb => ?_⟩
        · intro q hq
          rcases List.mem_append.1 hq with hq | hq
          · exact r1.mem q hq
          · rw [List.mem_singleton] at hq
            subst hq
            exact hmk
        · simp only [hcr]
          rw [List.pairwise_append]
          refine ⟨r1.sep, List.pairwise_singleton _ _, fun q hq b hb => ?_⟩
          rw [List.mem_singleton] at hb
          subst hb
          intro hqm
          -- q and r are both roots in the old component
          have hqr : s.Conn q r := by
            rcases hrm with ⟨hr1, hm1⟩ | ⟨hr1, hm1⟩
            · exact conn_trans (conn_mono hmono (conn_trans hqm (conn_symm h1 hm1)))
                (conn_trans (conn_symm h hadj) (conn_mono hmono hr1))
            · exact conn_trans (conn_mono hmono (conn_trans hqm (conn_symm h1 hm1)))
                (conn_trans hadj (conn_mono hmono hr1))
          have := sep_unique h hr hq hrr hqr
          subst this
          rcases hrm with ⟨hr1, hm1⟩ | ⟨hr1, hm1⟩
          · exact hnc (conn_trans hr1 (conn_trans hqm (conn_symm h1 hm1)))
          · exact hnc (conn_trans hm1 (conn_trans (conn_symm h1 hqm) (conn_symm h1 hr1)))
        · rcases hf with hf | hf
          · exact absurd hf hne
          obtain ⟨q, hq, hqb⟩ := hf b hb
          rcases hsplit q b hqb with hh | ⟨hh1, hh2⟩
          · exact ⟨q, by simp [s1]; exact Or.inl hq, (hcr q b).2 hh⟩
          · -- b is in one of the two parts
            have hm : m ∈ s1.roots ++ [m] := by simp
            have hrr' : r ∈ s1.roots ++ [m] := by simp [hrr]
            rcases hrm with ⟨hr1, hm1⟩ | ⟨hr1, hm1⟩
            · rcases hh2 with hh2 | hh2
              · exact ⟨r, hrr', (hcr r b).2 (conn_trans (conn_symm h1 hr1) hh2)⟩
              · exact ⟨m, hm, (hcr m b).2 (conn_trans (conn_symm h1 hm1) hh2)⟩
            · rcases hh2 with hh2 | hh2
              · exact ⟨m, hm, (hcr m b).2 (conn_trans (conn_symm h1 hm1) hh2)⟩
              · exact ⟨r, hrr', (hcr r b).2 (conn_trans (conn_symm h1 hr1) hh2)⟩
    · rintro x s' ⟨rfl, rfl, hne, hno⟩
      refine ⟨r1, fun hf => ?_⟩
      exfalso
      rcases hf with hf | hf
      · exact hne hf
      obtain ⟨r, hrr, hrl⟩ := hf l (isEdge_mem he)
      have := hno r hrr
      rcases hsplit r l hrl with hh | ⟨hh | hh, _⟩
      · exact this.1 (conn_symm h1 hh)
      · exact this.1 (conn_symm h1 hh)
      · exact this.2 (conn_symm h1 hh)

/-- `glue` keeps the roots consistent and, when every component has a root, never runs into an assertion
error. -/
theorem glue_roots {s : MSurf L P} (h : GInv s) (hr : RootsOK s) (x y : L × ℕ) :
    wp (glue (x.1, (x.2 : Int)) (y.1, (y.2 : Int)))
      (fun _ s' => RootsOK s' ∧ (FullRoots s → FullRoots s'))
      (fun e s' => RootsOK s' ∧ (FullRoots s → FullRoots s' ∧ e ≠ .assertionError)) s := by
  unfold glue
  rw [wp_bind, wp_checkMutable]
  refine ⟨fun hm => ?_, fun _ => ⟨hr, fun hf => ⟨hf, by simp⟩⟩⟩
  rw [wp_bind, wp_get, wp_ite]
  refine ⟨fun _ => by rw [wp_bind, wp_throw]; exact ⟨hr, fun hf => ⟨hf, by simp⟩⟩, fun _ => ?_⟩
  rw [wp_ite]
  refine ⟨fun _ => by rw [wp_bind, wp_throw]; exact ⟨hr, fun hf => ⟨hf, by simp⟩⟩, fun _ => ?_⟩
  rw [wp_bind]
  refine wp_mono (wp_and (unglue_spec h x.1 x.2) (unglue_roots h hr x.1 x.2)) ?_ (fun _ _ hh => hh.2)
  rintro _ s1 ⟨⟨_, hex, u1⟩, hr1, hf1⟩
  have h1 := u1.ginv h
  rw [wp_bind]
  refine wp_mono (wp_and (unglue_spec h1 y.1 y.2) (unglue_roots h1 hr1 y.1 y.2)) ?_
    (fun _ _ hh => ⟨hh.2.1, fun hf => hh.2.2 (hf1 hf)⟩)
  rintro _ s2 ⟨⟨_, hey, u2⟩, hr2, hf2⟩
  have h2 := u2.ginv h1
  have t2 : SameTables s s2 := u1.toSameTables.trans u2.toSameTables
  have hex2 : s2.IsEdge x.1 x.2 := t2.isEdge.2 hex
  have hey2 : s2.IsEdge y.1 y.2 := u2.toSameTables.isEdge.2 hey
  have ox : s2.opp x.1 x.2 = none := by
    rw [u2.opp]
    split_ifs
    · rfl
    · rw [u1.opp]; simp
  have oy : s2.opp y.1 y.2 = none := by rw [u2.opp]; simp
  rw [wp_bind]
  refine wp_mono (joinRoots_spec h2 x.1 y.1 (isEdge_mem hex2) (isEdge_mem hey2)) ?_ ?_
  swap
  · rintro e s3 ⟨rfl, rfl, hne, hno⟩
    refine ⟨hr2, fun hf => ?_⟩
    exfalso
    rcases hf2 (hf1 hf) with hf | hf
    · exact hne hf
    · obtain ⟨r, hrr, hrl⟩ := hf x.1 (isEdge_mem hex2)
      exact (hno r hrr).1 (conn_symm h2 hrl)
  -- the final state, for any choice of the roots
  have fin : ∀ rs : List L, (∀ r ∈ rs, r ∈ s2.polygons.keys) →
      (s2.Conn x.1 y.1 → rs = s2.roots) →
      (¬ s2.Conn x.1 y.1 → (rs = [] ∨ ∃ r ∈ s2.roots, rs = s2.roots.filter (fun r' => r' ≠ r) ∧
        (s2.Conn x.1 r ∨ s2.Conn y.1 r))) → (s2.roots = [] → rs = []) →
      wp (setGluing x.1 (x.2 : Int) (some (y.1, (y.2 : Int))) >>= fun _ =>
          setGluing y.1 (y.2 : Int) (some (x.1, (x.2 : Int))) : Act L P Unit)
        (fun _ s' => RootsOK s' ∧ (FullRoots s → FullRoots s'))
        (fun e s' => RootsOK s' ∧ (FullRoots s → FullRoots s' ∧ e ≠ .assertionError))
        { s2 with roots := rs } := by
    intro rs hmem hconn hnconn hemp
    have sh3 : Shape ({ s2 with roots := rs } : MSurf L P) := h2.toShape.withRoots rs
    have hex3 : ({ s2 with roots := rs } : MSurf L P).IsEdge x.1 x.2 := hex2
    rw [wp_bind, wp_setGluing sh3 hex3]
    have sh4 := shape_upd sh3 hex3 (some (y.1, (y.2 : Int)))
    have hey4 : (({ s2 with roots := rs } : MSurf L P).upd x.1 x.2 (some (y.1, (y.2 : Int)))).IsEdge
      y.1 y.2 := hey2
    rw [wp_setGluing sh4 hey4]
    set s5 := (({ s2 with roots := rs } : MSurf L P).upd x.1 x.2 (some (y.1, (y.2 : Int)))).upd y.1 y.2
      (some (x.1, (x.2 : Int))) with hs5
    have hopp : ∀ l e, s5.opp l e = if l = y.1 ∧ e = y.2 then some (x.1, (x.2 : Int)) else
        if l = x.1 ∧ e = x.2 then some (y.1, (y.2 : Int)) else s2.opp l e := by
      intro l e
      rw [hs5, opp_upd sh4 hey4, opp_upd sh3 hex3]
      rfl
    have up : ∀ a b, s2.Conn a b → s5.Conn a b := by
      intro a b
      refine conn_mono fun l e c hc => ?_
      rw [hopp, if_neg, if_neg, hc]
      · rintro ⟨rfl, rfl⟩; rw [ox] at hc; cases hc
      · rintro ⟨rfl, rfl⟩; rw [oy] at hc; cases hc
    have down : ∀ a b, s5.Conn a b → s2.Conn a b ∨ ((s2.Conn a x.1 ∧ s2.Conn y.1 b) ∨
        (s2.Conn a y.1 ∧ s2.Conn x.1 b)) ∨ (s2.Conn a x.1 ∧ s2.Conn x.1 b) ∨
        (s2.Conn a y.1 ∧ s2.Conn y.1 b) := by
      intro a b hab
      induction hab with
      | refl => exact Or.inl Relation.ReflTransGen.refl
      | tail hab hbc ih =>
        rename_i b d
        obtain ⟨eb, ed, hbd⟩ := hbc
        rw [hopp] at hbd
        split_ifs at hbd with c1 c2
        · obtain ⟨rfl, rfl⟩ := c1
          simp only [Option.some.injEq, Prod.mk.injEq] at hbd
          obtain ⟨rfl, _⟩ := hbd
          rcases ih with ih | (⟨i1, _⟩ | ⟨i1, _⟩) | ⟨i1, _⟩ | ⟨i1, _⟩
          · exact Or.inr (Or.inl (Or.inr ⟨ih, Relation.ReflTransGen.refl⟩))
          · exact Or.inl i1
          · exact Or.inr (Or.inl (Or.inr ⟨i1, Relation.ReflTransGen.refl⟩))
          · exact Or.inl i1
          · exact Or.inr (Or.inl (Or.inr ⟨i1, Relation.ReflTransGen.refl⟩))
        · obtain ⟨rfl, rfl⟩ := c2
          simp only [Option.some.injEq, Prod.mk.injEq] at hbd
          obtain ⟨rfl, _⟩ := hbd
          rcases ih with ih | (⟨i1, _⟩ | ⟨i1, _⟩) | ⟨i1, _⟩ | ⟨i1, _⟩
          · exact Or.inr (Or.inl (Or.inl ⟨ih, Relation.ReflTransGen.refl⟩))
          · exact Or.inr (Or.inl (Or.inl ⟨i1, Relation.ReflTransGen.refl⟩))
          · exact Or.inl i1
          · exact Or.inr (Or.inl (Or.inl ⟨i1, Relation.ReflTransGen.refl⟩))
          · exact Or.inl i1
        · have had : s2.Adj b d := ⟨eb, ed, hbd⟩
          rcases ih with ih | (⟨i1, i2⟩ | ⟨i1, i2⟩) | ⟨i1, i2⟩ | ⟨i1, i2⟩
          · exact Or.inl (ih.tail had)
          · exact Or.inr (Or.inl (Or.inl ⟨i1, i2.tail had⟩))
          · exact Or.inr (Or.inl (Or.inr ⟨i1, i2.tail had⟩))
          · exact Or.inr (Or.inr (Or.inl ⟨i1, i2.tail had⟩))
          · exact Or.inr (Or.inr (Or.inr ⟨i1, i2.tail had⟩))
    have down' : ∀ a b, s5.Conn a b → s2.Conn a b ∨ (s2.Conn a x.1 ∧ s2.Conn y.1 b) ∨
        (s2.Conn a y.1 ∧ s2.Conn x.1 b) := by
      intro a b hab
      rcases down a b hab with hh | hh | ⟨h1, h2⟩ | ⟨h1, h2⟩
      · exact Or.inl hh
      · exact Or.inr hh
      · exact Or.inl (conn_trans h1 h2)
      · exact Or.inl (conn_trans h1 h2)
    have hxy : s5.Conn x.1 y.1 := by
      refine Relation.ReflTransGen.single ⟨x.2, ?_⟩
      rw [hopp]
      by_cases hh : x.1 = y.1 ∧ x.2 = y.2
      · rw [if_pos hh]; exact ⟨_, by rw [hh.1]⟩
      · rw [if_neg hh, if_pos ⟨rfl, rfl⟩]; exact ⟨_, rfl⟩
    have s5sym : ∀ a b, s5.Conn a b → s5.Conn b a := by
      intro a b hab
      rcases down' a b hab with hh | ⟨h1, h2'⟩ | ⟨h1, h2'⟩
      · exact up _ _ (conn_symm h2 hh)
      · refine conn_trans (up _ _ (conn_symm h2 h2')) (conn_trans ?_ (up _ _ (conn_symm h2 h1)))
        refine Relation.ReflTransGen.single ⟨y.2, x.2, ?_⟩
        rw [hopp]; simp
      · exact conn_trans (up _ _ (conn_symm h2 h2')) (conn_trans hxy (up _ _ (conn_symm h2 h1)))
    by_cases hc : s2.Conn x.1 y.1
    · have hrs := hconn hc
      have hiff : ∀ a b, s5.Conn a b ↔ s2.Conn a b := by
        intro a b
        refine ⟨fun hab => ?_, up a b⟩
        rcases down' a b hab with hh | ⟨i1, i2⟩ | ⟨i1, i2⟩
        · exact hh
        · exact conn_trans i1 (conn_trans hc i2)
        · exact conn_trans i1 (conn_trans (conn_symm h2 hc) i2)
      refine ⟨⟨hmem, ?_⟩, fun hf => ?_⟩
      · change rs.Pairwise _
        rw [hrs]
        exact hr2.sep.imp fun hn hh => hn ((hiff _ _).1 hh)
      · rcases hf2 (hf1 hf) with hf | hf
        · exact Or.inl (hrs.trans hf)
        · refine Or.inr fun l hl => ?_
          obtain ⟨r, hrr, hrl⟩ := hf l hl
          exact ⟨r, by change r ∈ rs; rw [hrs]; exact hrr, up _ _ hrl⟩
    · rcases hnconn hc with hrs | ⟨r, hrr, hrs, hrc⟩
      · subst hrs
        exact ⟨⟨fun q hq => (List.not_mem_nil hq).elim, List.Pairwise.nil⟩, fun _ => Or.inl rfl⟩
      · have hqq : ∀ q ∈ rs, q ∈ s2.roots ∧ q ≠ r := by
          intro q hq
          rw [hrs, List.mem_filter] at hq
          exact ⟨hq.1, by simpa using hq.2⟩
        refine ⟨⟨hmem, ?_⟩, fun hf => ?_⟩
        · change rs.Pairwise _
          have hsub : rs.Pairwise (fun a b => ¬ s2.Conn a b) := by
            rw [hrs]; exact hr2.sep.sublist List.filter_sublist
          refine hsub.imp_of_mem ?_
          intro a b ha hb hn hab
          have ha' := hqq a ha
          have hb' := hqq b hb
          have no : ∀ q ∈ rs, s2.Conn q r → False := fun q hq hqr =>
            (hqq q hq).2 (sep_unique h2 hr2 (hqq q hq).1 hrr hqr)
          rcases down' a b hab with hh | ⟨i1, i2⟩ | ⟨i1, i2⟩
          · exact hn hh
          · rcases hrc with hrc | hrc
            · exact no a ha (conn_trans i1 hrc)
            · exact no b hb (conn_trans (conn_symm h2 i2) hrc)
          · rcases hrc with hrc | hrc
            · exact no b hb (conn_trans (conn_symm h2 i2) hrc)
            · exact no a ha (conn_trans i1 hrc)
        · rcases hf2 (hf1 hf) with hf | hf
          · exact Or.inl (hemp hf)
          · refine Or.inr fun l hl => ?_
            have inrs : ∀ q ∈ s2.roots, q ≠ r → q ∈ rs := by
              intro q hq hqr
              rw [hrs, List.mem_filter]
              exact ⟨hq, by simpa using hqr⟩
            obtain ⟨q, hq, hql⟩ := hf l hl
            by_cases hqr : q = r
            · subst hqr
              rcases hrc with hrc | hrc
              · obtain ⟨q2, hq2, hq2y⟩ := hf y.1 (isEdge_mem hey2)
                refine ⟨q2, inrs q2 hq2 ?_, ?_⟩
                · rintro rfl
                  exact hc (conn_trans hrc hq2y)
                · exact conn_trans (up _ _ hq2y) (conn_trans (s5sym _ _ hxy)
                    (up _ _ (conn_trans hrc hql)))
              · obtain ⟨q2, hq2, hq2x⟩ := hf x.1 (isEdge_mem hex2)
                refine ⟨q2, inrs q2 hq2 ?_, ?_⟩
                · rintro rfl
                  exact hc (conn_symm h2 (conn_trans hrc hq2x))
                · exact conn_trans (up _ _ hq2x) (conn_trans hxy (up _ _ (conn_trans hrc hql)))
            · exact ⟨q, inrs q hq hqr, up _ _ hql⟩
  rintro _ s3 (⟨rfl, hcase⟩ | ⟨hne, hnc, r, hrr, rfl, hrc⟩)
  · refine fin s3.roots hr2.mem (fun _ => rfl) (fun hnc => Or.inl ?_) id
    rcases hcase with hcase | hcase
    · exact hcase
    · exact absurd hcase hnc
  · refine fin (s2.roots.filter (fun r' => r' ≠ r)) (fun q hq => hr2.mem q (List.mem_of_mem_filter hq))
      (fun hh => absurd hh hnc) (fun _ => Or.inr ⟨r, hrr, rfl, hrc⟩) (fun hh => absurd hh hne)

theorem UnglueAllSpec.rootsOK {s s' : MSurf L P} (hr : RootsOK s) {l : L} (hs : UnglueAllSpec s l s') :
    RootsOK s' := by
  refine hr.mono ?_ (by rw [hs.roots]) (by rw [hs.roots, hs.polygons]; exact hr.mem)
  intro l' e' c hc
  by_cases hl : l' = l
  · subst hl; rw [hs.own] at hc; cases hc
  · by_cases hex : ∃ d, s.opp l' e' = some (l, d)
    · rw [(hs.other l' e' hl).1 hex] at hc; cases hc
    · rw [(hs.other l' e' hl).2 hex] at hc; exact hc

theorem RemoveSpec.rootsOK {s s' : MSurf L P} (h : GInv s) (hr : RootsOK s) {l : L} (hs : RemoveSpec s l s') :
    RootsOK s' := by
  refine hr.mono ?_ (by rw [hs.roots]; exact List.filter_sublist) ?_
  · intro l' e' c hc
    by_cases hl : l' = l
    · subst hl; rw [hs.own] at hc; cases hc
    · by_cases hex : ∃ d, s.opp l' e' = some (l, d)
      · rw [(hs.other l' e' hl).1 hex] at hc; cases hc
      · rw [(hs.other l' e' hl).2 hex] at hc; exact hc
  · intro q hq
    rw [hs.roots, List.mem_filter] at hq
    rw [hs.polygons, Dict.mem_keys_erase _ h.nodupP]
    exact ⟨by simpa using hq.2, hr.mem q hq.1⟩

theorem AddSpec.roots_ok {s s' : MSurf L P} (h : GInv s) (hr : RootsOK s) {p : P} {l : L}
    (hs : AddSpec s p l s') : RootsOK s' ∧ (FullRoots s → FullRoots s') := by
  have hc : ∀ a b, s'.Conn a b ↔ s.Conn a b := fun a b => conn_congr fun l e => hs.opp l e
  constructor
  · constructor
    · intro q hq
      rw [hs.roots] at hq
      rw [hs.polygons, Dict.mem_keys_set]
      split_ifs at hq
      · cases hq
      · rcases List.mem_append.1 hq with hq | hq
        · exact Or.inr (hr.mem q hq)
        · exact Or.inl (List.mem_singleton.1 hq)
    · rw [hs.roots]
      simp only [hc]
      split_ifs
      · exact List.Pairwise.nil
      · rw [List.pairwise_append]
        refine ⟨hr.sep, List.pairwise_singleton _ _, fun a ha b hb hab => ?_⟩
        rw [List.mem_singleton] at hb
        subst hb
        exact hs.fresh (conn_mem h hab (hr.mem a ha))
  · rintro (hf | hf)
    · left; rw [hs.roots, if_pos hf]
    · by_cases he : s.roots = []
      · left; rw [hs.roots, if_pos he]
      · right
        intro l' hl'
        rw [hs.roots, if_neg he]
        rw [hs.polygons, Dict.mem_keys_set] at hl'
        rcases hl' with rfl | hl'
        · exact ⟨l', by simp, Relation.ReflTransGen.refl⟩
        · obtain ⟨r, hrr, hrl⟩ := hf l' hl'
          exact ⟨r, by simp [hrr], (hc r l').2 hrl⟩

theorem setRoots_roots {s : MSurf L P} (h : GInv s) (hr : RootsOK s) (rs : List L) :
    wp (setRoots rs) (fun _ s' => RootsOK s') (fun _ s' => s' = s) s := by
  have frame := setRoots_frame rs s
  have main : wp (setRoots rs) (fun _ _ => (∀ r ∈ rs, r ∈ s.polygons.keys) ∧
      rs.Pairwise (fun a b => ¬ s.Conn a b)) (fun _ _ => True) s := by
    obtain ⟨qs, cs, -, hcs, hF, -, -, hcov⟩ := components_spec h hr
    obtain ⟨ls, hls, hln, hlm⟩ := labels_spec h hr
    unfold setRoots
    rw [wp_bind, wp_checkMutable]
    refine ⟨fun hm => ?_, fun _ => trivial⟩
    rw [wp_bind, wp_get]
    have tail : (∀ r ∈ rs, r ∈ s.polygons.keys) → wp (do
        let cs ← liftE s.components
        if cs.any (fun c => (rs.filter (fun r => r ∈ c)).length > 1) then throw Err.valueError
        set { s with roots := rs } : Act L P Unit)
        (fun _ _ => (∀ r ∈ rs, r ∈ s.polygons.keys) ∧ rs.Pairwise (fun a b => ¬ s.Conn a b))
        (fun _ _ => True) s := by
      intro hmem
      rw [wp_bind, wp_liftE, hcs]
      refine ⟨fun a ha => ?_, fun _ _ => trivial⟩
      injection ha with ha
      subst ha
      rw [wp_ite]
      refine ⟨fun _ => by rw [wp_bind, wp_throw]; trivial, fun hany => ?_⟩
      rw [wp_set]
      refine ⟨hmem, ?_⟩
      have hany' : ∀ c ∈ cs, (rs.filter (fun r => r ∈ c)).length ≤ 1 := by
        intro c hc
        by_contra hlt
        apply hany
        rw [List.any_eq_true]
        exact ⟨c, hc, by simpa using hlt⟩
      clear hm frame hls hlm hln
      induction rs with
      | nil => exact List.Pairwise.nil
      | cons a rs ih =>
        rw [List.pairwise_cons]
        constructor
        · intro b hb hab
          obtain ⟨q, hq, hqa⟩ := hcov a (hmem a (by simp))
          obtain ⟨c, hc, hcm⟩ : ∃ c ∈ cs, ∀ l, l ∈ c ↔ s.Conn q l := by
            clear ih hany hany' hcov hcs
            induction hF with
            | nil => cases hq
            | cons h1 h2 ih =>
              rcases List.mem_cons.1 hq with rfl | hq
              · exact ⟨_, by simp, h1.2.2⟩
              · obtain ⟨c, hc, hh⟩ := ih hq
                exact ⟨c, by simp [hc], hh⟩
          have := hany' c hc
          have ha' : a ∈ c := (hcm a).2 hqa
          have hb' : b ∈ c := (hcm b).2 (conn_trans hqa hab)
          rw [List.filter_cons_of_pos (by simpa using ha')] at this
          have hpos : 0 < (rs.filter (fun r => r ∈ c)).length := by
            apply List.length_pos_of_mem (a := b)
            rw [List.mem_filter]
            exact ⟨hb, by simpa using hb'⟩
          simp only [List.length_cons] at this
          omega
        · refine ih (fun r hr => hmem r (by simp [hr])) ?_ ?_
          · intro hany2
            apply hany
            rw [List.any_eq_true] at hany2 ⊢
            obtain ⟨c, hc, hlen⟩ := hany2
            refine ⟨c, hc, ?_⟩
            simp only [decide_eq_true_eq] at hlen ⊢
            refine lt_of_lt_of_le hlen ?_
            exact (List.Sublist.filter _ (List.sublist_cons_self a rs)).length_le
          · intro c hc
            exact ((List.Sublist.filter _ (List.sublist_cons_self a rs)).length_le).trans (hany' c hc)
    rw [wp_ite]
    refine ⟨fun hne => ?_, fun he => ?_⟩
    · rw [wp_bind, wp_liftE, hls]
      refine ⟨fun a ha => ?_, fun _ _ => trivial⟩
      injection ha with ha
      subst ha
      rw [wp_ite]
      refine ⟨fun _ => by rw [wp_bind, wp_throw]; trivial, fun hz => ?_⟩
      rw [wp_ite]
      refine ⟨fun _ => by rw [wp_bind, wp_throw]; trivial, fun _ => ?_⟩
      refine tail fun r hrr => ?_
      rw [← hlm]
      by_contra hnot
      apply hz
      rw [List.any_eq_true]
      refine ⟨_, List.mem_map.2 ⟨r, hrr, rfl⟩, ?_⟩
      simp only [decide_eq_true_eq, List.length_eq_zero_iff, List.filter_eq_nil_iff]
      rintro l hl rfl
      exact hnot hl
    · rw [not_not] at he
      exact tail (by simp [he])
  refine wp_mono (wp_and frame main) ?_ (fun _ _ hh => hh.1)
  rintro _ s' ⟨⟨rfl, _⟩, h1, h2⟩
  exact ⟨h1, h2⟩

theorem setRoot_roots {s : MSurf L P} (h : GInv s) (hr : RootsOK s) (root : L) :
    wp (setRoot root) (fun _ s' => RootsOK s' ∧ root ∈ s'.roots) (fun _ s' => s' = s) s := by
  obtain ⟨qs, cs, -, hcs, hF, -, -, hcov⟩ := components_spec h hr
  obtain ⟨ls, hls, hln, hlm⟩ := labels_spec h hr
  unfold setRoot
  rw [wp_bind, wp_checkMutable]
  refine ⟨fun hm => ?_, fun _ => rfl⟩
  rw [wp_bind, wp_get, wp_bind, wp_liftE, hls]
  refine ⟨fun a ha => ?_, fun _ _ => rfl⟩
  injection ha with ha
  subst ha
  rw [wp_ite]
  refine ⟨fun _ => by rw [wp_bind, wp_throw], fun hfound => ?_⟩
  rw [wp_ite]
  refine ⟨fun _ => by rw [wp_bind, wp_throw], fun _ => ?_⟩
  rw [wp_bind, wp_liftE, hcs]
  refine ⟨fun a ha => ?_, fun _ _ => rfl⟩
  injection ha with ha
  subst ha
  dsimp only
  have hmem : root ∈ s.polygons.keys := by
    rw [← hlm]
    by_contra hnot
    apply hfound
    rw [List.filter_eq_nil_iff]
    intro l hl
    simp only [decide_eq_true_eq]
    rintro rfl
    exact hnot hl
  split
  · rename_i c hc
    have hcin : c ∈ cs.filter (fun c => root ∈ c) := by rw [hc]; simp
    rw [List.mem_filter] at hcin
    obtain ⟨hcin, hrc⟩ := hcin
    simp only [decide_eq_true_eq] at hrc
    obtain ⟨q, hcm⟩ : ∃ q, ∀ l, l ∈ c ↔ s.Conn q l := by
      clear hc hcov hcs
      induction hF with
      | nil => cases hcin
      | cons h1 h2 ih =>
        rcases List.mem_cons.1 hcin with rfl | hcin
        · exact ⟨_, h1.2.2⟩
        · exact ih hcin
    rw [wp_set]
    refine ⟨⟨?_, ?_⟩, by simp⟩
    · intro r hrr
      rcases List.mem_append.1 hrr with hrr | hrr
      · exact hr.mem r (List.mem_of_mem_filter hrr)
      · rw [List.mem_singleton] at hrr; subst hrr; exact hmem
    · change List.Pairwise (fun a b => ¬ s.Conn a b) _
      rw [List.pairwise_append]
      refine ⟨hr.sep.sublist List.filter_sublist, List.pairwise_singleton _ _, fun a ha b hb hab => ?_⟩
      rw [List.mem_singleton] at hb
      subst hb
      rw [List.mem_filter] at ha
      have : a ∉ c := by simpa using ha.2
      exact this ((hcm a).2 (conn_trans ((hcm b).1 hrc) (conn_symm h hab)))
  · rw [wp_throw]

end MSurf
end Flat
