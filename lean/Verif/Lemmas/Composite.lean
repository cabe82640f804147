import Verif.Lemmas.SurfaceOps
import Verif.Lemmas.Roots
import Verif.Model.SurfaceOps
import Verif.Lemmas.MapM

/-!
# Composite operations keep the gluings an involution
-/

namespace Flat

namespace MSurf
variable {L P : Type} [LinearOrder L] [NumVertices P]

/-- A mutable surface whose gluings form an involution and whose components have at most one root. -/
def Good (s : MSurf L P) : Prop := GInv s ∧ s.mutable = true ∧ RootsOK s

/-- The action leads from `s` to a good surface, whether it returns or raises. -/
def Keeps {α : Type} (m : Act L P α) (s : MSurf L P) : Prop := wp m (fun _ => Good) (fun _ => Good) s

theorem keeps_bind {α β : Type} {m : Act L P α} {f : α → Act L P β} {s : MSurf L P}
    (hm : Keeps m s) (hf : ∀ a s', Good s' → Keeps (f a) s') : Keeps (m >>= f) s := by
  unfold Keeps
  rw [wp_bind]
  exact wp_mono hm (fun a s' h => hf a s' h) (fun _ _ h => h)

theorem keeps_get {β : Type} {f : MSurf L P → Act L P β} {s : MSurf L P} (hf : Keeps (f s) s) :
    Keeps (get >>= f) s := by
  unfold Keeps
  rw [wp_bind, wp_get]
  exact hf

theorem keeps_liftE {α β : Type} {x : Except Err α} {f : α → Act L P β} {s : MSurf L P} (hs : Good s)
    (hf : ∀ a, x = .ok a → Keeps (f a) s) : Keeps (liftE x >>= f) s := by
  unfold Keeps
  rw [wp_bind, wp_liftE]
  exact ⟨fun a ha => hf a ha, fun _ _ => hs⟩

theorem keeps_throw {α : Type} {e : Err} {s : MSurf L P} (hs : Good s) :
    Keeps (throw e : Act L P α) s := hs

theorem keeps_pure {α : Type} {a : α} {s : MSurf L P} (hs : Good s) :
    Keeps (pure a : Act L P α) s := hs

theorem keeps_throw_bind {α β : Type} {e : Err} {f : α → Act L P β} {s : MSurf L P} (hs : Good s) :
    Keeps ((throw e : Act L P α) >>= f) s := by
  unfold Keeps
  rw [wp_bind, wp_throw]
  exact hs

theorem keeps_ite {α : Type} {c : Prop} [Decidable c] {m m' : Act L P α} {s : MSurf L P}
    (h : c → Keeps m s) (h' : ¬ c → Keeps m' s) : Keeps (if c then m else m') s := by
  unfold Keeps
  rw [wp_ite]
  exact ⟨h, h'⟩

/-- `if c then throw e; m` -/
theorem keeps_guard {β : Type} {c : Prop} [Decidable c] {e : Err} {m : Act L P β} {s : MSurf L P}
    (hs : Good s) (h : ¬ c → Keeps m s) :
    Keeps (if c then (throw e : Act L P PUnit) >>= (fun _ => m) else m) s :=
  keeps_ite (fun _ => keeps_throw_bind hs) h

theorem keeps_of_mutable {α : Type} {m : Act L P α} {s : MSurf L P} (hs : Good s)
    (h : wp m (fun _ s' => GInv s' ∧ s'.mutable = s.mutable)
      (fun _ s' => GInv s' ∧ s'.mutable = s.mutable) s)
    (hr : wp m (fun _ s' => RootsOK s') (fun _ s' => RootsOK s') s) : Keeps m s :=
  wp_mono (wp_and h hr) (fun _ _ h => ⟨h.1.1, h.1.2.trans hs.2.1, h.2⟩)
    (fun _ _ h => ⟨h.1.1, h.1.2.trans hs.2.1, h.2⟩)

theorem keeps_removePolygon {s : MSurf L P} (hs : Good s) (l : L) : Keeps (removePolygon l) s := by
  refine wp_mono (removePolygon_spec hs.1 hs.2.1 l) ?_ ?_
  · rintro _ s' ⟨_, h⟩; exact ⟨h.ginv hs.1, h.mutable.trans hs.2.1, h.rootsOK hs.1 hs.2.2⟩
  · rintro _ s' ⟨_, _, rfl⟩; exact hs

theorem keeps_addPolygon [LabelNum L] {s : MSurf L P} (hs : Good s) (p : P) (l : Option L) :
    Keeps (addPolygon p l) s := by
  refine wp_mono (addPolygon_spec hs.1.toShape p l) ?_ ?_
  · rintro _ s' ⟨_, _, h⟩; exact ⟨h.ginv hs.1, h.mutable.trans hs.2.1, (h.roots_ok hs.1 hs.2.2).1⟩
  · rintro _ s' ⟨rfl, _⟩; exact hs

/-- Replacing a polygon does not change connectivity. -/
theorem RootsOK.setPolygon {s : MSurf L P} (hr : RootsOK s) (l : L) (p : P) :
    RootsOK ({ s with polygons := s.polygons.set l p } : MSurf L P) :=
  ⟨fun r h => by rw [Dict.mem_keys_set]; exact Or.inr (hr.mem r h), hr.sep⟩

theorem keeps_replacePolygon {s : MSurf L P} (hs : Good s) (l : L) (p : P) :
    Keeps (replacePolygon l p) s := by
  refine keeps_of_mutable hs (replacePolygon_ginv hs.1 l p) ?_
  unfold replacePolygon
  rw [wp_bind, wp_get, wp_bind, wp_liftE]
  refine ⟨fun old hold => ?_, fun _ _ => hs.2.2⟩
  rw [wp_ite, wp_throw, wp_set]
  exact ⟨fun _ => hs.2.2, fun _ => hs.2.2.setPolygon l p⟩

theorem keeps_glue {s : MSurf L P} (hs : Good s) (x y : L × Int) (hx : 0 ≤ x.2) (hy : 0 ≤ y.2) :
    Keeps (glue x y) s := by
  refine keeps_of_mutable hs (glue_ginv' hs.1 x y hx hy) ?_
  have e1 : x = ((x.1, x.2.toNat).1, (((x.1, x.2.toNat).2 : ℕ) : Int)) :=
    Prod.ext rfl (Int.toNat_of_nonneg hx).symm
  have e2 : y = ((y.1, y.2.toNat).1, (((y.1, y.2.toNat).2 : ℕ) : Int)) :=
    Prod.ext rfl (Int.toNat_of_nonneg hy).symm
  rw [e1, e2]
  exact wp_mono (glue_roots hs.1 hs.2.2 _ _) (fun _ _ h => h.1) (fun _ _ h => h.1)

theorem keeps_unglue {s : MSurf L P} (hs : Good s) (l : L) (e : Int) (he : 0 ≤ e) :
    Keeps (unglue l e) s := by
  refine keeps_of_mutable hs (unglue_ginv' hs.1 l e he) ?_
  rw [← Int.toNat_of_nonneg he]
  exact wp_mono (unglue_roots hs.1 hs.2.2 _ _) (fun _ _ h => h.1) (fun _ _ h => h.1)

theorem keeps_glueAll {s : MSurf L P} (hs : Good s) (l : L) (n : ℕ) (cs : List (L × Int))
    (hcs : ∀ c ∈ cs, 0 ≤ c.2) : Keeps (glueAll l n cs) s := by
  induction cs generalizing n s with
  | nil => exact hs
  | cons c cs ih =>
    unfold glueAll
    exact keeps_bind (keeps_glue hs (l, n) c (Int.natCast_nonneg n) (hcs c (by simp)))
      fun _ s' h' => ih h' (n + 1) fun c hc => hcs c (List.mem_cons_of_mem _ hc)

theorem keeps_changePolygonGluings {s : MSurf L P} (hs : Good s) (l : L) (n : ℕ)
    (cs : List (Option (L × Int))) (hcs : ∀ c, some c ∈ cs → 0 ≤ c.2) :
    Keeps (changePolygonGluings l n cs) s := by
  induction cs generalizing n s with
  | nil => exact hs
  | cons c cs ih =>
    have hcs' : ∀ c, some c ∈ cs → 0 ≤ c.2 := fun c hc => hcs c (List.mem_cons_of_mem _ hc)
    cases c with
    | none =>
      unfold changePolygonGluings
      exact keeps_bind (keeps_unglue hs l n (Int.natCast_nonneg n)) fun _ s' h' => ih h' (n + 1) hcs'
    | some c =>
      unfold changePolygonGluings
      exact keeps_bind (keeps_glue hs (l, n) c (Int.natCast_nonneg n) (hcs c (by simp)))
        fun _ s' h' => ih h' (n + 1) hcs'

theorem keeps_changePolygon {s : MSurf L P} (hs : Good s) (l : L) (p : P)
    (cs : List (L × Int)) (hcs : ∀ c ∈ cs, 0 ≤ c.2) : Keeps (changePolygon l p cs) s := by
  have h := hs.1
  unfold Keeps changePolygon
  rw [wp_bind, wp_checkMutable]
  refine ⟨fun hm => ?_, fun _ => hs⟩
  rw [wp_bind, wp_get, wp_bind, wp_liftE]
  refine ⟨fun old hold => ?_, fun _ _ => hs⟩
  have hold' : s.polygons.get l = some old := by
    unfold polygon at hold
    cases hg : s.polygons.get l with
    | none => simp [hg] at hold
    | some q => simp [hg] at hold; simp [hold]
  rw [wp_ite]
  refine ⟨fun hne => ?_, fun heq => ?_⟩
  · rw [wp_bind]
    refine wp_mono (ungluePolygon_spec h l) ?_ ?_
    swap
    · rintro _ s' ⟨_, _, rfl⟩; exact hs
    · rintro _ s1 ⟨_, h1⟩
      have g1 := h1.ginv h
      have r1 := h1.rootsOK hs.2.2
      rw [wp_bind, wp_get, wp_bind, wp_set, wp_bind, wp_get, wp_bind, wp_set]
      have hopp := opp_replicate s1 l (nv p)
      have hG : GInv (⟨s1.polygons.set l p, s1.gluings.set l (List.replicate (nv p) none), s1.roots,
          s1.mutable, s1.nextLabel⟩ : MSurf L P) := by
        refine ⟨⟨Dict.keys_set_nodup _ g1.nodupP _ _, Dict.keys_set_nodup _ g1.nodupG _ _, fun l' => ?_⟩,
          fun l1 e1 l2 e2 ho => ?_⟩
        · simp only [Dict.get_set]
          by_cases hll : l' = l
          · simp [hll]
          · simp only [hll, if_false]; exact g1.len l'
        · have ho' := (hopp l1 e1).symm.trans ho
          split_ifs at ho' with hl1
          obtain ⟨k, rfl, hk⟩ := g1.inv _ _ _ _ ho'
          refine ⟨k, rfl, (hopp l2 k).trans ?_⟩
          rw [if_neg, hk]
          rintro rfl
          rw [h1.own] at hk
          cases hk
      refine keeps_glueAll ⟨hG, h1.mutable.trans hs.2.1, ?_⟩ l 0 cs hcs
      refine r1.mono ?_ (List.Sublist.refl _) ?_
      · intro l' e' c hc
        have hc' := (hopp l' e').symm.trans hc
        split_ifs at hc'
        exact hc'
      · intro r hrr
        change r ∈ (s1.polygons.set l p).keys
        rw [Dict.mem_keys_set]
        exact Or.inr (r1.mem r hrr)
  · rw [not_not] at heq
    rw [wp_bind, wp_get, wp_bind, wp_set]
    have hG : GInv ({ s with polygons := s.polygons.set l p } : MSurf L P) := by
      refine ⟨⟨Dict.keys_set_nodup _ h.nodupP _ _, h.nodupG, fun l' => ?_⟩, h.inv⟩
      simp only [Dict.get_set]
      rw [h.len l']
      by_cases hl : l' = l
      · subst hl; simp [hold', heq]
      · simp [hl]
    exact keeps_glueAll ⟨hG, hs.2.1, hs.2.2.setPolygon l p⟩ l 0 cs hcs

theorem keeps_setRoots {s : MSurf L P} (hs : Good s) (rs : List L) : Keeps (setRoots rs) s := by
  refine wp_mono (wp_and (setRoots_frame rs s) (setRoots_roots hs.1 hs.2.2 rs)) ?_ ?_
  · rintro _ s' ⟨⟨rfl, hm⟩, hr⟩; exact ⟨hs.1.withRoots rs, hm, hr⟩
  · rintro _ s' ⟨rfl, _⟩; exact hs

theorem keeps_setRoot {s : MSurf L P} (hs : Good s) (r : L) : Keeps (setRoot r) s := by
  refine wp_mono (wp_and (setRoot_frame r s) (setRoot_roots hs.1 hs.2.2 r)) ?_ ?_
  · rintro _ s' ⟨⟨⟨rs, rfl⟩, hm⟩, hr, _⟩; exact ⟨hs.1.withRoots rs, hm, hr⟩
  · rintro _ s' ⟨rfl, _⟩; exact hs

/-- `set_immutable` keeps the gluings and makes the roots explicit. -/
theorem setImmutable_roots {s : MSurf L P} (h : GInv s) (hr : RootsOK s) :
    wp setImmutable (fun _ s' => RootsOK s') (fun _ s' => s' = s) s := by
  unfold setImmutable
  rw [wp_bind, wp_get, wp_ite]
  refine ⟨fun hm => ?_, fun hm => hr⟩
  rw [wp_bind, wp_liftE]
  refine ⟨fun rs _ => ?_, fun _ _ => rfl⟩
  rw [wp_bind]
  refine wp_mono (setRoots_roots h hr rs) ?_ (fun _ _ h => h)
  intro _ s' hs'
  rw [wp_bind, wp_get, wp_set]
  exact ⟨hs'.mem, hs'.sep⟩

/-- The partner of an edge is an edge. -/
theorem oppositeEdge_some {s : MSurf L P} (h : GInv s) {l : L} {e : ℕ} {c : L × Int}
    (hc : s.oppositeEdge l (e : Int) = .ok (some c)) :
    ∃ k : ℕ, c.2 = k ∧ s.IsEdge c.1 k ∧ s.opp c.1 k = some (l, (e : Int)) ∧ s.opp l e = some (c.1, (k : Int))
      ∧ s.IsEdge l e := by
  have he : s.IsEdge l e := by
    by_contra hne
    rw [oppositeEdge_error h.toShape hne] at hc
    cases hc
  rw [oppositeEdge_eq_opp h.toShape he] at hc
  injection hc with hc
  obtain ⟨k, hk, hkk⟩ := h.inv l e c.1 c.2 hc
  refine ⟨k, hk, opp_isEdge h.toShape hkk, hkk, ?_, he⟩
  rw [hc, ← hk]

theorem oppositeEdge!_ok {s : MSurf L P} {l : L} {e : Int} {c : L × Int} :
    s.oppositeEdge! l e = .ok c ↔ s.oppositeEdge l e = .ok (some c) := by
  unfold oppositeEdge!
  cases h : s.oppositeEdge l e with
  | error x => simp
  | ok o => cases o <;> simp

theorem oppositeEdge_nonneg {s : MSurf L P} (h : GInv s) {l : L} {e : ℕ} {c : L × Int}
    (hc : s.oppositeEdge l (e : Int) = .ok (some c)) : 0 ≤ c.2 := by
  obtain ⟨k, hk, _⟩ := oppositeEdge_some h hc
  rw [hk]
  exact Int.natCast_nonneg k

section
variable {L K : Type} [LinearOrder L] [Field K] [LinearOrder K] [IsStrictOrderedRing K]

theorem keeps_setVertexZero [LabelNum L] {s : MSurf L (Poly K)} (hs : Good s) (l : L) (v : ℕ) :
    Keeps (setVertexZero l v) s := by
  unfold setVertexZero
  refine keeps_get (keeps_guard hs fun _ => keeps_liftE hs fun p _ => ?_)
  refine keeps_guard hs fun _ => keeps_liftE hs fun pp _ => keeps_liftE hs fun gl hgl => ?_
  refine keeps_bind (keeps_removePolygon hs l) fun _ s1 h1 => ?_
  refine keeps_bind (keeps_addPolygon h1 pp _) fun _ s2 h2 => ?_
  refine keeps_glueAll h2 l 0 gl fun c hc => ?_
  obtain ⟨i, hi, hfi⟩ := mapM_ok_mem hgl hc
  simp only [bind, Except.bind] at hfi
  cases hc' : s.oppositeEdge! l (((v + i) % nv p : ℕ) : Int) with
  | error e => rw [hc'] at hfi; cases hfi
  | ok d =>
    rw [hc'] at hfi
    injection hfi with hfi
    have := oppositeEdge_nonneg hs.1 (oppositeEdge!_ok.1 hc')
    rw [← hfi]
    dsimp only
    split_ifs
    · exact Int.emod_nonneg _ (by simp only [List.mem_range] at hi; omega)
    · exact this

theorem keeps_removeAll {s : MSurf L (Poly K)} (hs : Good s) (ls : List L) :
    Keeps (removeAll ls) s := by
  induction ls generalizing s with
  | nil => exact keeps_pure hs
  | cons l ls ih => exact keeps_bind (keeps_removePolygon hs l) fun _ s' h' => ih h'

theorem keeps_addAll [LabelNum L] {s : MSurf L (Poly K)} (hs : Good s) (ls : List (L × Poly K)) :
    Keeps (addAll ls) s := by
  induction ls generalizing s with
  | nil => exact keeps_pure hs
  | cons l ls ih => exact keeps_bind (keeps_addPolygon hs l.2 _) fun _ s' h' => ih h'

theorem keeps_gluePairs {s : MSurf L (Poly K)} (hs : Good s) (ls : List ((L × Int) × (L × Int)))
    (h : ∀ x ∈ ls, 0 ≤ x.1.2 ∧ 0 ≤ x.2.2) : Keeps (gluePairs ls) s := by
  induction ls generalizing s with
  | nil => exact keeps_pure hs
  | cons x ls ih =>
    have hx := h x (by simp)
    exact keeps_bind (keeps_glue hs x.1 x.2 hx.1 hx.2) fun _ s' h' =>
      ih h' fun y hy => h y (by simp [hy])

omit [IsStrictOrderedRing K] in
theorem gluingPairs_mem {P : Type} [NumVertices P] {s : MSurf L P} (h : GInv s)
    {ps : List ((L × Int) × (L × Int))} (hps : s.gluingPairs = .ok ps) {x} (hx : x ∈ ps) :
    ∃ e k : ℕ, x.1.2 = e ∧ x.2.2 = k ∧ s.opp x.1.1 e = some x.2 ∧ s.opp x.2.1 k = some x.1 := by
  unfold gluingPairs at hps
  simp only [bind, Except.bind] at hps
  cases hl : s.labels with
  | error e => rw [hl] at hps; cases hps
  | ok ls =>
    rw [hl] at hps
    dsimp only at hps
    split at hps
    · cases hps
    · rename_i gs hgs
      injection hps with hps
      subst hps
      obtain ⟨g, hg, hxg⟩ := List.mem_flatten.1 hx
      obtain ⟨l, hl, hfl⟩ := mapM_ok_mem hgs hg
      cases hp : s.polygon l with
      | error e => rw [hp] at hfl; cases hfl
      | ok p =>
        rw [hp] at hfl
        dsimp only at hfl
        cases hcs : s.oppositeEdges l (nv p) with
        | error e => rw [hcs] at hfl; cases hfl
        | ok cs =>
          rw [hcs] at hfl
          injection hfl with hfl
          subst hfl
          rw [List.mem_filterMap] at hxg
          obtain ⟨⟨c, e⟩, hce, hmap⟩ := hxg
          rw [Option.map_eq_some_iff] at hmap
          obtain ⟨c', rfl, rfl⟩ := hmap
          have hidx := List.mem_zipIdx_iff_getElem?.1 hce
          unfold oppositeEdges at hcs
          rw [mapM_ok_iff] at hcs
          have hlt : e < cs.length := (List.getElem?_eq_some_iff.1 hidx).1
          have hlen := hcs.length_eq
          rw [List.forall₂_iff_get] at hcs
          have := hcs.2 e (by omega) hlt
          simp only [List.get_eq_getElem, List.getElem_range] at this
          rw [(List.getElem?_eq_some_iff.1 hidx).2] at this
          obtain ⟨k, hk, _, h1, h2, _⟩ := oppositeEdge_some h this
          refine ⟨e, k, rfl, hk, ?_, h1⟩
          rw [h2, ← hk]

theorem keeps_relabel [LabelNum L] {s : MSurf L (Poly K)} (hs : Good s) (f : Dict L L) :
    Keeps (relabel f) s := by
  unfold relabel
  refine keeps_get (keeps_liftE hs fun ls _ => keeps_liftE hs fun ps _ => keeps_liftE hs fun gs hgs =>
    keeps_liftE hs fun rs _ => ?_)
  refine keeps_bind (keeps_removeAll hs ls) fun _ s1 h1 => ?_
  refine keeps_bind (keeps_addAll h1 ps) fun _ s2 h2 => ?_
  refine keeps_bind (keeps_gluePairs h2 _ fun x hx => ?_) fun _ s3 h3 => keeps_setRoots h3 _
  obtain ⟨y, hy, rfl⟩ := List.mem_map.1 hx
  obtain ⟨e, k, he, hk, _⟩ := gluingPairs_mem hs.1 hgs hy
  dsimp only
  rw [he, hk]
  exact ⟨Int.natCast_nonneg e, Int.natCast_nonneg k⟩

theorem keeps_joinPolygons [LabelNum L] {s : MSurf L (Poly K)} (hs : Good s) (p1 : L) (e1 : ℕ) :
    Keeps (joinPolygons p1 e1) s := by
  unfold joinPolygons
  refine keeps_get (keeps_liftE hs fun poly1 _ => keeps_liftE hs fun c _ => ?_)
  refine keeps_liftE hs fun poly2 _ => keeps_guard hs fun _ => keeps_liftE hs fun t _ => ?_
  refine keeps_liftE hs fun np _ => keeps_liftE hs fun gl hgl => keeps_liftE hs fun rs _ => ?_
  have rest : ∀ s', Good s' → Keeps (do
      removePolygon c.1
      removePolygon p1
      let _ ← addPolygon np (some p1)
      glueAll p1 0 gl : Act L (Poly K) Unit) s' := by
    intro s' h'
    refine keeps_bind (keeps_removePolygon h' _) fun _ s1 h1 => ?_
    refine keeps_bind (keeps_removePolygon h1 _) fun _ s2 h2 => ?_
    refine keeps_bind (keeps_addPolygon h2 _ _) fun _ s3 h3 => ?_
    refine keeps_glueAll h3 _ _ _ fun d hd => ?_
    obtain ⟨x, _, hfx⟩ := mapM_ok_mem hgl hd
    simp only [bind, Except.bind] at hfx
    cases hc' : s.oppositeEdge! x.1 x.2 with
    | error e => rw [hc'] at hfx; cases hfx
    | ok d' =>
      rw [hc'] at hfx
      dsimp only at hfx
      split_ifs at hfx
      · unfold invEdgeMap at hfx
        split at hfx
        · cases hfx
        · injection hfx with hfx
          rw [← hfx]
          exact Int.natCast_nonneg _
      · injection hfx with hfx
        rw [← hfx]
        exact oppositeEdge_nonneg hs.1 (oppositeEdge!_ok.1 hc')
  exact keeps_ite (fun _ => keeps_bind (keeps_setRoots hs _) fun _ s' h' => rest s' h') fun _ => rest s hs

theorem keeps_glueOptions {s : MSurf L (Poly K)} (hs : Good s) (l : L) (e : ℕ)
    (cs : List (Option (L × Int))) (h : ∀ c, some c ∈ cs → 0 ≤ c.2) : Keeps (glueOptions l e cs) s := by
  induction cs generalizing s e with
  | nil => exact keeps_pure hs
  | cons c cs ih =>
    cases c with
    | none => exact keeps_throw hs
    | some c =>
      exact keeps_bind (keeps_glue hs (l, e) c (Int.natCast_nonneg e) (h c (by simp))) fun _ s' h' =>
        ih h' (e + 1) fun d hd => h d (by simp [hd])

theorem subdivideOldToNew_nonneg (p newLabel : L) (ne v1 v2 : ℕ) (c : L × Int) (hc : 0 ≤ c.2) :
    0 ≤ (subdivideOldToNew p newLabel ne v1 v2 c).2 := by
  unfold subdivideOldToNew
  split_ifs
  · split
    · dsimp only; omega
    · split
      · dsimp only; omega
      · exact hc
  · exact hc

theorem keeps_subdividePolygon [LabelNum L] {s : MSurf L (Poly K)} (hs : Good s) (p : L) (v1 v2 : ℕ)
    (nl : Option L) : Keeps (subdividePolygon p v1 v2 nl) s := by
  unfold subdividePolygon
  refine keeps_get (keeps_liftE hs fun poly _ => keeps_guard hs fun _ => keeps_guard hs fun _ => ?_)
  refine keeps_liftE hs fun np1 _ => keeps_liftE hs fun np2 _ => ?_
  refine keeps_liftE hs fun o1 ho1 => keeps_liftE hs fun o2 ho2 => ?_
  refine keeps_bind (keeps_removePolygon hs _) fun _ s1 h1 => ?_
  refine keeps_bind (keeps_addPolygon h1 _ _) fun _ s2 h2 => ?_
  refine keeps_bind (keeps_addPolygon h2 _ _) fun newLabel s3 h3 => ?_
  refine keeps_bind (keeps_glue h3 (p, 0) (newLabel, 0) le_rfl le_rfl) fun _ s4 h4 => ?_
  have nn : ∀ (w n : ℕ) (o : List (Option (L × Int))),
      (List.range n).mapM (fun i => s.oppositeEdge p (((w + i) % nv poly : ℕ) : Int)) = .ok o →
      ∀ (v1 v2 : ℕ) c, some c ∈ o.map (fun c => c.map (subdivideOldToNew p newLabel (nv poly) v1 v2)) →
        0 ≤ c.2 := by
    intro w n o ho v1 v2 c hc
    obtain ⟨d, hd, hdc⟩ := List.mem_map.1 hc
    rw [Option.map_eq_some_iff] at hdc
    obtain ⟨d, rfl, rfl⟩ := hdc
    obtain ⟨i, _, hi⟩ := mapM_ok_mem ho hd
    exact subdivideOldToNew_nonneg _ _ _ _ _ _ (oppositeEdge_nonneg hs.1 hi)
  refine keeps_bind (keeps_glueOptions h4 _ _ _ (nn _ _ _ ho1 _ _)) fun _ s5 h5 => ?_
  exact keeps_glueOptions h5 _ _ _ (nn _ _ _ ho2 _ _)

theorem keeps_refinePolygon [LabelNum L] {s : MSurf L (Poly K)} (hs : Good s) (l : L)
    (t : MSurf L (Poly K)) (ht : GInv t) (gl : List (ℕ × (L × Int))) (hgl : ∀ x ∈ gl, 0 ≤ x.2.2) :
    Keeps (refinePolygon l t gl) s := by
  unfold refinePolygon
  refine keeps_get (keeps_liftE hs fun old _ => keeps_liftE hs fun og hog => ?_)
  refine keeps_bind (keeps_removePolygon hs _) fun _ s1 h1 => ?_
  refine keeps_liftE h1 fun ls _ => keeps_liftE h1 fun ps _ => ?_
  refine keeps_bind (keeps_addAll h1 ps) fun _ s2 h2 => ?_
  refine keeps_liftE h2 fun gs hgs => ?_
  refine keeps_bind (keeps_gluePairs h2 gs fun x hx => ?_) fun _ s3 h3 => ?_
  · obtain ⟨e, k, he, hk, _⟩ := gluingPairs_mem ht hgs hx
    rw [he, hk]
    exact ⟨Int.natCast_nonneg e, Int.natCast_nonneg k⟩
  have : ∀ (xs : List (ℕ × (L × Int))) (s' : MSurf L (Poly K)), (∀ x ∈ xs, 0 ≤ x.2.2) → Good s' →
      Keeps (refinePolygon.loop l gl og xs) s' := by
    intro xs
    induction xs with
    | nil => intro s' _ h'; exact keeps_pure h'
    | cons x xs ih =>
      intro s' hx h'
      unfold refinePolygon.loop
      have ho := hx x (by simp)
      split
      · exact keeps_throw h'
      · exact keeps_throw h'
      · rename_i c hc
        have hcn : 0 ≤ c.2 := by
          have hm := List.mem_of_getElem? hc
          obtain ⟨i, _, hi⟩ := mapM_ok_mem hog hm
          exact oppositeEdge_nonneg hs.1 hi
        refine keeps_ite (fun _ => ?_) (fun _ => ?_)
        · split
          · exact keeps_throw_bind h'
          · rename_i y hy
            refine keeps_bind (keeps_glue h' _ _ (hgl y (List.mem_of_find?_eq_some hy)) ho)
              fun _ s'' h'' => ih s'' (fun z hz => hx z (by simp [hz])) h''
        · exact keeps_bind (keeps_glue h' _ _ hcn ho)
            fun _ s'' h'' => ih s'' (fun z hz => hx z (by simp [hz])) h''
  exact this gl s3 hgl h3

theorem keeps_glueToNew {s : MSurf L (Poly K)} (hs : Good s) (l0 : L) (d0 : ℕ) (l1 : L) (d1 : ℕ)
    (x : L × Int) (hx : 0 ≤ x.2) (c : Option (L × Int)) (hc : ∀ d, c = some d → 0 ≤ d.2) :
    Keeps (glueToNew l0 d0 l1 d1 x c) s := by
  unfold glueToNew
  cases c with
  | none => exact keeps_throw hs
  | some c =>
    refine keeps_liftE hs fun y hy => keeps_glue hs _ _ hx ?_
    have := hc c rfl
    unfold flipToNew at hy
    split_ifs at hy <;> first | (cases hy; done) | (injection hy with hy; rw [← hy]; first | exact this | exact Int.natCast_nonneg _)

theorem keeps_triangleFlip {s : MSurf L (Poly K)} (hs : Good s) (l0 : L) (d0 : ℕ) :
    Keeps (triangleFlip l0 d0) s := by
  unfold triangleFlip
  refine keeps_get (keeps_liftE hs fun c hc => keeps_liftE hs fun P0 _ => keeps_liftE hs fun P1 _ => ?_)
  refine keeps_guard hs fun _ => keeps_liftE hs fun conv _ => keeps_guard hs fun _ => ?_
  refine keeps_liftE hs fun T _ => keeps_liftE hs fun P1' _ => ?_
  refine keeps_liftE hs fun g0 hg0 => keeps_liftE hs fun g1 hg1 => ?_
  refine keeps_guard hs fun _ => keeps_guard hs fun _ => ?_
  refine keeps_liftE hs fun Q0 _ => keeps_liftE hs fun Q1 _ => ?_
  refine keeps_bind (keeps_replacePolygon hs _ _) fun _ s1 h1 => ?_
  refine keeps_bind (keeps_replacePolygon h1 _ _) fun _ s2 h2 => ?_
  refine keeps_bind (keeps_glue h2 _ _ (Int.natCast_nonneg _) (Int.natCast_nonneg _)) fun _ s3 h3 => ?_
  have nn : ∀ (l : L) (d k : ℕ) (g : List (Option (L × Int))),
      (List.range 3).mapM (fun i => s.oppositeEdge l (((d + i) % 3 : ℕ) : Int)) = .ok g →
      ∀ c, (g[k]?).join = some c → 0 ≤ c.2 := by
    intro l d k g hg c hc
    have hm := List.mem_of_getElem? (Option.join_eq_some_iff.1 hc)
    obtain ⟨i, _, hi⟩ := mapM_ok_mem hg hm
    exact oppositeEdge_nonneg hs.1 hi
  refine keeps_bind (keeps_glueToNew h3 _ _ _ _ _ (Int.natCast_nonneg _) _ (nn _ _ _ _ hg0)) fun _ s4 h4 => ?_
  refine keeps_bind (keeps_glueToNew h4 _ _ _ _ _ (Int.natCast_nonneg _) _ (nn _ _ _ _ hg1)) fun _ s5 h5 => ?_
  refine keeps_bind (keeps_glueToNew h5 _ _ _ _ _ (Int.natCast_nonneg _) _ (nn _ _ _ _ hg1)) fun _ s6 h6 => ?_
  exact keeps_glueToNew h6 _ _ _ _ _ (Int.natCast_nonneg _) _ (nn _ _ _ _ hg0)

end
end MSurf
end Flat
