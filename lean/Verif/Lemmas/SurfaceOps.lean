import Verif.Lemmas.Gluing
import Batteries.Data.List.Perm

/-!
# Effect of the remaining primitive operations on the tables
-/

namespace Flat
namespace MSurf

variable {L P : Type} [LinearOrder L] [NumVertices P]

/-! ### Removing polygons -/

/-- Invariant of the loop in `_unglue_polygon` after the edges in `D` have been processed. -/
structure LoopInv (s : MSurf L P) (l : L) (D : List ℕ) (s' : MSurf L P) : Prop extends
    SameTables s s' where
  roots : s'.roots = s.roots
  other : ∀ l' (e' : ℕ), l' ≠ l → s'.opp l' e' =
    if ∃ d ∈ D, s.opp l d = some (l', (e' : Int)) then none else s.opp l' e'
  own : ∀ e' : ℕ, s'.opp l e' = s.opp l e' ∨ (s'.opp l e' = none ∧ ∃ d, s.opp l e' = some (l, d))

open Classical in
theorem unglueLoop_spec {s : MSurf L P} (h : GInv s) (l : L) (es : List ℕ)
    (hes : ∀ e ∈ es, s.IsEdge l e) (D : List ℕ) (s' : MSurf L P) (hs' : LoopInv s l D s') :
    wp (unglueLoop l es) (fun _ => LoopInv s l (D ++ es)) (fun _ _ => False) s' := by
  induction es generalizing D s' with
  | nil => simpa [unglueLoop, wp_pure] using hs'
  | cons e es ih =>
    have he : s.IsEdge l e := hes e (by simp)
    have he' : s'.IsEdge l e := hs'.toSameTables.isEdge.2 he
    unfold unglueLoop
    rw [wp_bind, wp_get, wp_bind, wp_liftE, oppositeEdge_eq_opp hs'.shape he']
    refine ⟨fun c hc => ?_, fun e he => by cases he⟩
    injection hc with hc
    have key : ∀ s'', LoopInv s l (D ++ [e]) s'' →
        wp (unglueLoop l es) (fun _ => LoopInv s l (D ++ e :: es)) (fun _ _ => False) s'' := by
      intro s'' h''
      have := ih (fun e he => hes e (List.mem_cons_of_mem _ he)) (D ++ [e]) s'' h''
      simpa using this
    cases c with
    | none =>
      apply key
      refine ⟨hs'.toSameTables, hs'.roots, fun l' e' hl => ?_, hs'.own⟩
      rw [hs'.other l' e' hl]
      have hno : ¬ s.opp l e = some (l', (e' : Int)) := by
        intro hh
        rcases hs'.own e with h1 | ⟨_, d, h2⟩
        · rw [h1, hh] at hc; cases hc
        · rw [hh] at h2
          simp only [Option.some.injEq, Prod.mk.injEq] at h2
          exact hl h2.1
      simp [or_and_right, exists_or, hno]
    | some c =>
      have hce : s.opp l e = some c := by
        rcases hs'.own e with h1 | ⟨h1, _⟩
        · rw [← h1, hc]
        · rw [h1] at hc; cases hc
      obtain ⟨c1, c2⟩ := c
      obtain ⟨k, rfl, hk⟩ := h.inv _ _ _ _ hce
      have hek : s'.IsEdge c1 k := hs'.toSameTables.isEdge.2 (opp_isEdge h.toShape hk)
      dsimp only
      rw [wp_bind, wp_setGluing hs'.shape hek]
      apply key
      have hop := opp_upd hs'.shape hek none
      refine ⟨⟨hs'.polygons, hs'.mutable, hs'.nextLabel, shape_upd hs'.shape hek none⟩, hs'.roots,
        fun l' e' hl => ?_, fun e' => ?_⟩
      · rw [hop, hs'.other l' e' hl]
        by_cases h1 : l' = c1 ∧ e' = k
        · obtain ⟨rfl, rfl⟩ := h1
          rw [if_pos ⟨rfl, rfl⟩, if_pos]
          exact ⟨e, by simp, hce⟩
        · have hno : ¬ s.opp l e = some (l', (e' : Int)) := by
            rw [hce]
            simp only [Option.some.injEq, Prod.mk.injEq, Int.natCast_inj]
            exact fun hh => h1 ⟨hh.1.symm, hh.2.symm⟩
          rw [if_neg h1]
          simp [or_and_right, exists_or, hno]
      · rw [hop]
        by_cases h1 : l = c1 ∧ e' = k
        · obtain ⟨rfl, rfl⟩ := h1
          right
          exact ⟨by simp, e, hk⟩
        · rw [if_neg h1]
          exact hs'.own e'

/-- `s'` is `s` with all edges of polygon `l` unglued. -/
structure UnglueAllSpec (s : MSurf L P) (l : L) (s' : MSurf L P) : Prop extends SameTables s s' where
  roots : s'.roots = s.roots
  own : ∀ e, s'.opp l e = none
  other : ∀ l' (e' : ℕ), l' ≠ l →
    ((∃ d, s.opp l' e' = some (l, d)) → s'.opp l' e' = none) ∧
    ((¬ ∃ d, s.opp l' e' = some (l, d)) → s'.opp l' e' = s.opp l' e')

theorem opp_replicate (s : MSurf L P) (l : L) (n : ℕ) (l' : L) (e' : ℕ) :
    ({ s with gluings := s.gluings.set l (List.replicate n none) } : MSurf L P).opp l' e' =
      if l' = l then none else s.opp l' e' := by
  unfold opp
  simp only [Dict.get_set]
  by_cases hl : l' = l
  · simp only [hl, if_true]
    by_cases hlt : e' < n <;> simp [hlt]
  · simp only [hl, if_false]

theorem ungluePolygon_spec {s : MSurf L P} (h : GInv s) (l : L) :
    wp (ungluePolygon l) (fun _ s' => l ∈ s.polygons.keys ∧ UnglueAllSpec s l s')
      (fun e s' => e = .keyError ∧ l ∉ s.polygons.keys ∧ s' = s) s := by
  classical
  unfold ungluePolygon
  rw [wp_bind, wp_get]
  have hl := h.len l
  cases hg : s.gluings.get l with
  | none =>
    rw [wp_throw]
    refine ⟨rfl, ?_, rfl⟩
    rw [← Dict.get_eq_none_iff]
    cases hp : s.polygons.get l with
    | none => rfl
    | some p => simp [hg, hp] at hl
  | some g =>
    dsimp only
    cases hp : s.polygons.get l with
    | none => simp [hg, hp] at hl
    | some p =>
      simp only [hg, hp, Option.map_some, Option.some.injEq] at hl
      have hmem : l ∈ s.polygons.keys := (Dict.mem_keys_iff _ _).2 (by simp [hp])
      have hes : ∀ e ∈ List.range g.length, s.IsEdge l e := by
        intro e he
        exact (isEdge_iff h.toShape).2 ⟨g, hg, by simpa using he⟩
      have h0 : LoopInv s l [] s :=
        ⟨SameTables.refl h.toShape, rfl, fun l' e' _ => by simp, fun e' => Or.inl rfl⟩
      rw [wp_bind]
      refine wp_mono (unglueLoop_spec h l _ hes [] s h0) ?_ (fun _ _ hf => hf.elim)
      intro _ s1 h1
      rw [List.nil_append] at h1
      rw [wp_bind, wp_get, wp_bind, wp_liftE]
      have hp1 : s1.polygon l = .ok p := by simp [polygon, h1.polygons, hp]
      rw [hp1]
      refine ⟨fun p' hp' => ?_, fun e he => by cases he⟩
      injection hp' with hp'
      subst hp'
      rw [wp_set]
      have hopp := opp_replicate s1 l (nv p)
      refine ⟨hmem, ⟨h1.polygons, h1.mutable, h1.nextLabel, ?_⟩, h1.roots, ?_, ?_⟩
      · refine ⟨h1.shape.nodupP, Dict.keys_set_nodup _ h1.shape.nodupG _ _, fun l' => ?_⟩
        simp only [Dict.get_set, h1.polygons]
        by_cases hll : l' = l
        · subst hll; simp [hp]
        · rw [if_neg hll, h1.shape.len l', h1.polygons]
      · intro e; rw [hopp]; simp
      · intro l' e' hll
        rw [hopp, if_neg hll, h1.other l' e' hll]
        constructor
        · rintro ⟨d, hd⟩
          obtain ⟨k, rfl, hk⟩ := h.inv _ _ _ _ hd
          rw [if_pos]
          refine ⟨k, ?_, hk⟩
          obtain ⟨g', hg', hlt⟩ := (isEdge_iff h.toShape).1 (opp_isEdge h.toShape hk)
          rw [hg] at hg'
          injection hg' with hg'
          subst hg'
          simpa using hlt
        · intro hno
          rw [if_neg]
          rintro ⟨d, _, hd⟩
          obtain ⟨k, hk, hkk⟩ := h.inv _ _ _ _ hd
          simp only [Int.natCast_inj] at hk
          subst hk
          exact hno ⟨_, hkk⟩

theorem UnglueAllSpec.ginv {s s' : MSurf L P} (h : GInv s) {l : L} (hs : UnglueAllSpec s l s') :
    GInv s' := by
  refine ⟨hs.shape, fun l1 e1 l2 e2 h1 => ?_⟩
  have hl1 : l1 ≠ l := by
    rintro rfl
    rw [hs.own] at h1; cases h1
  have hno : ¬ ∃ d, s.opp l1 e1 = some (l, d) := by
    intro hh
    rw [(hs.other l1 e1 hl1).1 hh] at h1; cases h1
  rw [(hs.other l1 e1 hl1).2 hno] at h1
  obtain ⟨k, rfl, hk⟩ := h.inv _ _ _ _ h1
  have hl2 : l2 ≠ l := by
    rintro rfl
    exact hno ⟨_, h1⟩
  refine ⟨k, rfl, ?_⟩
  rw [(hs.other l2 k hl2).2, hk]
  rintro ⟨d, hd⟩
  rw [hk] at hd
  simp only [Option.some.injEq, Prod.mk.injEq] at hd
  exact hl1 hd.1

/-- `s'` is `s` with polygon `l` removed. -/
structure RemoveSpec (s : MSurf L P) (l : L) (s' : MSurf L P) : Prop where
  polygons : s'.polygons = s.polygons.erase l
  mutable : s'.mutable = s.mutable
  nextLabel : s'.nextLabel = s.nextLabel
  roots : s'.roots = s.roots.filter (fun r => r ≠ l)
  shape : Shape s'
  own : ∀ e, s'.opp l e = none
  other : ∀ l' (e' : ℕ), l' ≠ l →
    ((∃ d, s.opp l' e' = some (l, d)) → s'.opp l' e' = none) ∧
    ((¬ ∃ d, s.opp l' e' = some (l, d)) → s'.opp l' e' = s.opp l' e')

theorem opp_erase (s : MSurf L P) (h : s.gluings.keys.Nodup) (l l' : L) (e' : ℕ) :
    ({ s with gluings := s.gluings.erase l } : MSurf L P).opp l' e' =
      if l' = l then none else s.opp l' e' := by
  unfold opp
  simp only [Dict.get_erase _ h]
  by_cases hl : l' = l <;> simp [hl]

theorem removePolygon_spec {s : MSurf L P} (h : GInv s) (hm : s.mutable = true) (l : L) :
    wp (removePolygon l) (fun _ s' => l ∈ s.polygons.keys ∧ RemoveSpec s l s')
      (fun e s' => e = .keyError ∧ l ∉ s.polygons.keys ∧ s' = s) s := by
  unfold removePolygon
  rw [wp_bind]
  refine wp_mono (ungluePolygon_spec h l) ?_ (fun _ _ he => he)
  rintro _ s1 ⟨hl, h1⟩
  rw [wp_bind, wp_get, wp_bind, wp_set]
  unfold removePolygonBase
  rw [wp_bind, wp_checkMutable]
  refine ⟨fun _ => ?_, fun hm' => ?_⟩
  swap
  · dsimp only at hm'
    rw [h1.mutable, hm] at hm'
    cases hm'
  rw [wp_bind, wp_get]
  dsimp only
  rw [wp_ite]
  refine ⟨fun hl' => absurd hl (by rwa [← h1.polygons]), fun _ => ?_⟩
  rw [wp_set]
  have hopp := opp_erase s1 h1.shape.nodupG l
  refine ⟨hl, by rw [h1.polygons], h1.mutable, h1.nextLabel, by rw [h1.roots], ?_, ?_, ?_⟩
  · refine ⟨Dict.keys_erase_nodup _ h1.shape.nodupP _, Dict.keys_erase_nodup _ h1.shape.nodupG _,
      fun l' => ?_⟩
    dsimp only
    rw [Dict.get_erase _ h1.shape.nodupG, Dict.get_erase _ h1.shape.nodupP]
    by_cases hll : l' = l
    · simp [hll]
    · rw [if_neg hll, if_neg hll, h1.shape.len]
  · intro e
    exact (hopp l e).trans (by simp)
  · intro l' e' hll
    have e0 := (hopp l' e').trans (by rw [if_neg hll])
    have := h1.other l' e' hll
    rw [← e0] at this
    exact this

theorem RemoveSpec.ginv {s s' : MSurf L P} (h : GInv s) {l : L} (hs : RemoveSpec s l s') :
    GInv s' := by
  refine ⟨hs.shape, fun l1 e1 l2 e2 h1 => ?_⟩
  have hl1 : l1 ≠ l := by
    rintro rfl
    rw [hs.own] at h1; cases h1
  have hno : ¬ ∃ d, s.opp l1 e1 = some (l, d) := by
    intro hh
    rw [(hs.other l1 e1 hl1).1 hh] at h1; cases h1
  rw [(hs.other l1 e1 hl1).2 hno] at h1
  obtain ⟨k, rfl, hk⟩ := h.inv _ _ _ _ h1
  have hl2 : l2 ≠ l := by
    rintro rfl
    exact hno ⟨_, h1⟩
  refine ⟨k, rfl, ?_⟩
  rw [(hs.other l2 k hl2).2, hk]
  rintro ⟨d, hd⟩
  rw [hk] at hd
  simp only [Option.some.injEq, Prod.mk.injEq] at hd
  exact hl1 hd.1

/-! ### Adding polygons -/

variable [LabelNum L]

/-- `s'` is `s` with a new polygon, without gluings. -/
structure AddSpec (s : MSurf L P) (p : P) (l : L) (s' : MSurf L P) : Prop where
  fresh : l ∉ s.polygons.keys
  polygons : s'.polygons = s.polygons.set l p
  mutable : s'.mutable = s.mutable
  shape : Shape s'
  roots : s'.roots = if s.roots = [] then [] else s.roots ++ [l]
  opp : ∀ l' e', s'.opp l' e' = s.opp l' e'

theorem freshFrom_spec (d : Dict L P) (f n : ℕ) :
    ∃ k, freshFrom d f n = n + k ∧ k ≤ f ∧ (∀ i < k, (num (n + i) : L) ∈ d.keys) ∧
      ((num (n + k) : L) ∉ d.keys ∨ k = f) := by
  induction f generalizing n with
  | zero => exact ⟨0, rfl, le_rfl, fun i hi => absurd hi (Nat.not_lt_zero _), Or.inr rfl⟩
  | succ f ih =>
    unfold freshFrom
    split_ifs with h
    · obtain ⟨k, hk, hkf, hlt, hnot⟩ := ih (n + 1)
      refine ⟨k + 1, by omega, by omega, fun i hi => ?_, ?_⟩
      · cases i with
        | zero => exact h
        | succ i =>
          have := hlt i (by omega)
          rwa [show n + (i + 1) = n + 1 + i by omega]
      · rw [show n + (k + 1) = n + 1 + k by omega]
        rcases hnot with h' | h'
        · exact Or.inl h'
        · exact Or.inr (by omega)
    · exact ⟨0, rfl, Nat.zero_le _, fun i hi => absurd hi (Nat.not_lt_zero _), Or.inl h⟩

theorem freshFrom_fresh (d : Dict L P) (n : ℕ) :
    (num (freshFrom d (d.length + 1) n) : L) ∉ d.keys := by
  obtain ⟨k, hk, hkf, hlt, hnot⟩ := freshFrom_spec d (d.length + 1) n
  rw [hk]
  rcases hnot with h | h
  · exact h
  · exfalso
    subst h
    have hsub : (List.range (d.length + 1)).map (fun i => (num (n + i) : L)) ⊆ d.keys := by
      intro x hx
      obtain ⟨i, hi, rfl⟩ := List.mem_map.1 hx
      exact hlt i (by simpa using hi)
    have hnd : ((List.range (d.length + 1)).map (fun i => (num (n + i) : L))).Nodup := by
      refine List.Nodup.map (fun a b hab => ?_) List.nodup_range
      have := LabelNum.num_inj hab
      omega
    have := (List.subperm_of_subset hnd hsub).length_le
    simp [Dict.keys] at this
    omega

theorem addPolygon_spec {s : MSurf L P} (h : Shape s) (p : P) (label : Option L) :
    wp (addPolygon p label)
      (fun l s' => s.mutable = true ∧ (∀ l', label = some l' → l = l') ∧ AddSpec s p l s')
      (fun e s' => s' = s ∧ ((e = .immutable ∧ s.mutable = false) ∨
        (e = .valueError ∧ ∃ l, label = some l ∧ l ∈ s.polygons.keys))) s := by
  have hkeys : ∀ l, l ∈ s.gluings.keys ↔ l ∈ s.polygons.keys := by
    intro l
    rw [Dict.mem_keys_iff, Dict.mem_keys_iff]
    have := h.len l
    cases hg : s.gluings.get l <;> cases hp : s.polygons.get l <;> simp_all
  -- adding a fresh label succeeds
  have run : ∀ (l : L) (n : ℕ), l ∉ s.polygons.keys → s.mutable = true →
      (∀ l', label = some l' → l = l') →
      wp (insertPolygon p l >>= insertGluings p : Act L P L)
        (fun l s' => s.mutable = true ∧ (∀ l', label = some l' → l = l') ∧ AddSpec s p l s')
        (fun e s' => s' = s ∧ ((e = .immutable ∧ s.mutable = false) ∨
          (e = .valueError ∧ ∃ l, label = some l ∧ l ∈ s.polygons.keys)))
        { s with nextLabel := n } := by
    intro l n hl hm hlab
    have hl' : l ∉ s.gluings.keys := by rwa [hkeys]
    unfold insertPolygon insertGluings
    rw [wp_bind, wp_bind, wp_get]
    dsimp only
    rw [if_neg hl, wp_bind, wp_set, wp_pure, wp_bind, wp_get]
    dsimp only
    rw [if_neg hl', wp_bind, wp_set, wp_pure]
    refine ⟨hm, hlab, hl, rfl, rfl, ?_, ?_, ?_⟩
    · refine ⟨Dict.keys_set_nodup _ h.nodupP _ _, Dict.keys_set_nodup _ h.nodupG _ _, fun l' => ?_⟩
      simp only [Dict.get_set]
      by_cases hll : l' = l
      · simp [hll]
      · simp only [hll, if_false]; exact h.len l'
    · dsimp only
      by_cases hr : s.roots = [] <;> simp [hr]
    · intro l' e'
      refine (opp_replicate s l (nv p) l' e').trans ?_
      by_cases hll : l' = l
      · subst hll
        have : s.gluings.get l' = none := by
          rw [Dict.get_eq_none_iff, hkeys]; exact hl
        simp [opp, this]
      · rw [if_neg hll]
  unfold addPolygon addPolygonBase
  simp only [bind_assoc]
  rw [wp_bind, wp_checkMutable]
  refine ⟨fun hm => ?_, fun hm => ⟨rfl, Or.inl ⟨rfl, hm⟩⟩⟩
  rw [wp_bind]
  cases label with
  | some l =>
    unfold pickLabel
    dsimp only
    rw [wp_pure]
    by_cases hl : l ∈ s.polygons.keys
    · unfold insertPolygon
      rw [wp_bind, wp_bind, wp_get, if_pos hl, wp_throw]
      exact ⟨rfl, Or.inr ⟨rfl, l, rfl, hl⟩⟩
    · exact run l s.nextLabel hl hm (fun l' hl' => by simpa using hl')
  | none =>
    unfold pickLabel
    dsimp only
    rw [wp_bind, wp_get, wp_bind, wp_set, wp_pure]
    exact run _ _ (freshFrom_fresh s.polygons s.nextLabel) hm (fun l' hl' => by cases hl')

theorem AddSpec.ginv {s s' : MSurf L P} (h : GInv s) {p : P} {l : L} (hs : AddSpec s p l s') :
    GInv s' := by
  refine ⟨hs.shape, fun l1 e1 l2 e2 h1 => ?_⟩
  rw [hs.opp] at h1
  obtain ⟨k, hk, hkk⟩ := h.inv _ _ _ _ h1
  exact ⟨k, hk, by rw [hs.opp]; exact hkk⟩

/-! ### Preservation of the invariant -/

omit [LabelNum L] in
theorem removePolygon_ginv {s : MSurf L P} (h : GInv s) (hm : s.mutable = true) (l : L) :
    wp (removePolygon l) (fun _ s' => GInv s' ∧ s'.mutable = true)
      (fun _ s' => GInv s' ∧ s'.mutable = true) s := by
  refine wp_mono (removePolygon_spec h hm l) ?_ ?_
  · rintro _ s' ⟨_, hs⟩; exact ⟨hs.ginv h, hs.mutable.trans hm⟩
  · rintro _ s' ⟨_, _, rfl⟩; exact ⟨h, hm⟩

theorem addPolygon_ginv {s : MSurf L P} (h : GInv s) (p : P) (label : Option L) :
    wp (addPolygon p label) (fun _ s' => GInv s' ∧ s'.mutable = s.mutable)
      (fun _ s' => GInv s' ∧ s'.mutable = s.mutable) s := by
  refine wp_mono (addPolygon_spec h.toShape p label) ?_ ?_
  · rintro _ s' ⟨_, _, hs⟩; exact ⟨hs.ginv h, hs.mutable⟩
  · rintro _ s' ⟨rfl, _⟩; exact ⟨h, rfl⟩

omit [LabelNum L] in
theorem replacePolygon_ginv {s : MSurf L P} (h : GInv s) (l : L) (p : P) :
    wp (replacePolygon l p) (fun _ s' => GInv s' ∧ s'.mutable = s.mutable)
      (fun _ s' => GInv s' ∧ s'.mutable = s.mutable) s := by
  unfold replacePolygon
  rw [wp_bind, wp_get, wp_bind, wp_liftE]
  refine ⟨fun old hold => ?_, fun _ _ => ⟨h, rfl⟩⟩
  rw [wp_ite, wp_throw, wp_set]
  refine ⟨fun _ => ⟨h, rfl⟩, fun hnv => ⟨⟨⟨?_, h.nodupG, fun l' => ?_⟩, h.inv⟩, rfl⟩⟩
  · exact Dict.keys_set_nodup _ h.nodupP _ _
  · rw [not_not] at hnv
    simp only [Dict.get_set]
    rw [h.len l']
    by_cases hl : l' = l
    · subst hl
      have : s.polygons.get l' = some old := by
        unfold polygon at hold
        cases hg : s.polygons.get l' with
        | none => simp [hg] at hold
        | some q => simp [hg] at hold; simp [hold]
      simp [this, hnv]
    · simp [hl]

omit [LabelNum L] in
/-- Actions that only change the roots (or nothing) keep the gluing invariant. -/
theorem setRoots_frame (rs : List L) (s : MSurf L P) :
    wp (setRoots rs) (fun _ s' => s' = { s with roots := rs } ∧ s.mutable = true) (fun _ s' => s' = s)
      s := by
  unfold setRoots
  rw [wp_bind, wp_checkMutable]
  refine ⟨fun hm => ?_, fun _ => rfl⟩
  rw [wp_bind, wp_get]
  have tail : wp (do
      let cs ← liftE s.components
      if cs.any (fun c => (rs.filter (fun r => r ∈ c)).length > 1) then throw Err.valueError
      set { s with roots := rs } : Act L P Unit)
      (fun _ s' => s' = { s with roots := rs } ∧ s.mutable = true) (fun _ s' => s' = s) s := by
    rw [wp_bind, wp_liftE]
    refine ⟨fun cs _ => ?_, fun _ _ => rfl⟩
    rw [wp_ite]
    refine ⟨fun _ => by rw [wp_bind, wp_throw], fun _ => ?_⟩
    rw [wp_set]
    exact ⟨rfl, hm⟩
  rw [wp_ite]
  refine ⟨fun _ => ?_, fun _ => tail⟩
  rw [wp_bind, wp_liftE]
  refine ⟨fun ls _ => ?_, fun _ _ => rfl⟩
  rw [wp_ite]
  refine ⟨fun _ => by rw [wp_bind, wp_throw], fun _ => ?_⟩
  rw [wp_ite]
  exact ⟨fun _ => by rw [wp_bind, wp_throw], fun _ => tail⟩

omit [LabelNum L] in
theorem setRoot_frame (r : L) (s : MSurf L P) :
    wp (setRoot r) (fun _ s' => (∃ rs, s' = { s with roots := rs }) ∧ s.mutable = true)
      (fun _ s' => s' = s) s := by
  unfold setRoot
  rw [wp_bind, wp_checkMutable]
  refine ⟨fun hm => ?_, fun _ => rfl⟩
  rw [wp_bind, wp_get, wp_bind, wp_liftE]
  refine ⟨fun ls _ => ?_, fun _ _ => rfl⟩
  rw [wp_ite]
  refine ⟨fun _ => by rw [wp_bind, wp_throw], fun _ => ?_⟩
  rw [wp_ite]
  refine ⟨fun _ => by rw [wp_bind, wp_throw], fun _ => ?_⟩
  rw [wp_bind, wp_liftE]
  refine ⟨fun cs _ => ?_, fun _ _ => rfl⟩
  dsimp only
  split
  · rw [wp_set]; exact ⟨⟨_, rfl⟩, hm⟩
  · rw [wp_throw]

omit [LabelNum L] in
theorem setImmutable_frame (s : MSurf L P) :
    wp setImmutable (fun _ s' => s' = { s with roots := s'.roots, mutable := false } ∧
        (s.mutable = false → s' = s))
      (fun _ s' => s' = s) s := by
  unfold setImmutable
  rw [wp_bind, wp_get, wp_ite]
  refine ⟨fun hm => ?_, fun hm => ?_⟩
  · rw [wp_bind, wp_liftE]
    refine ⟨fun rs _ => ?_, fun _ _ => rfl⟩
    rw [wp_bind]
    refine wp_mono (setRoots_frame rs s) ?_ (fun _ _ h => h)
    rintro _ s' ⟨rfl, _⟩
    rw [wp_bind, wp_get, wp_set]
    exact ⟨rfl, fun hm' => by rw [hm] at hm'; cases hm'⟩
  · rw [wp_pure]
    have hm' : s.mutable = false := by simpa using hm
    exact ⟨by rw [← hm'], fun _ => rfl⟩

omit [LabelNum L] in
theorem glue_ginv' {s : MSurf L P} (h : GInv s) (x y : L × Int) (hx : 0 ≤ x.2) (hy : 0 ≤ y.2) :
    wp (glue x y) (fun _ s' => GInv s' ∧ s'.mutable = s.mutable)
      (fun _ s' => GInv s' ∧ s'.mutable = s.mutable) s := by
  have e1 : x = ((x.1, x.2.toNat).1, (((x.1, x.2.toNat).2 : ℕ) : Int)) := by
    apply Prod.ext
    · rfl
    · exact (Int.toNat_of_nonneg hx).symm
  have e2 : y = ((y.1, y.2.toNat).1, (((y.1, y.2.toNat).2 : ℕ) : Int)) := by
    apply Prod.ext
    · rfl
    · exact (Int.toNat_of_nonneg hy).symm
  rw [e1, e2]
  refine wp_mono (glue_spec h (x.1, x.2.toNat) (y.1, y.2.toNat)) ?_ ?_
  · rintro _ s' ⟨_, _, _, hs⟩; exact ⟨hs.ginv h, hs.mutable⟩
  · rintro _ s' ⟨hs, ht, _⟩; exact ⟨hs, ht.mutable⟩

omit [LabelNum L] in
theorem unglue_ginv' {s : MSurf L P} (h : GInv s) (l : L) (e : Int) (he : 0 ≤ e) :
    wp (unglue l e) (fun _ s' => GInv s' ∧ s'.mutable = s.mutable)
      (fun _ s' => GInv s' ∧ s'.mutable = s.mutable) s := by
  rw [← Int.toNat_of_nonneg he]
  refine wp_mono (unglue_spec h l e.toNat) ?_ ?_
  · rintro _ s' ⟨_, _, hs⟩; exact ⟨hs.ginv h, hs.mutable⟩
  · rintro _ s' (rfl | ⟨_, _, hs⟩)
    · exact ⟨h, rfl⟩
    · exact ⟨hs.ginv h, hs.mutable⟩

omit [LabelNum L] in
theorem changePolygonGluings_ginv {s : MSurf L P} (h : GInv s) (l : L) (n : ℕ)
    (cs : List (Option (L × Int))) (hcs : ∀ c, some c ∈ cs → 0 ≤ c.2) :
    wp (changePolygonGluings l n cs) (fun _ s' => GInv s' ∧ s'.mutable = s.mutable)
      (fun _ s' => GInv s' ∧ s'.mutable = s.mutable) s := by
  induction cs generalizing n s with
  | nil => exact ⟨h, rfl⟩
  | cons c cs ih =>
    have hcs' : ∀ c, some c ∈ cs → 0 ≤ c.2 := fun c hc => hcs c (List.mem_cons_of_mem _ hc)
    cases c with
    | none =>
      unfold changePolygonGluings
      rw [wp_bind]
      refine wp_mono (unglue_ginv' h l n (Int.natCast_nonneg n)) ?_ (fun _ _ h => h)
      rintro _ s' ⟨h', hm⟩
      have := ih h' (n + 1) hcs'
      rw [hm] at this
      exact this
    | some c =>
      unfold changePolygonGluings
      rw [wp_bind]
      refine wp_mono (glue_ginv' h (l, n) c (Int.natCast_nonneg n) (hcs c (by simp))) ?_ (fun _ _ h => h)
      rintro _ s' ⟨h', hm⟩
      have := ih h' (n + 1) hcs'
      rw [hm] at this
      exact this

omit [LabelNum L] in
theorem glueAll_ginv {s : MSurf L P} (h : GInv s) (l : L) (n : ℕ)
    (cs : List (L × Int)) (hcs : ∀ c ∈ cs, 0 ≤ c.2) :
    wp (glueAll l n cs) (fun _ s' => GInv s' ∧ s'.mutable = s.mutable)
      (fun _ s' => GInv s' ∧ s'.mutable = s.mutable) s := by
  induction cs generalizing n s with
  | nil => exact ⟨h, rfl⟩
  | cons c cs ih =>
    have hcs' : ∀ c ∈ cs, 0 ≤ c.2 := fun c hc => hcs c (List.mem_cons_of_mem _ hc)
    unfold glueAll
    rw [wp_bind]
    refine wp_mono (glue_ginv' h (l, n) c (Int.natCast_nonneg n) (hcs c (by simp))) ?_ (fun _ _ h => h)
    rintro _ s' ⟨h', hm⟩
    have := ih h' (n + 1) hcs'
    rw [hm] at this
    exact this

omit [LabelNum L] in
theorem changePolygon_ginv {s : MSurf L P} (h : GInv s) (l : L) (p : P)
    (cs : List (L × Int)) (hcs : ∀ c ∈ cs, 0 ≤ c.2) :
    wp (changePolygon l p cs) (fun _ s' => GInv s' ∧ s'.mutable = s.mutable)
      (fun _ s' => GInv s' ∧ s'.mutable = s.mutable) s := by
  unfold changePolygon
  rw [wp_bind, wp_checkMutable]
  refine ⟨fun hm => ?_, fun _ => ⟨h, rfl⟩⟩
  rw [wp_bind, wp_get, wp_bind, wp_liftE]
  refine ⟨fun old hold => ?_, fun _ _ => ⟨h, rfl⟩⟩
  have hold' : s.polygons.get l = some old := by
    unfold polygon at hold
    cases hg : s.polygons.get l with
    | none => simp [hg] at hold
    | some q => simp [hg] at hold; simp [hold]
  rw [wp_ite]
  refine ⟨fun hne => ?_, fun heq => ?_⟩
  · rw [wp_bind]
    refine wp_mono (ungluePolygon_spec h l) ?_ ?_
    swap
    · rintro _ s' ⟨_, _, rfl⟩; exact ⟨h, rfl⟩
    · rintro _ s1 ⟨_, h1⟩
      have g1 := h1.ginv h
      rw [wp_bind, wp_get, wp_bind, wp_set, wp_bind, wp_get, wp_bind, wp_set]
      have hopp := opp_replicate s1 l (nv p)
      have hG : GInv (⟨s1.polygons.set l p, s1.gluings.set l (List.replicate (nv p) none), s1.roots,
          s1.mutable, s1.nextLabel⟩ : MSurf L P) := by
        refine ⟨⟨Dict.keys_set_nodup _ g1.nodupP _ _, Dict.keys_set_nodup _ g1.nodupG _ _, fun l' => ?_⟩,
          fun l1 e1 l2 e2 ho => ?_⟩
        · simp only [Dict.get_set]
          by_cases hll : l' = l
          · simp [hll]
          · simp only [hll, if_false]; exact g1.len l'
        · have ho' := (hopp l1 e1).symm.trans ho
          split_ifs at ho' with hl1
          obtain ⟨k, rfl, hk⟩ := g1.inv _ _ _ _ ho'
          refine ⟨k, rfl, (hopp l2 k).trans ?_⟩
          rw [if_neg, hk]
          rintro rfl
          rw [h1.own] at hk
          cases hk
      refine wp_mono (glueAll_ginv hG l 0 cs hcs) ?_ ?_
      · rintro _ s' ⟨h', hm'⟩; exact ⟨h', hm'.trans h1.mutable⟩
      · rintro _ s' ⟨h', hm'⟩; exact ⟨h', hm'.trans h1.mutable⟩
  · rw [not_not] at heq
    rw [wp_bind, wp_get, wp_bind, wp_set]
    have hG : GInv ({ s with polygons := s.polygons.set l p } : MSurf L P) := by
      refine ⟨⟨Dict.keys_set_nodup _ h.nodupP _ _, h.nodupG, fun l' => ?_⟩, h.inv⟩
      simp only [Dict.get_set]
      rw [h.len l']
      by_cases hl : l' = l
      · subst hl; simp [hold', heq]
      · simp [hl]
    refine wp_mono (glueAll_ginv hG l 0 cs hcs) (fun _ _ h => h) (fun _ _ h => h)

end MSurf
end Flat
