import Verif.Model.RamifiedCover
import Verif.Props.Copy
import Verif.Props.Categories

/-!
# C49: ramified covers
-/

namespace Flat
namespace RSurf
open MSurf
variable {L K : Type} [DecidableEq L] [Field K] [LinearOrder K] [IsStrictOrderedRing K] {d : ℕ}

/-- What `coverAdd` does. -/
structure Copies (S : RSurf L K) (xs : List (L × Fin d)) (s t : MSurf ℕ (Poly K)) (D : Dict (L × Fin d) ℕ) : Prop where
  good : Good t
  roots : s.roots = [] → t.roots = []
  opp : ∀ l e, t.opp l e = s.opp l e
  keys : Dict.keys D = xs
  nodup : (D.map Prod.snd).Nodup
  fresh : ∀ n ∈ D.map Prod.snd, n ∉ s.polygons.keys
  old : ∀ n, n ∈ s.polygons.keys → t.polygons.get n = s.polygons.get n
  new : ∀ x n, (x, n) ∈ D → ∃ p, S.polygon x.1 = .ok p ∧ t.polygons.get n = some p
  all : ∀ n, n ∈ t.polygons.keys ↔ n ∈ s.polygons.keys ∨ n ∈ D.map Prod.snd

theorem coverAdd_spec (S : RSurf L K) (xs : List (L × Fin d)) (hxs : ∀ x ∈ xs, ∃ p, S.polygon x.1 = .ok p) {s : MSurf ℕ (Poly K)} (hs : Good s) :
    wp (coverAdd S xs) (fun D t => Copies S xs s t D) (fun _ _ => False) s := by
  induction xs generalizing s with
  | nil =>
    exact ⟨hs, id, fun _ _ => rfl, rfl, by simp, by simp, fun _ _ => rfl, by simp, by simp⟩
  | cons x xs ih =>
    obtain ⟨p, hp⟩ := hxs x (by simp)
    unfold coverAdd
    rw [wp_bind, wp_liftE, hp]
    refine ⟨fun a ha => ?_, fun _ h' => by cases h'⟩
    cases ha
    rw [wp_bind]
    refine wp_mono (wp_and (addPolygon_spec hs.1.toShape p none) (keeps_addPolygon hs p none)) ?_ ?_
    · rintro n s1 ⟨⟨_, -, ha⟩, hg⟩
      rw [wp_bind]
      refine wp_mono (ih (fun y hy => hxs y (by simp [hy])) hg) ?_ (fun _ _ hh => hh)
      intro D t h
      have hmem : ∀ m, m ∈ s1.polygons.keys ↔ m = n ∨ m ∈ s.polygons.keys := by
        intro m
        rw [ha.polygons, Dict.mem_keys_set]
      refine ⟨h.good, fun h0 => h.roots (by rw [ha.roots, if_pos h0]), fun l e => by rw [h.opp, ha.opp], ?_, ?_, ?_, ?_, ?_, ?_⟩
      · have := h.keys
        simp only [Dict.keys, List.map_cons] at this ⊢
        rw [this]
      · rw [List.map_cons, List.nodup_cons]
        refine ⟨fun hn => h.fresh n hn ?_, h.nodup⟩
        rw [hmem]; exact .inl rfl
      · intro m hm
        rw [List.map_cons, List.mem_cons] at hm
        rcases hm with rfl | hm
        · exact ha.fresh
        · intro hk
          exact h.fresh m hm ((hmem m).2 (.inr hk))
      · intro m hm
        rw [h.old m ((hmem m).2 (.inr hm)), ha.polygons, Dict.get_set, if_neg]
        rintro rfl
        exact ha.fresh hm
      · intro y m hm
        rcases List.mem_cons.1 hm with hm | hm
        · cases hm
          refine ⟨p, hp, ?_⟩
          rw [h.old n ((hmem n).2 (.inl rfl)), ha.polygons, Dict.get_set, if_pos rfl]
        · exact h.new y m hm
      · intro m
        rw [h.all, hmem, List.map_cons, List.mem_cons]
        tauto
    · rintro e s1 ⟨⟨_, h' | ⟨_, l, hl, hl'⟩⟩, _⟩
      · rw [hs.2.1] at h'; cases h'.2
      · cases hl

/-- The permutation of the sheets when crossing an edge: the permutation that is given for the edge, or else the inverse of the one that is given for the
opposite edge, or else the identity. -/
def sheetPerm (S : RSurf L K) (data : Dict (L × ℕ) (Equiv.Perm (Fin d))) (x : L × ℕ) : Equiv.Perm (Fin d) :=
  match data.get x with
  | some s => s
  | none =>
    match S.opp x.1 x.2 with
    | .ok (some y) =>
      match data.get y with
      | some t => t⁻¹
      | none => 1
    | _ => 1

/-- Permutations that are given for both sides of an edge are inverses of each other. -/
def Consistent (S : RSurf L K) (valid : L → Prop) (data : Dict (L × ℕ) (Equiv.Perm (Fin d))) : Prop :=
  ∀ x y s t, S.IsDart valid x → S.opp x.1 x.2 = .ok (some y) → data.get x = some s → data.get y = some t → s * t = 1

theorem coverPerm_eq {S : RSurf L K} {valid : L → Prop} {data : Dict (L × ℕ) (Equiv.Perm (Fin d))} (hc : S.Consistent valid data) {x y : L × ℕ}
    (hd : S.IsDart valid x) (h : S.opp x.1 x.2 = .ok (some y)) :
    coverPerm data x y = .ok (S.sheetPerm data x) := by
  unfold coverPerm sheetPerm
  rw [h]
  cases hx : data.get x with
  | some s =>
    cases hy : data.get y with
    | some t => simp [hc x y s t hd h hx hy]
    | none => rfl
  | none => cases hy : data.get y <;> simp [hy]

theorem sheetPerm_opp {S : RSurf L K} {valid : L → Prop} {data : Dict (L × ℕ) (Equiv.Perm (Fin d))} (hc : S.Consistent valid data) {x y : L × ℕ}
    (hd : S.IsDart valid x) (h : S.opp x.1 x.2 = .ok (some y))
    (h' : S.opp y.1 y.2 = .ok (some x)) : S.sheetPerm data y = (S.sheetPerm data x)⁻¹ := by
  unfold sheetPerm
  rw [h, h']
  cases hx : data.get x with
  | some s =>
    cases hy : data.get y with
    | some t => exact eq_inv_of_mul_eq_one_right (hc x y s t hd h hx hy)
    | none => simp [hx]
  | none =>
    cases hy : data.get y with
    | some t => simp [hy]
    | none => simp [hx, hy]

section
variable {S : RSurf L K} {valid : L → Prop} {data : Dict (L × ℕ) (Equiv.Perm (Fin d))} {D : Dict (L × Fin d) ℕ}

/-- The copy of edge `e` of the polygon with label `n` of the cover is to be glued to `c`. -/
def Lift (S : RSurf L K) (valid : L → Prop) (data : Dict (L × ℕ) (Equiv.Perm (Fin d))) (D : Dict (L × Fin d) ℕ) (n e : ℕ) (c : ℕ × Int) : Prop :=
  ∃ lab i y, D.get (lab, i) = some n ∧ S.IsDart valid (lab, e) ∧ S.opp lab e = .ok (some y) ∧
    D.get (y.1, S.sheetPerm data (lab, e) i) = some c.1 ∧ c.2 = (y.2 : Int)

open Classical in
noncomputable def liftF (S : RSurf L K) (valid : L → Prop) (data : Dict (L × ℕ) (Equiv.Perm (Fin d))) (D : Dict (L × Fin d) ℕ) (n e : ℕ) : Option (ℕ × Int) :=
  if h : ∃ c, Lift S valid data D n e c then some h.choose else none

theorem dict_inj {A B : Type} [DecidableEq A] {D : Dict A B} (hn : (D.map Prod.snd).Nodup) {x y : A} {n : B} (hx : D.get x = some n)
    (hy : D.get y = some n) : x = y := by
  have h1 := Dict.mem_of_get _ _ _ hx
  have h2 := Dict.mem_of_get _ _ _ hy
  have := List.inj_on_of_nodup_map hn h1 h2 rfl
  exact congrArg Prod.fst this

theorem Lift.unique (hn : (D.map Prod.snd).Nodup) {n e : ℕ} {c c' : ℕ × Int} (h : Lift S valid data D n e c)
    (h' : Lift S valid data D n e c') : c = c' := by
  obtain ⟨lab, i, y, a1, a2, a3, a4, a5⟩ := h
  obtain ⟨lab', i', y', b1, b2, b3, b4, b5⟩ := h'
  have := dict_inj hn a1 b1
  cases this
  rw [a3] at b3
  cases b3
  rw [a4] at b4
  exact Prod.ext (by simpa using b4) (by rw [a5, b5])

theorem liftF_iff (hn : (D.map Prod.snd).Nodup) {n e : ℕ} {c : ℕ × Int} : liftF S valid data D n e = some c ↔ Lift S valid data D n e c := by
  unfold liftF
  constructor
  · intro h
    split_ifs at h with hex
    cases h
    exact hex.choose_spec
  · intro h
    have hex : ∃ c, Lift S valid data D n e c := ⟨c, h⟩
    rw [dif_pos hex]
    exact congrArg some (Lift.unique hn hex.choose_spec h)

theorem Lift.symm (hS : S.Closed valid) (hc : S.Consistent valid data) {n e : ℕ} {c : ℕ × Int} (h : Lift S valid data D n e c) :
    ∃ k : ℕ, c.2 = k ∧ Lift S valid data D c.1 k (n, (e : Int)) := by
  obtain ⟨lab, i, y, a1, a2, a3, a4, a5⟩ := h
  obtain ⟨hy, hback⟩ := hS.bordered.opp_symm (d := (lab, e)) a2 a3
  refine ⟨y.2, a5, y.1, S.sheetPerm data (lab, e) i, (lab, e), a4, hy, hback, ?_, rfl⟩
  have hp := sheetPerm_opp hc (x := (lab, e)) (y := y) a2 a3 hback
  rw [show (y.1, y.2) = y from rfl, hp]
  simpa using a1

/-- The copies of an edge have been glued as they should be. -/
def Done (S : RSurf L K) (valid : L → Prop) (data : Dict (L × ℕ) (Equiv.Perm (Fin d))) (D : Dict (L × Fin d) ℕ) (t : MSurf ℕ (Poly K)) (x : L × ℕ) : Prop :=
  ∀ i n c, D.get (x.1, i) = some n → Lift S valid data D n x.2 c → t.opp n x.2 = some c

theorem coverGlue_spec (hn : (D.map Prod.snd).Nodup) (hD : ∀ l i, valid l → ∃ n, D.get (l, i) = some n) {x y : L × ℕ}
    (hx : S.IsDart valid x) (ho : S.opp x.1 x.2 = .ok (some y)) (hsame : y.1 = x.1)
    (is : List (Fin d)) {t : MSurf ℕ (Poly K)} (hg : Good t) (hr : t.roots = []) (hG : Target t (liftF S valid data D)) (hs : Sub t (liftF S valid data D)) :
    wp (coverGlue D x.1 x.2 y.2 (S.sheetPerm data x) is) (fun _ t' => Grown (liftF S valid data D) t t' ∧
      ∀ i ∈ is, ∀ n c, D.get (x.1, i) = some n → Lift S valid data D n x.2 c → t'.opp n x.2 = some c) (fun _ _ => False) t := by
  induction is generalizing t with
  | nil => exact ⟨Grown.refl hg.1 hg.2.2 hs, by simp⟩
  | cons i is ih =>
    obtain ⟨n, hn0⟩ := hD x.1 i hx.1
    obtain ⟨m, hm0⟩ := hD x.1 (S.sheetPerm data x i) hx.1
    unfold coverGlue
    rw [wp_bind, wp_liftE]
    unfold coverLabel
    rw [hn0]
    refine ⟨fun a ha => ?_, fun _ h' => by cases h'⟩
    cases ha
    rw [wp_bind, wp_liftE, hm0]
    refine ⟨fun a ha => ?_, fun _ h' => by cases h'⟩
    cases ha
    have hlift : Lift S valid data D n x.2 (m, (y.2 : Int)) := ⟨x.1, i, y, hn0, hx, ho, by rw [hsame]; exact hm0, rfl⟩
    rw [wp_bind]
    refine wp_mono (glue_sub hg.1 hg.2.1 hg.2.2 hG hs n x.2 (m, (y.2 : Int)) ((liftF_iff hn).2 hlift)) ?_ ?_
    · rintro _ t1 ⟨g, ho1⟩
      have hg1 : Good t1 := ⟨g.ginv, by rw [g.mutable]; exact hg.2.1, g.rootsOK⟩
      refine wp_mono (ih hg1 (g.nil hr) (hG.congr g.toSameTables) g.sub) ?_ (fun _ _ hh => hh)
      rintro _ t2 ⟨g2, h2⟩
      refine ⟨g.trans g2, fun j hj n' c hn' hl => ?_⟩
      rcases List.mem_cons.1 hj with rfl | hj
      · rw [hn0] at hn'
        cases hn'
        rw [Lift.unique hn hl hlift]
        exact g2.keep _ _ _ ho1
      · exact h2 j hj n' c hn' hl
    · rintro _ _ ⟨-, hf⟩
      exact hf (.inl hr)

theorem coverLoop_spec (hS : S.Closed valid) (hc : S.Consistent valid data) (hn : (D.map Prod.snd).Nodup)
    (hD : ∀ l i, valid l → ∃ n, D.get (l, i) = some n) (hsame : ∀ x y, S.IsDart valid x → S.opp x.1 x.2 = .ok (some y) → y.1 = x.1 ∧ y ≠ x)
    (fuel : ℕ) (edges : List (L × ℕ)) (hf : edges.length ≤ fuel) (hnd : edges.Nodup) (hd : ∀ x ∈ edges, S.IsDart valid x)
    (hcl : ∀ x ∈ edges, ∀ y, S.opp x.1 x.2 = .ok (some y) → y ∈ edges)
    {t : MSurf ℕ (Poly K)} (hg : Good t) (hr : t.roots = []) (hG : Target t (liftF S valid data D)) (hs : Sub t (liftF S valid data D))
    (hdone : ∀ x, S.IsDart valid x → x ∉ edges → Done S valid data D t x) :
    wp (coverLoop S D data fuel edges) (fun _ t' => Grown (liftF S valid data D) t t' ∧ ∀ x, S.IsDart valid x → Done S valid data D t' x)
      (fun _ _ => False) t := by
  induction fuel generalizing edges t with
  | zero =>
    cases edges with
    | nil => exact ⟨Grown.refl hg.1 hg.2.2 hs, fun x hx => hdone x hx (by simp)⟩
    | cons x edges => simp at hf
  | succ fuel ih =>
    cases edges with
    | nil => exact ⟨Grown.refl hg.1 hg.2.2 hs, fun x hx => hdone x hx (by simp)⟩
    | cons x edges =>
      have hx := hd x (by simp)
      obtain ⟨hl, p, hp, he⟩ := id hx
      obtain ⟨l', e', p', ho, -, -, -, hback⟩ := hS.glue x.1 p x.2 hl hp he
      obtain ⟨hsm, hne⟩ := hsame x (l', e') hx ho
      have hmem : (l', e') ∈ edges := by
        rcases List.mem_cons.1 (hcl x (by simp) _ ho) with h | h
        · exact absurd h hne
        · exact h
      have hnd' := List.nodup_cons.1 hnd
      unfold coverLoop
      rw [wp_bind, wp_liftE, opp!_ok ho]
      refine ⟨fun a ha => ?_, fun _ h' => by cases h'⟩
      cases ha
      rw [wp_ite]
      refine ⟨fun h => absurd hmem h, fun _ => ?_⟩
      rw [wp_bind, wp_liftE, coverPerm_eq hc hx ho]
      refine ⟨fun a ha => ?_, fun _ h' => by cases h'⟩
      cases ha
      rw [wp_bind]
      refine wp_mono (coverGlue_spec hn hD hx ho hsm (List.finRange d) hg hr hG hs) ?_ (fun _ _ hh => hh)
      rintro _ t1 ⟨g, h1⟩
      have hg1 : Good t1 := ⟨g.ginv, by rw [g.mutable]; exact hg.2.1, g.rootsOK⟩
      have hsym := (hS.bordered.opp_symm (d := x) hx ho).2
      refine wp_mono (ih (edges.erase (l', e')) ?_ (hnd'.2.erase _) ?_ ?_ hg1 (g.nil hr) (hG.congr g.toSameTables) g.sub ?_) ?_ (fun _ _ hh => hh)
      · have := List.length_erase_le (a := (l', e')) (l := edges)
        simp only [List.length_cons] at hf
        omega
      · intro z hz
        exact hd z (List.mem_cons_of_mem _ (List.mem_of_mem_erase hz))
      · intro z hz w hw
        have hz' := List.mem_of_mem_erase hz
        have hzd := hd z (List.mem_cons_of_mem _ hz')
        have hw' := hcl z (List.mem_cons_of_mem _ hz') w hw
        have hwz := (hS.bordered.opp_symm (d := z) hzd hw).2
        rw [(hnd'.2).mem_erase_iff]
        constructor
        · rintro rfl
          -- then z is x
          rw [hsym] at hwz
          cases hwz
          exact hnd'.1 hz'
        · rcases List.mem_cons.1 hw' with rfl | h
          · rw [ho] at hwz
            cases hwz
            exact absurd rfl ((hnd'.2.mem_erase_iff.1 hz).1)
          · exact h
      · intro z hz hzn i n c hn' hlift
        have hkeep : Done S valid data D t z → t1.opp n z.2 = some c := fun h => g.keep _ _ _ (h i n c hn' hlift)
        rw [hnd'.2.mem_erase_iff] at hzn
        by_cases hzx : z = x
        · subst hzx
          exact h1 i (List.mem_finRange i) n c hn' hlift
        · by_cases hzy : z = (l', e')
          · subst hzy
            -- the other side of the edge
            obtain ⟨k, hk, hl2⟩ := hlift.symm hS hc
            obtain ⟨lab, i', y, b1, b2, b3, b4, b5⟩ := hlift
            have := dict_inj hn hn' b1
            cases this
            dsimp only at b3
            rw [hsym] at b3
            cases b3
            have hkx : k = x.2 := by
              rw [b5] at hk
              exact (Int.natCast_inj.1 hk).symm
            subst hkx
            have h2 := h1 _ (List.mem_finRange _) c.1 (n, (e' : Int)) b4 hl2
            obtain ⟨k', hk', h3⟩ := g.ginv.inv _ _ _ _ h2
            have : k' = e' := (Int.natCast_inj.1 hk').symm
            subst this
            rw [h3, ← hk]
          · apply hkeep
            apply hdone z hz
            rw [List.mem_cons]
            rintro (h | h)
            · exact hzx h
            · exact hzn ⟨hzy, h⟩
      · rintro _ t2 ⟨g2, h2⟩
        exact ⟨g.trans g2, h2⟩

end

/-- **C49**, for surfaces all of whose gluings join edges of the same polygon.  The cover of a closed surface without self-glued edges, with consistent
permutations: for each polygon and each sheet there is a polygon in the cover with the same vertices, these are different and there are no others, the cover is
immutable, and crossing an edge of the cover lifts crossing the edge of the surface and permutes the sheets by the permutation that was given for the edge (the
inverse of the one that was given for the opposite edge, the identity if there is none); going back undoes it.  (`edges` are the edges in the order in which the set
returns them.)  For other surfaces the claim is wrong, see `C49_other_polygon_violation`. -/
theorem C49_ramified_cover_partial {S : RSurf L K} {valid : L → Prop} (hS : S.Closed valid) {labels : List L} (hln : labels.Nodup) (hl : ∀ l, l ∈ labels ↔ valid l)
    {edges : List (L × ℕ)} (hen : edges.Nodup) (he : ∀ x, x ∈ edges ↔ S.IsDart valid x) (data : Dict (L × ℕ) (Equiv.Perm (Fin d))) (hc : S.Consistent valid data)
    (hsame : ∀ x y, S.IsDart valid x → S.opp x.1 x.2 = .ok (some y) → y.1 = x.1 ∧ y ≠ x) :
    ∃ D t, ramifiedCover S labels edges data MSurf.empty = .ok D t ∧ t.mutable = false ∧
      (∀ l i, valid l → ∃ n, D.get (l, i) = some n ∧ t.polygon n = S.polygon l) ∧
      (∀ x y n, D.get x = some n → D.get y = some n → x = y) ∧
      (∀ n p, t.polygon n = .ok p → ∃ l i, valid l ∧ D.get (l, i) = some n) ∧
      ∀ x y i n, S.IsDart valid x → S.opp x.1 x.2 = .ok (some y) → D.get (x.1, i) = some n →
        ∃ m, D.get (y.1, S.sheetPerm data x i) = some m ∧ t.oppositeEdge n (x.2 : Int) = .ok (some (m, (y.2 : Int))) ∧
          t.oppositeEdge m (y.2 : Int) = .ok (some (n, (x.2 : Int))) := by
  have hmem : ∀ x : L × Fin d, x ∈ coverSheets (d := d) labels ↔ valid x.1 := by
    rintro ⟨l, i⟩
    simp [coverSheets, ← hl]
  have hnd : (coverSheets (d := d) labels).Nodup := by
    unfold coverSheets
    rw [List.nodup_flatMap]
    refine ⟨fun i _ => hln.map (fun a b h => by simpa using h), ?_⟩
    refine (List.nodup_finRange d).imp ?_
    intro i j hij
    simp only [Function.onFun, List.disjoint_left, List.mem_map, not_exists, not_and]
    rintro x ⟨l, _, rfl⟩ l' _ h
    exact hij (congrArg Prod.snd h).symm
  have h1 : wp (ramifiedCover S labels edges data) (fun D t => ∃ s1, Copies S (coverSheets labels) MSurf.empty s1 D ∧ ∃ s2,
      Grown (liftF S valid data D) s1 s2 ∧ (∀ x, S.IsDart valid x → Done S valid data D s2 x) ∧ t = { s2 with roots := t.roots, mutable := false })
      (fun _ _ => False) MSurf.empty := by
    unfold ramifiedCover
    rw [wp_bind]
    refine wp_mono (coverAdd_spec S _ (fun x hx => ?_) good_empty) ?_ (fun _ _ hh => hh)
    · obtain ⟨p, hp, _⟩ := hS.poly x.1 ((hmem x).1 hx)
      exact ⟨p, hp⟩
    · intro D s1 h
      have hD : ∀ l i, valid l → ∃ n, D.get (l, i) = some n := by
        intro l i hv
        have : (l, i) ∈ Dict.keys D := by rw [h.keys, hmem]; exact hv
        rw [Dict.mem_keys_iff] at this
        exact Option.isSome_iff_exists.1 this
      have hr : s1.roots = [] := h.roots rfl
      have hG : Target s1 (liftF S valid data D) := by
        constructor
        · intro n e n' e' hg
          obtain ⟨k, hk, hl2⟩ := ((liftF_iff h.nodup).1 hg).symm hS hc
          exact ⟨k, hk, (liftF_iff h.nodup).2 hl2⟩
        · intro n e c hg
          obtain ⟨lab, i, y, a1, ⟨_, p, hp, hlt⟩, -⟩ := (liftF_iff h.nodup).1 hg
          obtain ⟨p', hp', hget⟩ := h.new _ _ (Dict.mem_of_get _ _ _ a1)
          rw [hp] at hp'
          cases hp'
          exact ⟨p, hget, hlt⟩
      have hsub : Sub s1 (liftF S valid data D) := by
        intro l e c ho
        rw [h.opp] at ho
        cases ho
      rw [wp_bind]
      refine wp_mono (coverLoop_spec hS hc h.nodup hD hsame edges.length edges le_rfl hen (fun x hx => (he x).1 hx)
        (fun x hx y ho => (he y).2 (hS.bordered.opp_symm (d := x) ((he x).1 hx) ho).1) h.good hr hG hsub
        (fun x hx hx' => absurd ((he x).2 hx) hx')) ?_ (fun _ _ hh => hh)
      rintro _ s2 ⟨g, hdone⟩
      rw [wp_bind]
      refine wp_mono (wp_and (setImmutable_frame s2) (setImmutable_ok g.ginv g.rootsOK)) ?_ (fun _ _ hh => hh.2)
      rintro _ t ⟨⟨ht, -⟩, -⟩
      exact ⟨s1, h, s2, g, hdone, ht⟩
  obtain ⟨D, t, hrun, s1, h, s2, g, hdone, ht⟩ := wp_ok h1
  have hDn : (Dict.keys D).Nodup := by rw [h.keys]; exact hnd
  have hpoly : ∀ n, t.polygons.get n = s1.polygons.get n := by
    intro n
    rw [ht]
    exact congrArg (fun q => Dict.get q n) g.polygons
  have hnew : ∀ l i n, D.get (l, i) = some n → ∃ p, S.polygon l = .ok p ∧ t.polygons.get n = some p := by
    intro l i n hn
    obtain ⟨p, hp, hget⟩ := h.new _ _ (Dict.mem_of_get _ _ _ hn)
    exact ⟨p, hp, by rw [hpoly, hget]⟩
  have hD : ∀ l i, valid l → ∃ n, D.get (l, i) = some n := by
    intro l i hv
    have : (l, i) ∈ Dict.keys D := by rw [h.keys, hmem]; exact hv
    rw [Dict.mem_keys_iff] at this
    exact Option.isSome_iff_exists.1 this
  have hcross : ∀ x y i n m, S.IsDart valid x → S.opp x.1 x.2 = .ok (some y) → D.get (x.1, i) = some n → D.get (y.1, S.sheetPerm data x i) = some m →
      t.oppositeEdge n (x.2 : Int) = .ok (some (m, (y.2 : Int))) := by
    intro x y i n m hx ho hn hm
    have h2 := hdone x hx i n (m, (y.2 : Int)) hn ⟨x.1, i, y, hn, hx, ho, hm, rfl⟩
    obtain ⟨_, p, hp, hlt⟩ := hx
    obtain ⟨p', hp', hget⟩ := hnew _ _ _ hn
    rw [hp] at hp'
    cases hp'
    have h3 := MSurf.oppositeEdge_eq_opp g.ginv.toShape (l := n) (e := x.2) ⟨p, by rw [← hget, hpoly]; exact congrArg (fun q => Dict.get q n) g.polygons, hlt⟩
    rw [h2] at h3
    rw [ht]
    exact h3
  refine ⟨D, t, hrun, by rw [ht], ?_, ?_, ?_, ?_⟩
  · intro l i hv
    obtain ⟨n, hn⟩ := hD l i hv
    obtain ⟨p, hp, hget⟩ := hnew _ _ _ hn
    exact ⟨n, hn, by rw [hp]; exact MSurf.polygon_ok.2 hget⟩
  · intro x y n hx hy
    exact dict_inj h.nodup hx hy
  · intro n p hp
    have hk : n ∈ s1.polygons.keys := by
      rw [Dict.mem_keys_iff, ← hpoly, MSurf.polygon_ok.1 hp]
      rfl
    rw [h.all] at hk
    rcases hk with hk | hk
    · simp [MSurf.empty, Dict.keys] at hk
    · obtain ⟨⟨⟨l, i⟩, n'⟩, hm, rfl⟩ := List.mem_map.1 hk
      refine ⟨l, i, ?_, Dict.get_of_mem D hDn _ _ hm⟩
      have : (l, i) ∈ Dict.keys D := List.mem_map.2 ⟨_, hm, rfl⟩
      rw [h.keys, hmem] at this
      exact this
  · intro x y i n hx ho hn
    obtain ⟨hy, hback⟩ := hS.bordered.opp_symm (d := x) hx ho
    obtain ⟨m, hm⟩ := hD y.1 (S.sheetPerm data x i) hy.1
    refine ⟨m, hm, hcross x y i n m hx ho hn hm, hcross y x (S.sheetPerm data x i) m n hy hback hm ?_⟩
    rw [sheetPerm_opp hc hx ho hback]
    simpa using hn

/-! ### When the cover exists -/

theorem coverLoop_success {S : RSurf L K} {D : Dict (L × Fin d) ℕ} {data : Dict (L × ℕ) (Equiv.Perm (Fin d))} (fuel : ℕ) (edges : List (L × ℕ))
    (hnd : edges.Nodup) {s t : MSurf ℕ (Poly K)} (h : coverLoop S D data fuel edges s = .ok () t) :
    ∀ z ∈ edges, ∃ x y, x ≠ y ∧ x ∈ edges ∧ y ∈ edges ∧ S.opp x.1 x.2 = .ok (some y) ∧ (z = x ∨ z = y) ∧
      ∀ p q, data.get x = some p → data.get y = some q → p * q = 1 := by
  induction fuel generalizing edges s with
  | zero =>
    cases edges with
    | nil => simp
    | cons x edges => cases h
  | succ fuel ih =>
    cases edges with
    | nil => simp
    | cons x edges =>
      unfold coverLoop at h
      simp only [bind, EStateM.bind, liftE] at h
      cases ho : S.opp! x.1 x.2 with
      | error e => rw [ho] at h; cases h
      | ok y =>
        rw [ho] at h
        simp only [pure, EStateM.pure] at h
        by_cases hy : y ∈ edges
        swap
        · rw [if_pos hy] at h; cases h
        rw [if_neg (not_not.2 hy)] at h
        have ho' : S.opp x.1 x.2 = .ok (some y) := by
          unfold opp! at ho
          cases h1 : S.opp x.1 x.2 with
          | error e => rw [h1] at ho; cases ho
          | ok c =>
            rw [h1] at ho
            cases c with
            | none => cases ho
            | some c => cases ho; rfl
        have hnd' := List.nodup_cons.1 hnd
        have hxy : x ≠ y := by
          rintro rfl
          exact hnd'.1 hy
        simp only [EStateM.bind] at h
        cases hp : coverPerm data x y with
        | error e => rw [hp] at h; cases h
        | ok p =>
          rw [hp] at h
          simp only [pure, EStateM.pure] at h
          cases hg : coverGlue D x.1 x.2 y.2 p (List.finRange d) s with
          | error e s' => rw [hg] at h; cases h
          | ok a s' =>
            rw [hg] at h
            dsimp only at h
            have hcons : ∀ p q, data.get x = some p → data.get y = some q → p * q = 1 := by
              intro p' q' h1 h2
              unfold coverPerm at hp
              rw [h1, h2] at hp
              dsimp only at hp
              by_contra hne
              rw [if_neg hne] at hp
              cases hp
            intro z hz
            by_cases hzx : z = x
            · exact ⟨x, y, hxy, by simp, by simp [hy], ho', .inl hzx, hcons⟩
            by_cases hzy : z = y
            · exact ⟨x, y, hxy, by simp, by simp [hy], ho', .inr hzy, hcons⟩
            have hze : z ∈ edges.erase y := hnd'.2.mem_erase_iff.2 ⟨hzy, (List.mem_cons.1 hz).resolve_left hzx⟩
            obtain ⟨u, v, h1, h2, h3, h4⟩ := ih _ (hnd'.2.erase _) h z hze
            exact ⟨u, v, h1, List.mem_cons_of_mem _ (List.mem_of_mem_erase h2), List.mem_cons_of_mem _ (List.mem_of_mem_erase h3), h4⟩

/-- **C49**. On any surface a cover is only returned if all edges are glued, no edge is glued to itself, and the given permutations are consistent. -/
theorem C49_checks {S : RSurf L K} {valid : L → Prop} (hS : S.Bordered valid) (labels : List L) {edges : List (L × ℕ)} (hen : edges.Nodup)
    (he : ∀ x, x ∈ edges ↔ S.IsDart valid x) (data : Dict (L × ℕ) (Equiv.Perm (Fin d))) (s : MSurf ℕ (Poly K))
    {D : Dict (L × Fin d) ℕ} {t : MSurf ℕ (Poly K)} (h : ramifiedCover S labels edges data s = .ok D t) :
    (∀ x, S.IsDart valid x → ∃ y, S.opp x.1 x.2 = .ok (some y) ∧ y ≠ x) ∧ S.Consistent valid data := by
  unfold ramifiedCover at h
  simp only [bind, EStateM.bind] at h
  cases h1 : coverAdd S (coverSheets labels) s with
  | error e s1 => rw [h1] at h; cases h
  | ok D' s1 =>
    rw [h1] at h
    dsimp only at h
    cases h2 : coverLoop S D' data edges.length edges s1 with
    | error e s2 => rw [h2] at h; cases h
    | ok a s2 =>
      have h3 := coverLoop_success _ _ hen h2
      constructor
      · intro x hx
        obtain ⟨u, v, huv, hu, hv, ho, hx' | hx', -⟩ := h3 x ((he x).2 hx)
        · subst hx'; exact ⟨v, ho, huv.symm⟩
        · subst hx'; exact ⟨u, (hS.opp_symm (d := u) ((he u).1 hu) ho).2, huv⟩
      · intro x y p q hx hxy hp hq
        obtain ⟨u, v, huv, hu, hv, ho, hx' | hx', hcons⟩ := h3 x ((he x).2 hx)
        · subst hx'
          rw [ho] at hxy
          cases hxy
          exact hcons p q hp hq
        · subst hx'
          have := (hS.opp_symm (d := u) ((he u).1 hu) ho).2
          rw [this] at hxy
          cases hxy
          have := hcons q p hq hp
          rw [mul_eq_one_iff_eq_inv] at this
          rw [this, mul_inv_cancel]

/-! ### Examples -/

/-- A torus made from a square. -/
def squareTorus : RSurf Unit ℚ where
  polygon _ := .ok [(0, 0), (1, 0), (1, 1), (0, 1)]
  opp _ e := if e < 4 then .ok (some ((), (e + 2) % 4)) else .error .valueError

theorem squareTorus_closed : squareTorus.Closed (fun _ => True) := by
  constructor
  · rintro l -
    exact ⟨_, rfl, (Poly.check_iff _ (by decide)).1 (by decide +kernel)⟩
  · intro l p e _ hp he
    have : [(0, 0), (1, 0), (1, 1), (0, 1)] = p := by injection hp
    subst this
    have he' : e < 4 := he
    refine ⟨(), (e + 2) % 4, _, by simp [squareTorus, he'], trivial, rfl, Nat.mod_lt _ (by norm_num), ?_⟩
    interval_cases e <;> simp [squareTorus]

/-- Permutations of three sheets for two edges of the square: the cover is an L-shaped surface. -/
def lShape : Dict (Unit × ℕ) (Equiv.Perm (Fin 3)) := [(((), 1), Equiv.swap 0 1), (((), 2), Equiv.swap 0 2)]

example : squareTorus.Consistent (fun _ => True) lShape ∧
    ∀ x y, squareTorus.IsDart (fun _ => True) x → squareTorus.opp x.1 x.2 = .ok (some y) → y.1 = x.1 ∧ y ≠ x := by
  have key : ∀ x, squareTorus.IsDart (fun _ => True) x → x.2 < 4 := by
    rintro ⟨_, e⟩ ⟨_, p, hp, he⟩
    have : [(0, 0), (1, 0), (1, 1), (0, 1)] = p := by injection hp
    subst this
    exact he
  constructor
  · rintro ⟨_, e⟩ y s t hx ho h1 h2
    have := key _ hx
    dsimp only at this ho
    simp only [squareTorus, if_pos this] at ho
    cases ho
    interval_cases e <;> simp [lShape, Dict.get] at h1 h2
  · rintro ⟨_, e⟩ y hx ho
    have := key _ hx
    dsimp only at this ho
    simp only [squareTorus, if_pos this] at ho
    cases ho
    refine ⟨rfl, fun h => ?_⟩
    have := congrArg Prod.snd h
    dsimp only at this
    omega

/-- **C49** fails when edges of different polygons are glued: the cover of degree one of a torus made from two triangles is not a copy of the torus; instead, the
edges of the first triangle are glued to themselves and the edges of the second one are not glued at all. -/
theorem C49_other_polygon_violation : ∃ D t, ramifiedCover (d := 1) (ofMSurf MSurf.exTorus) [0, 1] [(0, 0), (0, 1), (0, 2), (1, 0), (1, 1), (1, 2)] []
    MSurf.empty = .ok D t ∧ (ofMSurf MSurf.exTorus).opp 0 1 = .ok (some (1, 1)) ∧ D.get (0, 0) = some 0 ∧ D.get (1, 0) = some 1 ∧
      t.oppositeEdge 0 1 = .ok (some (0, 1)) ∧ t.oppositeEdge 1 1 = .ok none := by
  have h : (match ramifiedCover (d := 1) (ofMSurf MSurf.exTorus) [0, 1] [(0, 0), (0, 1), (0, 2), (1, 0), (1, 1), (1, 2)] [] MSurf.empty with
    | .ok D t => decide (D.get (0, 0) = some 0 ∧ D.get (1, 0) = some 1 ∧ t.oppositeEdge 0 1 = .ok (some (0, 1)) ∧ t.oppositeEdge 1 1 = .ok none)
    | .error _ _ => false) = true := by decide +kernel
  cases hr : ramifiedCover (d := 1) (ofMSurf MSurf.exTorus) [0, 1] [(0, 0), (0, 1), (0, 2), (1, 0), (1, 1), (1, 2)] [] MSurf.empty with
  | error e t => rw [hr] at h; cases h
  | ok D t =>
    rw [hr] at h
    exact ⟨D, t, rfl, by decide +kernel, of_decide_eq_true h⟩

end RSurf
end Flat
