import Mathlib.Data.List.Lex
import Mathlib.Data.Prod.Lex
import Verif.Lemmas.Standardize
import Verif.Props.Compare
import Verif.Props.Subdivide
import Verif.Lemmas.Transport

/-!
# The comparison of surfaces compares codes
-/

namespace Flat
namespace MSurf

section
variable {α β : Type} [LinearOrder α] [LinearOrder β]

theorem sgnCmp_lex (a c : α) (b d : β) :
    sgnCmp (toLex (a, b)) (toLex (c, d)) = if sgnCmp a c ≠ 0 then sgnCmp a c else sgnCmp b d := by
  by_cases h : a = c
  · subst h
    rw [if_neg (by rw [not_not, sgnCmp_zero])]
    unfold sgnCmp
    simp only [gt_iff_lt, Prod.Lex.toLex_lt_toLex, lt_irrefl, false_or, true_and]
  · rw [if_pos (by rwa [Ne, sgnCmp_zero])]
    unfold sgnCmp
    simp only [gt_iff_lt, Prod.Lex.toLex_lt_toLex, h, Ne.symm h, false_and, or_false]

theorem sgnCmp_cons (a b : α) (l l' : List α) :
    sgnCmp (a :: l) (b :: l') = if sgnCmp a b ≠ 0 then sgnCmp a b else sgnCmp l l' := by
  have key : ∀ (a b : α) (l l' : List α), a :: l < b :: l' ↔ a < b ∨ a = b ∧ l < l' := by
    intro a b l l'
    constructor
    · intro h
      cases h with
      | cons h => exact Or.inr ⟨rfl, h⟩
      | rel h => exact Or.inl h
    · rintro (h | ⟨rfl, h⟩)
      · exact List.Lex.rel h
      · exact List.Lex.cons h
  by_cases h : a = b
  · subst h
    rw [if_neg (by rw [not_not, sgnCmp_zero])]
    unfold sgnCmp
    simp only [gt_iff_lt, key, lt_irrefl, false_or, true_and]
    split_ifs <;> rfl
  · rw [if_pos (by rwa [Ne, sgnCmp_zero])]
    unfold sgnCmp
    simp only [gt_iff_lt, key, h, Ne.symm h, false_and, or_false]

theorem sgnCmp_pos (a b : α) : 0 < sgnCmp a b ↔ b < a := by
  unfold sgnCmp
  split_ifs with h1 h2
  · simp [h1]
  · simp [h2.le]
  · simp [h1]

end

variable {L K : Type} [LinearOrder L] [LabelNum L] [Field K] [LinearOrder K] [IsStrictOrderedRing K]

/-- What the comparison of polygons looks at. -/
def polyKey (p : Poly K) : ℕ ×ₗ (K ×ₗ List (K ×ₗ K)) :=
  toLex (p.length, toLex (p.area, ((List.range p.length).drop 1).map (fun v => toLex (p.vertex v))))

theorem cmp_polyKey (p q : Poly K) : Poly.cmp p q = sgnCmp (polyKey p) (polyKey q) := by
  rw [Poly.cmp_unfold]
  unfold polyKey
  rw [sgnCmp_lex, sgnCmp_lex]
  have loop : ∀ vs : List ℕ, Poly.cmp.loop p q vs = sgnCmp (vs.map (fun v => toLex (p.vertex v))) (vs.map (fun v => toLex (q.vertex v))) := by
    intro vs
    induction vs with
    | nil => rw [List.map_nil, List.map_nil, (sgnCmp_zero _ _).2 rfl]; rfl
    | cons v vs ih =>
      rw [Poly.loop_cons, ih, List.map_cons, List.map_cons, sgnCmp_cons, sgnCmp_lex]
      unfold sgnCmp
      simp only [gt_iff_lt]
      split_ifs <;> simp_all
  by_cases hl : p.length = q.length
  · rw [if_neg (show ¬ q.length < p.length by omega), if_neg (show ¬ p.length < q.length by omega),
      if_neg (show ¬ sgnCmp p.length q.length ≠ 0 by rw [not_not, sgnCmp_zero]; exact hl), loop, ← hl]
    generalize sgnCmp (List.map (fun v => toLex (p.vertex v)) _) _ = x
    rcases lt_trichotomy p.area q.area with h | h | h
    · simp [sgnCmp, h, h.not_gt]
    · simp [sgnCmp, h]
    · simp [sgnCmp, h]
  · rw [if_pos (show sgnCmp p.length q.length ≠ 0 by rw [ne_eq, sgnCmp_zero]; exact hl)]
    rcases Nat.lt_or_gt_of_ne hl with h | h
    · rw [if_neg (by omega), if_pos h]
      simp [sgnCmp, h, Nat.le_of_lt h]
    · rw [if_pos h]
      simp [sgnCmp, h]

theorem polyKey_inj {p q : Poly K} (hp : p.vertex 0 = 0) (hq : q.vertex 0 = 0) (h : polyKey p = polyKey q) : p = q := by
  rw [← Poly.C50_polygon_cmp_eq_partial p q (hp.trans hq.symm), cmp_polyKey, h, sgnCmp_zero]

/-- The polygon with label `l` and where its edges are glued to, with labels replaced by their position in the list. -/
def rowKey (s : MSurf L (Poly K)) (ls : List L) (l : L) : (ℕ ×ₗ (K ×ₗ List (K ×ₗ K))) ×ₗ List (ℕ ×ₗ ℤ) :=
  toLex (polyKey (s.polyAt l), (List.range (s.polyAt l).length).map (fun e =>
    toLex (ls.findIdx (fun x => x = ((s.opp l e).getD (l, 0)).1), ((s.opp l e).getD (l, 0)).2)))

/-- What the comparison of surfaces looks at. -/
def code (s : MSurf L (Poly K)) (ls : List L) : List ((ℕ ×ₗ (K ×ₗ List (K ×ₗ K))) ×ₗ List (ℕ ×ₗ ℤ)) := ls.map (rowKey s ls)

omit [IsStrictOrderedRing K] [LinearOrder K] [Field K] in
theorem indexOf_mem {ls : List L} {l : L} (h : l ∈ ls) : indexOf ls l = .ok (ls.findIdx (fun x => x = l)) := by
  have : ls.findIdx? (fun x => decide (x = l)) = some (ls.findIdx (fun x => decide (x = l))) := by
    rw [List.findIdx?_eq_some_iff_findIdx_eq]
    exact ⟨List.findIdx_lt_length_of_exists ⟨l, h, by simp⟩, rfl⟩
  unfold indexOf
  rw [this]

omit [IsStrictOrderedRing K] [LinearOrder K] [Field K] in
theorem findIdx_inj {ls : List L} {a b : L} (ha : a ∈ ls) (hb : b ∈ ls)
    (h : ls.findIdx (fun x => decide (x = a)) = ls.findIdx (fun x => decide (x = b))) : a = b :=
  indexOf_inj (indexOf_mem ha) (by rw [indexOf_mem hb, h])

variable {s t : MSurf L (Poly K)}

theorem cmpEdges_eq (hs : GInv s) (ht : GInv t) (hb : NoBorder s) (hb' : NoBorder t) {ls ls' : List L}
    (h1 : ∀ l ∈ s.polygons.keys, l ∈ ls) (h2 : ∀ l ∈ t.polygons.keys, l ∈ ls') {l l' : L} {p p' : Poly K}
    (hp : s.polygons.get l = some p) (hp' : t.polygons.get l' = some p') (es : List ℕ) (he : ∀ e ∈ es, e < p.length ∧ e < p'.length) :
    cmpEdges s t ls ls' l l' es = .ok (sgnCmp
      (es.map fun e => toLex (ls.findIdx (fun x => x = ((s.opp l e).getD (l, 0)).1), ((s.opp l e).getD (l, 0)).2))
      (es.map fun e => toLex (ls'.findIdx (fun x => x = ((t.opp l' e).getD (l', 0)).1), ((t.opp l' e).getD (l', 0)).2))) := by
  induction es with
  | nil => rw [List.map_nil, List.map_nil, (sgnCmp_zero _ _).2 rfl]; rfl
  | cons e es ih =>
    obtain ⟨he1, he2⟩ := he e (by simp)
    obtain ⟨c, hc⟩ := hb l p e hp he1
    obtain ⟨c', hc'⟩ := hb' l' p' e hp' he2
    have k1 : s.oppositeEdge! l e = .ok c := by
      unfold oppositeEdge!
      rw [oppositeEdge_eq_opp hs.toShape ⟨p, hp, he1⟩, hc]
    have k2 : t.oppositeEdge! l' e = .ok c' := by
      unfold oppositeEdge!
      rw [oppositeEdge_eq_opp ht.toShape ⟨p', hp', he2⟩, hc']
    have m1 : c.1 ∈ ls := by
      obtain ⟨q, _, h, _⟩ := opp_target hs hc
      exact h1 _ (by rw [Dict.mem_keys_iff, h]; rfl)
    have m2 : c'.1 ∈ ls' := by
      obtain ⟨q, _, h, _⟩ := opp_target ht hc'
      exact h2 _ (by rw [Dict.mem_keys_iff, h]; rfl)
    rw [List.map_cons, List.map_cons, sgnCmp_cons, sgnCmp_lex]
    unfold cmpEdges
    simp only [k1, k2, bind, Except.bind, indexOf_mem m1, indexOf_mem m2, hc, hc', Option.getD_some, ih fun e he' => he e (List.mem_cons_of_mem _ he')]
    by_cases g1 : sgnCmp (ls.findIdx (fun x => decide (x = c.1))) (ls'.findIdx (fun x => decide (x = c'.1))) ≠ 0
    · rw [if_pos g1, if_pos g1, if_pos g1]; rfl
    · rw [if_neg g1, if_neg g1]
      by_cases g2 : sgnCmp c.2 c'.2 ≠ 0
      · rw [if_pos g2, if_pos g2]; rfl
      · rw [if_neg g2, if_neg g2]

theorem cmpLabels_eq (hs : GInv s) (ht : GInv t) (hb : NoBorder s) (hb' : NoBorder t) (hst : ∀ l, s.polygons.get l = t.polygons.get l)
    {ls ls' : List L} (h1 : ∀ l ∈ s.polygons.keys, l ∈ ls) (h2 : ∀ l ∈ t.polygons.keys, l ∈ ls') (xs ys : List L)
    (hx : ∀ l ∈ xs, l ∈ s.polygons.keys) (hy : ∀ l ∈ ys, l ∈ t.polygons.keys) (hl : xs.length = ys.length) :
    cmpLabels s t ls ls' (xs.zip ys) = .ok (sgnCmp (xs.map (rowKey s ls)) (ys.map (rowKey t ls'))) := by
  induction xs generalizing ys with
  | nil =>
    have : ys = [] := List.length_eq_zero_iff.1 hl.symm
    subst this
    rw [List.map_nil, List.map_nil, (sgnCmp_zero _ _).2 rfl]; rfl
  | cons x xs ih =>
    cases ys with
    | nil => simp at hl
    | cons y ys =>
      have hxm := hx x (by simp)
      have hym := hy y (by simp)
      rw [Dict.mem_keys_iff, Option.isSome_iff_exists] at hxm hym
      obtain ⟨p, hp⟩ := hxm
      obtain ⟨p', hp'⟩ := hym
      rw [List.zip_cons_cons, List.map_cons, List.map_cons, sgnCmp_cons]
      unfold rowKey cmpLabels
      simp only [polygon_iff.2 hp, polygon_iff.2 ((hst y).trans hp'), bind, Except.bind, polyAt_eq hp, polyAt_eq hp']
      rw [sgnCmp_lex, ← cmp_polyKey]
      by_cases g : Poly.cmp p p' ≠ 0
      · rw [if_pos g, if_pos g, if_pos g]; rfl
      · rw [if_neg g, if_neg g]
        have hlen : p.length = p'.length := by
          rw [not_not, Poly.C50_polygon_cmp_zero_iff] at g
          exact g.1
        rw [show nv p = p.length from rfl, cmpEdges_eq hs ht hb hb' h1 h2 hp hp' _ (fun e he => ⟨List.mem_range.1 he, hlen ▸ List.mem_range.1 he⟩), hlen]
        dsimp only
        have := ih ys (fun l h => hx l (List.mem_cons_of_mem _ h)) (fun l h => hy l (List.mem_cons_of_mem _ h)) (by simpa using hl)
        unfold rowKey at this
        rw [this]
        split_ifs <;> rfl

/-- The comparison of two surfaces with the same polygons compares their codes. -/
theorem cmp_code (hs : Good s) (ht : Good t) (hb : NoBorder s) (hb' : NoBorder t) (hst : ∀ l, s.polygons.get l = t.polygons.get l)
    {ls ls' : List L} (hls : s.labels = .ok ls) (hls' : t.labels = .ok ls') : s.cmp t = .ok (sgnCmp (code s ls) (code t ls')) := by
  obtain ⟨a, ha, han, ham⟩ := labels_spec hs.1 hs.2.2
  rw [hls] at ha
  injection ha with ha
  subst ha
  obtain ⟨a, ha, han', ham'⟩ := labels_spec ht.1 ht.2.2
  rw [hls'] at ha
  injection ha with ha
  subst ha
  have hperm : ls.Perm ls' := (List.perm_ext_iff_of_nodup han han').2 fun l => by
    rw [ham, ham', Dict.mem_keys_iff, Dict.mem_keys_iff, hst]
  have hkp : s.polygons.keys.Perm t.polygons.keys := (List.perm_ext_iff_of_nodup hs.1.nodupP ht.1.nodupP).2 fun l => by
    rw [Dict.mem_keys_iff, Dict.mem_keys_iff, hst]
  have hlen : s.polygons.length = t.polygons.length := by simpa [Dict.keys] using hkp.length_eq
  unfold cmp
  rw [if_neg (by omega), if_neg (by omega)]
  simp only [hls, hls', bind, Except.bind]
  exact cmpLabels_eq hs.1 ht.1 hb hb' hst (fun l => (ham l).2) (fun l => (ham' l).2) ls ls' (fun l => (ham l).1) (fun l => (ham' l).1) hperm.length_eq

/-- Relabeled surfaces have the same codes. -/
theorem Relabeled.code {f : L → L} (h : Relabeled f s t) (hs : GInv s) {ls : List L} (hls : ∀ l, l ∈ ls ↔ l ∈ s.polygons.keys)
    (hb : NoBorder s) : code t (ls.map f) = code s ls := by
  unfold MSurf.code
  rw [List.map_map]
  refine List.map_congr_left fun l hl => ?_
  have hk := (hls l).1 hl
  have hk' := hk
  rw [Dict.mem_keys_iff, Option.isSome_iff_exists] at hk'
  obtain ⟨p, hp⟩ := hk'
  rw [Function.comp]
  unfold rowKey
  rw [polyAt_eq hp, polyAt_eq ((h.polygons l hk).trans hp)]
  congr 2
  refine List.map_congr_left fun e he => ?_
  obtain ⟨c, hc⟩ := hb l p e hp (List.mem_range.1 he)
  have hcm : c.1 ∈ s.polygons.keys := by
    obtain ⟨q, _, h, _⟩ := opp_target hs hc
    rw [Dict.mem_keys_iff, h]; rfl
  rw [h.opp l hk, hc]
  simp only [Option.map_some, Option.getD_some]
  congr 2
  rw [List.findIdx_map]
  have hfun : ∀ x ∈ ls, decide (f x = f c.1) = decide (x = c.1) := fun x hx => by
    rw [decide_eq_decide]
    exact ⟨h.inj x ((hls x).1 hx) c.1 hcm, fun h => by rw [h]⟩
  clear hls hl
  induction ls with
  | nil => rfl
  | cons a ls ih =>
    rw [List.findIdx_cons, List.findIdx_cons, ih fun x hx => hfun x (List.mem_cons_of_mem _ hx)]
    simp only [Function.comp, hfun a (by simp)]

end MSurf
end Flat
