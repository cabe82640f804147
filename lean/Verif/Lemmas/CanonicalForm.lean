import Verif.Lemmas.Canonicalize

/-!
# The root chosen by `canonicalize`
-/

namespace Flat
namespace MSurf
variable {L K : Type} [LinearOrder L] [LabelNum L] [Field K] [LinearOrder K] [IsStrictOrderedRing K]
variable {s t u S : MSurf L (Poly K)}

/-- What the comparison of surfaces sees of the surface listed from `r`. -/
def codeAt (s : MSurf L (Poly K)) (r : L) : List ((ℕ ×ₗ (K ×ₗ List (K ×ₗ K))) ×ₗ List (ℕ ×ₗ ℤ)) :=
  match s.component r with
  | .ok c => code s c
  | .error _ => []

theorem Relabeled.codeAt {f : L → L} (h : Relabeled f s t) (hs : GInv s) (ht : GInv t) (ho : OnePiece s) (hb : NoBorder s) {r : L}
    (hr : r ∈ s.polygons.keys) : t.codeAt (f r) = s.codeAt r := by
  obtain ⟨c, hc, hn, hm⟩ := component_keys hs ho hr
  unfold MSurf.codeAt
  rw [h.component hs ht hr hc, hc]
  exact h.code hs hm hb

theorem relabeled_get_id (h : Relabeled id s t) (l : L) : t.polygons.get l = s.polygons.get l := by
  by_cases hl : l ∈ s.polygons.keys
  · exact h.polygons l hl
  · have h2 : l ∉ t.polygons.keys := by
      rw [h.keys]
      rintro ⟨a, ha, hla⟩
      exact hl (hla ▸ ha)
    rw [Dict.mem_keys_iff, Option.not_isSome_iff_eq_none] at hl h2
    rw [hl, h2]

theorem good_roots (h : Good s) {r : L} (hr : r ∈ s.polygons.keys) : Good { s with roots := [r] } :=
  ⟨h.1.withRoots _, h.2.1, ⟨fun x hx => by rw [List.mem_singleton.1 hx]; exact hr, List.pairwise_singleton _ _⟩⟩

theorem relabeled_set (h : Relabeled id S s) (rs : List L) : Relabeled id S { s with roots := rs } := ⟨h.inj, h.polygons, h.opp, h.keys⟩

theorem exec_setRoots (h : Good s) {r : L} (hr : r ∈ s.polygons.keys) : exec (setRoots [r]) s = .ok { s with roots := [r] } := by
  obtain ⟨a, t, h1, h2⟩ := wp_ok (setRoots_ok h.1 h.2.2 h.2.1 [r] (by simpa using hr) (List.pairwise_singleton _ _))
  rw [exec_ok, h1, h2]

theorem key_id (h : Relabeled id S s) {l : L} : l ∈ s.polygons.keys ↔ l ∈ S.polygons.keys := by
  rw [h.keys]
  exact ⟨by rintro ⟨a, ha, rfl⟩; exact ha, fun hl => ⟨l, hl, rfl⟩⟩

/-- The loop of `canonicalize` finds a root for which the code is maximal. -/
theorem chooseRoot_spec (hS : GInv S) (ho : OnePiece S) (hb : NoBorder S) (labels : List L) (hl : ∀ l ∈ labels, l ∈ S.polygons.keys)
    {ss s : MSurf L (Poly K)} (gss : Good ss) (rss : Relabeled id S ss) (gs : Good s) (rs : Relabeled id S s) {r : L}
    (hr : r ∈ S.polygons.keys) (hroot : s.roots = [r]) :
    ∃ t r', chooseRoot ss s labels = .ok t ∧ Good t ∧ Relabeled id S t ∧ r' ∈ S.polygons.keys ∧ t.roots = [r'] ∧
      S.codeAt r ≤ S.codeAt r' ∧ ∀ l ∈ labels, S.codeAt l ≤ S.codeAt r' := by
  induction labels generalizing ss s r with
  | nil => exact ⟨s, r, rfl, gs, rs, hr, hroot, le_rfl, by simp⟩
  | cons a labels ih =>
    have ha := hl a (by simp)
    have g1 := good_roots gss ((key_id rss).2 ha)
    have r1 := relabeled_set rss [a]
    have e1 := exec_setRoots gss ((key_id rss).2 ha)
    have lab : ∀ {v : MSurf L (Poly K)} {x : L}, Good v → Relabeled id S v → x ∈ S.polygons.keys → v.roots = [x] →
        ∃ c, v.labels = .ok c ∧ code v c = S.codeAt x := by
      intro v x gv rv hx hvx
      obtain ⟨c, hc, hn, hm⟩ := component_keys gv.1 (rv.onePiece hS ho) ((key_id rv).2 hx)
      refine ⟨x :: c, by rw [(labels_rooted gv.1 gv.2.2 (rv.onePiece hS ho) hvx).2, hc], ?_⟩
      rw [← rv.codeAt hS gv.1 ho hb hx]
      unfold MSurf.codeAt
      rw [show id x = x from rfl, hc]
    obtain ⟨c1, l1, k1⟩ := lab g1 r1 ha rfl
    obtain ⟨c2, l2, k2⟩ := lab gs rs hr hroot
    have hcmp := cmp_code g1 gs (r1.noBorder hb) (rs.noBorder hb) (fun l => by rw [relabeled_get_id r1, relabeled_get_id rs]) l1 l2
    rw [k1, k2] at hcmp
    unfold chooseRoot
    simp only [e1, hcmp, bind, Except.bind]
    by_cases hc : S.codeAt r < S.codeAt a
    · rw [if_pos ((sgnCmp_pos _ _).2 hc), exec_setRoots gs ((key_id rs).2 ha)]
      obtain ⟨t, r', h1, h2, h3, h4, h5, h6, h7⟩ := ih (fun l hl' => hl l (by simp [hl'])) g1 r1 (good_roots gs ((key_id rs).2 ha))
        (relabeled_set rs [a]) ha rfl
      refine ⟨t, r', h1, h2, h3, h4, h5, hc.le.trans h6, fun l hl' => ?_⟩
      rcases List.mem_cons.1 hl' with rfl | hl'
      · exact h6
      · exact h7 l hl'
    · rw [if_neg (fun h' => hc ((sgnCmp_pos _ _).1 h'))]
      obtain ⟨t, r', h1, h2, h3, h4, h5, h6, h7⟩ := ih (fun l hl' => hl l (by simp [hl'])) g1 r1 gs rs hr hroot
      refine ⟨t, r', h1, h2, h3, h4, h5, h6, fun l hl' => ?_⟩
      rcases List.mem_cons.1 hl' with rfl | hl'
      · exact (not_lt.1 hc).trans h6
      · exact h7 l hl'

/-- The number of a label in a list. -/
def numAt (ls : List L) (l : L) : L := LabelNum.num (ls.findIdx (fun x => decide (x = l)))

theorem applyRelabeling_zipIdx {ls : List L} {l : L} (hl : l ∈ ls) :
    applyRelabeling (ls.zipIdx.map (fun x => (x.1, LabelNum.num x.2))) l = numAt ls l := by
  have key : ∀ (ls : List L) (k : ℕ), l ∈ ls → Dict.get ((ls.zipIdx k).map (fun x => (x.1, (LabelNum.num x.2 : L)))) l =
      some (LabelNum.num (k + ls.findIdx (fun x => decide (x = l)))) := by
    intro ls
    induction ls with
    | nil => intro k h; simp at h
    | cons a ls ih =>
      intro k h
      rw [List.zipIdx_cons, List.map_cons, List.findIdx_cons]
      by_cases ha : a = l
      · subst ha
        simp [Dict.get]
      · have h' : l ∈ ls := by
          rcases List.mem_cons.1 h with h | h
          · exact absurd h.symm ha
          · exact h
        have := ih (k + 1) h'
        simp only [ha, decide_false, cond_false]
        rw [show k + (ls.findIdx (fun x => decide (x = l)) + 1) = k + 1 + ls.findIdx (fun x => decide (x = l)) by omega, ← this]
        simp [Dict.get, Ne.symm ha, ha]
  unfold applyRelabeling
  rw [key ls 0 hl, Nat.zero_add]
  rfl

/-- The surface `C` is the surface `S` with the labels in order of a listing with maximal code. -/
structure CanonNumbered (S C : MSurf L (Poly K)) (ls : List L) : Prop where
  relabeled : Relabeled (numAt ls) S C
  ginv : GInv C
  rootsOK : RootsOK C
  roots : C.roots = [LabelNum.num 0]
  immutable : C.mutable = false
  listing : ∃ r ∈ S.polygons.keys, S.component r = .ok ls ∧ numAt ls r = LabelNum.num 0
  nodup : ls.Nodup
  mem : ∀ l, l ∈ ls ↔ l ∈ S.polygons.keys
  maximal : ∀ r ∈ S.polygons.keys, S.codeAt r ≤ code S ls

theorem immutable_roots_unique (hs : Good s) (ho : OnePiece s) (ht : exec setImmutable s = .ok t) :
    ∃ r, r ∈ s.polygons.keys ∧ s.rootsList = .ok [r] ∧ t = { s with roots := [r], mutable := false } := by
  obtain ⟨rs, h1, h2⟩ := setImmutable_result hs.2.1 (exec_ok.1 ht)
  obtain ⟨rs', k1, k2, k3, k4⟩ := rootsList_spec hs.1 hs.2.2
  rw [h1] at k1
  injection k1 with k1
  rw [← k1] at k2 k3 k4
  obtain ⟨a, ha⟩ := List.exists_mem_of_ne_nil _ ho.1
  obtain ⟨r, hr, -⟩ := k4 a ha
  match rs, h1, h2, k2, k3, hr with
  | [x], h1, h2, k2, k3, hr => exact ⟨x, k2 x (by simp), h1, h2⟩
  | x :: y :: rs, h1, h2, k2, k3, hr =>
    rw [List.pairwise_cons] at k3
    exact absurd (ho.2 x (k2 x (by simp)) y (k2 y (by simp))) (k3.1 y (by simp))

theorem immutable_ginv (h : GInv s) (rs : List L) (b : Bool) : GInv { s with roots := rs, mutable := b } :=
  ⟨⟨h.nodupP, h.toShape.nodupG, h.toShape.len⟩, h.inv⟩

theorem relabeled_set' {f : L → L} (h : Relabeled f S s) (rs : List L) (b : Bool) : Relabeled f S { s with roots := rs, mutable := b } :=
  ⟨h.inj, h.polygons, h.opp, h.keys⟩

theorem rootsOK_one {r : L} (hr : r ∈ s.polygons.keys) (hs : s.roots = [r]) : RootsOK s :=
  ⟨fun x hx => by rw [hs] at hx; rw [List.mem_singleton.1 hx]; exact hr, by rw [hs]; exact List.pairwise_singleton _ _⟩

/-- The part of `canonicalize` after the polygons have been standardized. -/
theorem canonicalize_tail (hS : GInv S) (ho : OnePiece S) (hb : NoBorder S) {r : L} (hr : r ∈ S.polygons.keys) (hroot : S.roots = [r]) :
    ∃ C ls, (do
      let s ← exec (fromSurface S none) empty
      let ss ← exec (fromSurface s none) empty
      let labels ← ss.labels
      let s ← chooseRoot ss s labels
      let labels ← s.labels
      let s ← exec (relabel (labels.zipIdx.map (fun x => (x.1, LabelNum.num x.2)))) s
      exec setImmutable s) = Except.ok C ∧ CanonNumbered S C ls := by
  have hrS := rootsOK_one hr hroot
  obtain ⟨s, e1⟩ := fromSurface_succeeds hS hrS empty
  obtain ⟨gs, rs, roots⟩ := fromSurface_copy hS hrS e1
  rw [hroot] at roots
  obtain ⟨ss, e2⟩ := fromSurface_succeeds gs.1 gs.2.2 empty
  obtain ⟨gss, rss, -⟩ := fromSurface_copy gs.1 gs.2.2 e2
  have rss' : Relabeled id S ss := rs.trans' rss hS
  obtain ⟨labels, e3, -, hlm⟩ := labels_spec gss.1 gss.2.2
  obtain ⟨t, r', e4, gt, rt, hr', hroot', -, hmax⟩ := chooseRoot_spec hS ho hb labels (fun l hl => (key_id rss').1 ((hlm l).1 hl)) gss rss' gs rs hr roots
  have ot := rt.onePiece hS ho
  obtain ⟨c, hc, hcn, hcm⟩ := component_keys gt.1 ot ((key_id rt).2 hr')
  obtain ⟨hrl, hlab⟩ := labels_rooted gt.1 gt.2.2 ot hroot'
  rw [hc] at hlab
  have happ : ∀ l ∈ t.polygons.keys, applyRelabeling ((r' :: c).zipIdx.map (fun x => (x.1, LabelNum.num x.2))) l = numAt (r' :: c) l :=
    fun l hl => applyRelabeling_zipIdx ((hcm l).2 hl)
  have hinj : ∀ a ∈ t.polygons.keys, ∀ b ∈ t.polygons.keys, numAt (r' :: c) a = numAt (r' :: c) b → a = b := by
    intro a ha b hb' hab
    exact findIdx_inj ((hcm a).2 ha) ((hcm b).2 hb') (LabelNum.num_inj hab)
  obtain ⟨_, u, e5, gu, ru, rs', hrs', -, hru⟩ := wp_ok (relabel_spec gt ((r' :: c).zipIdx.map (fun x => (x.1, LabelNum.num x.2)))
    (fun a ha b hb' hab => hinj a ha b hb' (by rwa [happ a ha, happ b hb'] at hab)))
  rw [hrl] at hrs'
  injection hrs' with hrs'
  subst hrs'
  have ru' : Relabeled (numAt (r' :: c)) t u := by
    refine ⟨hinj, fun l hl => ?_, fun l hl e => ?_, fun m => ?_⟩
    · rw [← happ l hl, ru.polygons l hl]
    · rw [← happ l hl, ru.opp l hl]
      cases hopp : t.opp l e with
      | none => rfl
      | some x =>
        obtain ⟨q, k, hq, -⟩ := opp_target gt.1 hopp
        simp only [Option.map_some]
        rw [happ x.1 (by rw [Dict.mem_keys_iff, hq]; rfl)]
    · rw [ru.keys]
      constructor
      · rintro ⟨l, hl, rfl⟩
        exact ⟨l, hl, happ l hl⟩
      · rintro ⟨l, hl, rfl⟩
        exact ⟨l, hl, (happ l hl).symm⟩
  have ou := ru'.onePiece gt.1 ot
  obtain ⟨_, C, e6, -⟩ := wp_ok (setImmutable_ok gu.1 gu.2.2)
  obtain ⟨x, hx, hxr, rfl⟩ := immutable_roots_unique gu ou (exec_ok.2 e6)
  have hx0 : x = LabelNum.num 0 := by
    rw [hru, List.map_singleton, happ r' ((key_id rt).2 hr')] at hxr
    injection hxr with hxr
    injection hxr with hxr
    rw [← hxr]
    simp [numAt, List.findIdx_cons]
  subst hx0
  have hcS : S.component r' = .ok (r' :: c) := by
    obtain ⟨c', hc', -⟩ := component_keys hS ho hr'
    have := rt.component hS gt.1 hr' hc'
    rw [List.map_id] at this
    rw [hc', ← this]
    exact hc
  refine ⟨_, r' :: c, ?_, ⟨?_, immutable_ginv gu.1 _ _, ?_, rfl, rfl, ⟨r', hr', hcS, by simp [numAt, List.findIdx_cons]⟩, hcn, fun l => (hcm l).trans (key_id rt), fun a ha => ?_⟩⟩
  · simp only [e1, e2, e3, e4, hlab, bind, Except.bind]
    rw [exec_ok.2 e5]
    exact exec_ok.2 e6
  · have := rt.trans' ru' hS
    exact relabeled_set' this _ _
  · exact rootsOK_one (s := { u with roots := [LabelNum.num 0], mutable := false }) hx rfl
  · have := hmax a ((hlm a).2 ((key_id rss').2 ha))
    unfold codeAt at this ⊢
    rw [hcS] at this
    exact this

theorem canonicalize_spec {D C : MSurf L (Poly K)} (hD : GInv D) (hr : RootsOK D) (hv : AllValid D) (ho : OnePiece D) (hb : NoBorder D)
    (h : canonicalize D = .ok C) : ∃ S ls, GInv S ∧ Std D S ∧ CanonNumbered S C ls := by
  unfold canonicalize at h
  cases hS : standardized D with
  | error e => simp only [hS, bind, Except.bind] at h; cases h
  | ok S =>
    unfold standardized at hS
    cases h0 : exec (fromSurface D none) empty with
    | error e => simp only [h0, bind, Except.bind] at hS; cases hS
    | ok D' =>
      obtain ⟨g0, r0, -⟩ := fromSurface_copy hD hr h0
      simp only [h0, bind, Except.bind] at hS
      cases h1 : exec standardizePolygons D' with
      | error e => simp only [h1] at hS; cases hS
      | ok D'' =>
        simp only [h1] at hS
        have hv' : AllValid D' := fun l p hp => hv l p (by rwa [relabeled_get_id r0] at hp)
        obtain ⟨g1, st⟩ := exec_wp (standardizePolygons_spec g0 hv') h1
        have o1 := st.onePiece g0.1 (r0.onePiece hD ho)
        have b1 := st.noBorder g0.1 (r0.noBorder hb)
        obtain ⟨r, hr1, hr2, rfl⟩ := immutable_roots_unique g1 o1 hS
        obtain ⟨C', ls, hC, hN⟩ := canonicalize_tail (S := { D'' with roots := [r], mutable := false }) (immutable_ginv g1.1 _ _)
          ((relabeled_roots D'' _ _).onePiece g1.1 o1) ((relabeled_roots D'' _ _).noBorder b1) hr1 rfl
        have hS' : standardized D = .ok { D'' with roots := [r], mutable := false } := by
          unfold standardized
          simp only [h0, h1, bind, Except.bind]
          exact hS
        rw [hS'] at h
        have : C = C' := by
          have := h.symm.trans hC
          injection this
        subst this
        refine ⟨_, ls, immutable_ginv g1.1 _ _, ⟨fun x => ?_, ?_⟩, hN⟩
        · show D''.polygons.get x = _
          rw [st.polygons, relabeled_get_id r0]
        · intro l p e l' p' e' hp hp' he he' hopp
          have hk : l ∈ D.polygons.keys := by rw [Dict.mem_keys_iff, hp]; rfl
          have hpa : ∀ x, D'.polyAt x = D.polyAt x := by
            intro x
            unfold polyAt
            rw [relabeled_get_id r0]
          refine st.shifted l p e l' p' e' (by rw [relabeled_get_id r0, hp]) (by rw [relabeled_get_id r0, hp']) he he' ?_
          dsimp only
          rw [hpa, hpa]
          have := r0.opp l hk ((e + (D.polyAt l).bestVertex) % p.length)
          rw [hopp] at this
          exact this

end MSurf
end Flat
