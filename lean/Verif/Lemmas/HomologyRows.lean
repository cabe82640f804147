import Verif.Model.HomologyGroup
import Verif.Props.Homology
import Verif.Lemmas.Betti

/-!
# The matrices of the boundary maps of a surface
-/

namespace Flat
namespace RSurf
open Betti Module
variable {L K : Type} [Field K] [LinearOrder K] [IsStrictOrderedRing K] {S : RSurf L K} {valid : L → Prop}

/-- Any two polygons are joined by a chain of glued edges. -/
def Joined (S : RSurf L K) (valid : L → Prop) : Prop :=
  ∀ a b, valid a → valid b → Relation.EqvGen (fun a b => ∃ e e', S.IsDart valid (a, e) ∧ S.opp a e = .ok (some (b, e'))) a b

variable [DecidableEq L] {R : Type} [CommRing R]

/-- The position in a list without repetitions. -/
def pick {D : Type} [DecidableEq D] (l : List D) (x : D) : Option (Fin l.length) :=
  if h : x ∈ l then some ⟨l.idxOf x, List.idxOf_lt_length_iff.2 h⟩ else none

theorem pick_eq {D : Type} [DecidableEq D] {l : List D} (hn : l.Nodup) (x : D) (j : Fin l.length) : pick l x = some j ↔ x = l[j] := by
  unfold pick
  split_ifs with h
  · rw [Option.some_inj]
    constructor
    · rintro rfl
      simp
    · rintro rfl
      ext
      simp [hn.idxOf_getElem]
  · constructor
    · intro h'; cases h'
    · rintro rfl
      exact absurd (List.getElem_mem _) h

theorem pick_mem {D : Type} [DecidableEq D] {l : List D} {x : D} (h : x ∈ l) : ∃ j, pick l x = some j := by
  unfold pick
  rw [dif_pos h]
  exact ⟨_, rfl⟩

theorem pick_none {D : Type} [DecidableEq D] {l : List D} {x : D} (h : x ∉ l) : pick l x = none := dif_neg h

theorem toC0_pick {rel : Finset (Finset (L × Vec K))} {vx : List (Finset (L × Vec K))} (hn : vx.Nodup) (hrel : ∀ x ∈ vx, x ∉ rel) {x : Finset (L × Vec K)}
    (j : Fin vx.length) : toC0 rel x (1 : R) vx[j] = ind R (pick vx x) j := by
  unfold ind
  by_cases h : pick vx x = some j
  · rw [if_pos h]
    have := (pick_eq hn x j).1 h
    have hx : x ∉ rel := by rw [this]; exact hrel _ (List.getElem_mem _)
    unfold toC0
    rw [if_neg hx, this, Pi.single_eq_same]
  · rw [if_neg h]
    unfold toC0
    split_ifs
    · rfl
    · rw [Pi.single_eq_of_ne]
      intro h'
      exact h ((pick_eq hn x j).2 h'.symm)

theorem rowMap_eq {M : List (List R)} {n m : ℕ} {A : Matrix (Fin n) (Fin m) R} (h : ∀ (i : Fin n) (j : Fin m), (M.getD i []).getD j 0 = A i j) : rowMap M n m = A.vecMulLinear := by
  unfold rowMap
  congr 1
  ext i j
  exact h i j

theorem rowMap_apply (M : List (List R)) (n m : ℕ) (x : Fin n → R) (j : Fin m) : rowMap M n m x j = ∑ i : Fin n, x i * (M.getD i []).getD j 0 := rfl

theorem rowMap_single (M : List (List R)) (n m : ℕ) (k : Fin n) (r : R) (j : Fin m) : rowMap M n m (Pi.single k r) j = r * (M.getD k []).getD j 0 := by
  rw [rowMap_apply, Finset.sum_eq_single k]
  · rw [Pi.single_eq_same]
  · intro i _ h
    rw [Pi.single_eq_of_ne h, zero_mul]
  · simp

theorem getD_map_map {A B : Type} (sx : List A) (vx : List B) (f : A → B → R) (i : Fin sx.length) (j : Fin vx.length) :
    (((sx.map fun d => vx.map (f d)).getD i []).getD j 0) = f sx[i] vx[j] := by
  simp [List.getD_eq_getElem?_getD]

/-- The rows of the boundary in degree 1. -/
theorem chainRows1_eq (hS : S.Closed valid) {fuel : ℕ} (rel : Finset (Finset (L × Vec K))) {V : L × ℕ → Finset (L × Vec K)}
    (hV : ∀ d, S.IsDart valid d → S.surfaceVertex fuel d = .ok (V d)) {sx : List (L × ℕ)} (hsx : ∀ d ∈ sx, S.IsDart valid d) (vx : List (Finset (L × Vec K))) :
    S.chainRows1 R fuel rel sx vx = .ok (sx.map fun d => vx.map (S.edgeBoundary rel V d 1)) := by
  unfold chainRows1
  induction sx with
  | nil => rfl
  | cons d sx ih =>
    rw [List.mapM_cons, ih fun d hd => hsx d (List.mem_cons_of_mem _ hd), boundary1_eq hS rel hV _ (by simpa using hsx d List.mem_cons_self)]
    simp only [bind, Except.bind, pure, Except.pure, List.map_cons, List.map_nil, List.sum_cons, List.sum_nil, add_zero]

theorem rowMap1 {rel : Finset (Finset (L × Vec K))} {V : L × ℕ → Finset (L × Vec K)} {sx : List (L × ℕ)} {vx : List (Finset (L × Vec K))} (hn : vx.Nodup)
    (hrel : ∀ x ∈ vx, x ∉ rel) :
    rowMap (sx.map fun d => vx.map (S.edgeBoundary rel V d (1 : R))) sx.length vx.length =
      (Betti.edgeMatrix R (fun i : Fin sx.length => pick vx (V sx[i])) (fun i : Fin sx.length => pick vx (V (S.oppF sx[i])))).vecMulLinear := by
  apply rowMap_eq
  intro i j
  rw [getD_map_map]
  unfold Betti.edgeMatrix edgeBoundary
  rw [Matrix.of_apply, Pi.sub_apply, Pi.sub_apply, toC0_pick hn hrel, toC0_pick hn hrel]

/-- The contribution of an edge to the boundary of its polygon. -/
def faceF (S : RSurf L K) (sx : List (L × ℕ)) (d c : L × ℕ) : R :=
  if d ∈ sx then (if d = c then 1 else 0) else if S.oppF d = c then -1 else 0

theorem faceLoop_eq (hS : S.Closed valid) {sx : List (L × ℕ)} {ds : List (L × ℕ)} (hds : ∀ d ∈ ds, S.IsDart valid d) :
    ∃ f, S.faceLoop sx (1 : R) ds = .ok f ∧ ∀ c, f c = (ds.map fun d => S.faceF sx d c).sum := by
  induction ds with
  | nil => exact ⟨0, rfl, fun c => rfl⟩
  | cons d ds ih =>
    obtain ⟨g, hg, hgs⟩ := ih fun d hd => hds d (List.mem_cons_of_mem _ hd)
    have hd := hds d List.mem_cons_self
    have : ∃ f, S.faceEdge sx (1 : R) d = .ok f ∧ ∀ c, f c = S.faceF sx d c := by
      unfold faceEdge faceF
      by_cases hin : d ∈ sx
      · refine ⟨_, if_pos hin, fun c => ?_⟩
        rw [if_pos hin]
        by_cases h : d = c
        · subst h; simp
        · rw [if_neg h, Pi.single_eq_of_ne (Ne.symm h)]
      · refine ⟨-Pi.single (S.oppF d) 1, by rw [if_neg hin]; simp only [hS.opp!_oppF hd, bind, Except.bind, pure, Except.pure], fun c => ?_⟩
        rw [if_neg hin, Pi.neg_apply]
        by_cases h : S.oppF d = c
        · subst h; simp
        · rw [if_neg h, Pi.single_eq_of_ne (Ne.symm h), neg_zero]
    obtain ⟨f, hf, hfs⟩ := this
    refine ⟨f + g, by rw [faceLoop]; simp only [hf, hg, bind, Except.bind, pure, Except.pure], fun c => ?_⟩
    rw [Pi.add_apply, hfs, hgs, List.map_cons, List.sum_cons]

theorem sum_indicator {D : Type} [DecidableEq D] {ds : List D} (hn : ds.Nodup) (c : D) (r : R) :
    (ds.map fun d => if d = c then r else 0).sum = if c ∈ ds then r else 0 := by
  induction ds with
  | nil => simp
  | cons d ds ih =>
    obtain ⟨h1, h2⟩ := List.nodup_cons.1 hn
    rw [List.map_cons, List.sum_cons, ih h2]
    by_cases h : d = c
    · subst h
      simp [h1]
    · simp [h, Ne.symm h]

/-- The coefficient of an edge in the boundary of a polygon. -/
theorem face_coefficient (hS : S.Closed valid) {sx : List (L × ℕ)} (hsx2 : ∀ d, S.IsDart valid d → d ∈ sx ∨ S.oppF d ∈ sx)
    (hsx3 : ∀ d ∈ sx, S.oppF d ∈ sx → S.oppF d = d) {l : L} {p : Poly K} (hl : valid l) (hp : S.polygon l = .ok p) {c : L × ℕ} (hc : c ∈ sx)
    (hcd : S.IsDart valid c) :
    (((List.range p.length).map fun e => (l, e)).map fun d => S.faceF sx d c).sum =
      (if c.1 = l then (1 : R) else 0) - (if S.oppF c ≠ c ∧ (S.oppF c).1 = l then 1 else 0) := by
  have hmem : ∀ d, S.IsDart valid d → (d ∈ (List.range p.length).map (fun e => (l, e)) ↔ d.1 = l) := by
    rintro ⟨l', e⟩ ⟨-, q, hq, he⟩
    dsimp only at hq he ⊢
    constructor
    · intro h
      obtain ⟨e', -, h⟩ := List.mem_map.1 h
      exact (Prod.mk.inj h).1.symm
    · rintro rfl
      rw [hp] at hq
      injection hq with hq
      subst hq
      exact List.mem_map.2 ⟨e, List.mem_range.2 he, rfl⟩
  have hdart : ∀ d ∈ (List.range p.length).map (fun e => (l, e)), S.IsDart valid d := by
    intro d hd
    obtain ⟨e, he, rfl⟩ := List.mem_map.1 hd
    exact ⟨hl, p, hp, List.mem_range.1 he⟩
  have hnd : ((List.range p.length).map fun e => (l, e)).Nodup := List.nodup_range.map fun a b h => (Prod.mk.inj h).2
  have ho := hS.oppF_dart hcd
  have hsplit : ∀ d ∈ (List.range p.length).map (fun e => (l, e)), (S.faceF sx d c : R) =
      (if d = c then 1 else 0) + (if d = S.oppF c then (if S.oppF c ≠ c then -1 else 0) else 0) := by
    intro d hd
    have hdd := hdart d hd
    unfold faceF
    by_cases h1 : d ∈ sx
    · rw [if_pos h1]
      by_cases h2 : d = S.oppF c
      · rw [if_pos h2]
        have : S.oppF c = c := hsx3 c hc (h2 ▸ h1)
        rw [if_neg (not_not.2 this), add_zero]
      · rw [if_neg h2, add_zero]
    · rw [if_neg h1]
      have h3 : d ≠ c := fun h => h1 (h ▸ hc)
      rw [if_neg h3, zero_add]
      by_cases h2 : d = S.oppF c
      · rw [if_pos h2, if_pos (by rw [h2]; exact hS.oppF_oppF hcd), if_pos (h2 ▸ h3)]
      · rw [if_neg h2, if_neg]
        intro h4
        apply h2
        rw [← h4, hS.oppF_oppF hdd]
  rw [List.map_congr_left hsplit, List.sum_map_add, sum_indicator hnd, sum_indicator hnd]
  simp only [hmem c hcd, hmem _ ho]
  generalize (if c.1 = l then (1 : R) else 0) = q
  by_cases h1 : (S.oppF c).1 = l
  · by_cases h2 : S.oppF c ≠ c
    · rw [if_pos h1, if_pos h2, if_pos (And.intro h2 h1), sub_eq_add_neg]
    · rw [if_pos h1, if_neg h2, if_neg (fun h => h2 h.1), sub_zero, add_zero]
  · rw [if_neg h1, if_neg (fun h => h1 h.2), sub_zero, add_zero]

theorem chainRows2_eq (hS : S.Closed valid) {sx : List (L × ℕ)} (hsx : ∀ d ∈ sx, S.IsDart valid d) (hsx2 : ∀ d, S.IsDart valid d → d ∈ sx ∨ S.oppF d ∈ sx)
    (hsx3 : ∀ d ∈ sx, S.oppF d ∈ sx → S.oppF d = d) {ls : List L} (hls : ∀ l ∈ ls, valid l) :
    S.chainRows2 R ls sx = .ok (ls.map fun l => sx.map fun c => (if c.1 = l then (1 : R) else 0) - (if S.oppF c ≠ c ∧ (S.oppF c).1 = l then 1 else 0)) := by
  unfold chainRows2
  induction ls with
  | nil => rfl
  | cons l ls ih =>
    have hl := hls l List.mem_cons_self
    obtain ⟨p, hp, -⟩ := hS.poly l hl
    obtain ⟨f, hf, hfs⟩ := faceLoop_eq (R := R) hS (sx := sx) (ds := (List.range p.length).map fun e => (l, e)) (by
      intro d hd
      obtain ⟨e, he, rfl⟩ := List.mem_map.1 hd
      exact ⟨hl, p, hp, List.mem_range.1 he⟩)
    have hb : S.boundary2 sx [(l, (1 : R))] = .ok f := by
      rw [boundary2, edgesAt_ok hp]
      simp only [bind, Except.bind, hf, boundary2, pure, Except.pure, add_zero]
    rw [List.mapM_cons, ih fun l h => hls l (List.mem_cons_of_mem _ h), hb]
    simp only [bind, Except.bind, pure, Except.pure, List.map_cons]
    congr 2
    apply List.map_congr_left
    intro c hc
    rw [hfs, face_coefficient hS hsx2 hsx3 hl hp hc (hsx c hc)]

/-- The polygon on the other side of an edge; there is none if the edge is glued to itself. -/
def other (S : RSurf L K) (ls : List L) (c : L × ℕ) : Option (Fin ls.length) := if S.oppF c = c then none else pick ls (S.oppF c).1

theorem rowMap2 {sx : List (L × ℕ)} {ls : List L} (hn : ls.Nodup) {a : Fin sx.length → Fin ls.length} (ha : ∀ i, ls[a i] = sx[i].1) :
    rowMap (ls.map fun l => sx.map fun c => (if c.1 = l then (1 : R) else 0) - (if S.oppF c ≠ c ∧ (S.oppF c).1 = l then 1 else 0)) ls.length sx.length =
      (faceMatrix R a (fun i => S.other ls sx[i])).vecMulLinear := by
  apply rowMap_eq
  intro k i
  rw [getD_map_map]
  unfold faceMatrix ind
  rw [Matrix.of_apply]
  congr 1
  · have : some (a i) = some k ↔ sx[i].1 = ls[k] := by
      rw [Option.some_inj, ← ha]
      constructor
      · intro h; simp [h]
      · intro h
        ext
        exact (hn.getElem_inj_iff).1 h
    simp only [this]
  · have : S.other ls sx[i] = some k ↔ S.oppF sx[i] ≠ sx[i] ∧ (S.oppF sx[i]).1 = ls[k] := by
      unfold other
      by_cases h : S.oppF sx[i] = sx[i]
      · rw [if_pos h]
        exact ⟨(fun h' => by cases h'), fun h' => absurd h h'.1⟩
      · rw [if_neg h, pick_eq hn]
        exact ⟨fun h' => ⟨h, h'⟩, fun h' => h'.2⟩
    simp only [this]

/-- The boundary of a boundary, as matrices. -/
theorem rows_comp (hS : S.Closed valid) {fuel : ℕ} (rel : Finset (Finset (L × Vec K))) {V : L × ℕ → Finset (L × Vec K)}
    (hV : ∀ d, S.IsDart valid d → S.surfaceVertex fuel d = .ok (V d)) {sx : List (L × ℕ)} (hn : sx.Nodup) (hsx : ∀ d ∈ sx, S.IsDart valid d)
    (hsx2 : ∀ d, S.IsDart valid d → d ∈ sx ∨ S.oppF d ∈ sx) (hsx3 : ∀ d ∈ sx, S.oppF d ∈ sx → S.oppF d = d) {ls : List L} (hls : ∀ l ∈ ls, valid l)
    (vx : List (Finset (L × Vec K))) :
    rowMap (sx.map fun d => vx.map (S.edgeBoundary rel V d (1 : R))) sx.length vx.length ∘ₗ
      rowMap (ls.map fun l => sx.map fun c => (if c.1 = l then (1 : R) else 0) - (if S.oppF c ≠ c ∧ (S.oppF c).1 = l then 1 else 0)) ls.length sx.length = 0 := by
  apply LinearMap.pi_ext
  intro k r
  obtain ⟨f, hf, hfs⟩ := faceBoundary_zero (R := R) hS rel hV hn hsx2 [(ls[k], 1)] (by simpa using hls _ (List.getElem_mem _))
  have hco : ∀ c ∈ sx, f c = (if c.1 = ls[k] then (1 : R) else 0) - (if S.oppF c ≠ c ∧ (S.oppF c).1 = ls[k] then 1 else 0) := by
    have h := chainRows2_eq (R := R) hS hsx hsx2 hsx3 (ls := [ls[k]]) (by simpa using hls _ (List.getElem_mem _))
    unfold chainRows2 at h
    simp only [List.mapM_cons, hf, bind, Except.bind, pure, Except.pure, List.mapM_nil, List.map_cons, List.map_nil] at h
    injection h with h
    injection h with h
    exact List.map_inj_left.1 h
  funext j
  rw [LinearMap.comp_apply, LinearMap.zero_apply, Pi.zero_apply, rowMap_apply]
  simp only [rowMap_single, getD_map_map]
  have h2 : ∀ i : Fin sx.length, r * ((if sx[i].1 = ls[k] then (1 : R) else 0) - (if S.oppF sx[i] ≠ sx[i] ∧ (S.oppF sx[i]).1 = ls[k] then 1 else 0)) *
      S.edgeBoundary rel V sx[i] 1 vx[j] = r * S.edgeBoundary rel V sx[i] (f sx[i]) vx[j] := by
    intro i
    rw [← hco sx[i] (List.getElem_mem i.2)]
    have := edgeBoundary_smul (S := S) rel V sx[i] (f sx[i]) 1
    rw [mul_one] at this
    rw [this, Pi.smul_apply, smul_eq_mul, mul_assoc]
  rw [Finset.sum_congr rfl fun i _ => h2 i, ← Finset.mul_sum]
  have h3 := congrFun hfs vx[j]
  rw [← Fin.sum_univ_fun_getElem, Finset.sum_apply] at h3
  have h4 : ∑ i : Fin sx.length, S.edgeBoundary rel V sx[i] (f sx[i]) vx[j] = 0 := h3
  rw [h4, mul_zero]

theorem mapM_ok_map {A B : Type} {f : A → Except Err B} {g : A → B} {l : List A} (h : ∀ a ∈ l, f a = .ok (g a)) : l.mapM f = .ok (l.map g) := by
  induction l with
  | nil => rfl
  | cons a l ih =>
    rw [List.mapM_cons, h a List.mem_cons_self, ih fun b hb => h b (List.mem_cons_of_mem _ hb)]
    rfl

omit [DecidableEq L] in
theorem card_of_nodup {D : Type} {l : List D} (hn : l.Nodup) {P : D → Prop} (h : ∀ x, x ∈ l ↔ P x) : Nat.card {x // P x} = l.length := by
  classical
  rw [Nat.subtype_card l.toFinset (by simp [h]), List.toFinset_card_of_nodup hn]

/-- The vertices of the surface. -/
theorem vertices_spec (hS : S.Closed valid) {ls : List L} {es : List (L × ℕ)} (he : S.edges ls = .ok es) (hes : ∀ d, d ∈ es ↔ S.IsDart valid d) {fuel : ℕ}
    {V : L × ℕ → Finset (L × Vec K)} (hV : ∀ d, S.IsDart valid d → S.surfaceVertex fuel d = .ok (V d)) :
    ∃ vs, S.vertices fuel ls = .ok vs ∧ vs.Nodup ∧ (∀ x, x ∈ vs ↔ ∃ d, S.IsDart valid d ∧ V d = x) ∧
      vs.length = Nat.card (Quotient (S.vertexSetoid valid)) := by
  have hmem : ∀ x, x ∈ (es.map V).dedup ↔ ∃ d, S.IsDart valid d ∧ V d = x := by
    intro x
    rw [List.mem_dedup, List.mem_map]
    simp only [hes]
  refine ⟨(es.map V).dedup, ?_, List.nodup_dedup _, hmem, ?_⟩
  · unfold vertices
    rw [he]
    simp only [bind, Except.bind, mapM_ok_map fun d hd => hV d ((hes d).1 hd), pure, Except.pure]
  · rw [← card_of_nodup (List.nodup_dedup _) hmem]
    refine Nat.card_congr (Equiv.ofBijective (Quotient.lift (fun d : {d // S.IsDart valid d} => ⟨V d.1, d.1, d.2, rfl⟩) ?_) ⟨?_, ?_⟩).symm
    · intro a b h
      exact Subtype.ext ((surfaceVertex_eq_iff hS.bordered a.2 b.2 (hV _ a.2) (hV _ b.2)).2 h)
    · intro a b
      refine Quotient.inductionOn₂ a b fun a b h => Quotient.sound ?_
      have h : (⟨V a.1, a.1, a.2, rfl⟩ : {x // ∃ d, S.IsDart valid d ∧ V d = x}) = ⟨V b.1, b.1, b.2, rfl⟩ := h
      exact (surfaceVertex_eq_iff hS.bordered a.2 b.2 (hV _ a.2) (hV _ b.2)).1 (Subtype.mk.inj h)
    · rintro ⟨x, d, hd, rfl⟩
      exact ⟨Quotient.mk _ ⟨d, hd⟩, rfl⟩

/-- The simplices of degree 1 are the edges up to gluing. -/
theorem simplices1_card (hS : S.Closed valid) {sx : List (L × ℕ)} (hn : sx.Nodup) (hsx : ∀ d ∈ sx, S.IsDart valid d)
    (hsx2 : ∀ d, S.IsDart valid d → d ∈ sx ∨ S.oppF d ∈ sx) (hsx3 : ∀ d ∈ sx, S.oppF d ∈ sx → S.oppF d = d) :
    sx.length = Nat.card (Quotient (edgeSetoid hS.bordered)) := by
  rw [← card_of_nodup hn fun x => Iff.rfl]
  refine Nat.card_congr (Equiv.ofBijective (fun d : {d // d ∈ sx} => Quotient.mk (edgeSetoid hS.bordered) ⟨d.1, hsx d.1 d.2⟩) ⟨?_, ?_⟩)
  · intro a b h
    have h := Quotient.exact h
    rcases h with h | h
    · exact Subtype.ext (Subtype.mk.inj h)
    · have h : S.opp a.1.1 a.1.2 = .ok (some b.1) := h
      rw [hS.opp_oppF (hsx a.1 a.2)] at h
      injection h with h
      injection h with h
      have := hsx3 a.1 a.2 (h ▸ b.2)
      exact Subtype.ext (this.symm.trans h)
  · intro q
    refine Quotient.inductionOn q fun d => ?_
    rcases hsx2 d.1 d.2 with h | h
    · exact ⟨⟨d.1, h⟩, rfl⟩
    · refine ⟨⟨S.oppF d.1, h⟩, Quotient.sound (.inr ?_)⟩
      show S.opp (S.oppF d.1).1 (S.oppF d.1).2 = .ok (some d.1)
      rw [hS.opp_oppF (hS.oppF_dart d.2), hS.oppF_oppF d.2]

/-- Polygons that are joined are joined by simplices. -/
theorem adjacent_all (hS : S.Closed valid) (hc : S.Joined valid) {ls : List L} (hn : ls.Nodup) (hls : ∀ l, l ∈ ls ↔ valid l) {sx : List (L × ℕ)}
    (hsx : ∀ d ∈ sx, S.IsDart valid d) (hsx2 : ∀ d, S.IsDart valid d → d ∈ sx ∨ S.oppF d ∈ sx) {a : Fin sx.length → Fin ls.length}
    (ha : ∀ i, ls[a i] = sx[i].1) (f f' : Fin ls.length) : Adjacent a (fun i => S.other ls sx[i]) f f' := by
  have key : ∀ x y : L, Relation.EqvGen (fun a b => ∃ e e', S.IsDart valid (a, e) ∧ S.opp a e = .ok (some (b, e'))) x y →
      (x ∈ ls ↔ y ∈ ls) ∧ ∀ f f' : Fin ls.length, ls[f] = x → ls[f'] = y → Adjacent a (fun i => S.other ls sx[i]) f f' := by
    intro x y h
    induction h with
    | rel x y h =>
      obtain ⟨e, e', hd, ho⟩ := h
      have ho' : S.oppF (x, e) = (y, e') := by
        have := hS.opp_oppF hd
        rw [ho] at this
        injection this with this
        injection this with this
        exact this.symm
      have hd' : S.IsDart valid (y, e') := ho' ▸ hS.oppF_dart hd
      refine ⟨⟨fun _ => (hls _).2 hd'.1, fun _ => (hls _).2 hd.1⟩, ?_⟩
      intro f f' hf hf'
      by_cases hxy : f = f'
      · rw [hxy]; exact .refl _
      have hne : x ≠ y := by
        rintro rfl
        apply hxy
        ext
        exact (hn.getElem_inj_iff).1 (hf.trans hf'.symm)
      have hne' : S.oppF (x, e) ≠ (x, e) := by
        rw [ho']
        intro h
        exact hne (Prod.mk.inj h).1.symm
      have hba : S.oppF (y, e') = (x, e) := by rw [← ho']; exact hS.oppF_oppF hd
      rcases hsx2 _ hd with h | h
      · obtain ⟨i, hi, hie⟩ := List.getElem_of_mem h
        refine .rel _ _ ⟨⟨i, hi⟩, ?_, ?_⟩
        · ext
          refine (hn.getElem_inj_iff (hi := (a ⟨i, hi⟩).2) (hj := f.2)).1 ?_
          show ls[a ⟨i, hi⟩] = ls[f]
          rw [ha, hf]
          show sx[i].1 = x
          rw [hie]
        · show S.other ls sx[i] = some f'
          rw [hie]
          unfold other
          rw [if_neg hne', ho', pick_eq hn]
          exact hf'.symm
      · rw [ho'] at h
        obtain ⟨i, hi, hie⟩ := List.getElem_of_mem h
        refine .symm _ _ (.rel _ _ ⟨⟨i, hi⟩, ?_, ?_⟩)
        · ext
          refine (hn.getElem_inj_iff (hi := (a ⟨i, hi⟩).2) (hj := f'.2)).1 ?_
          show ls[a ⟨i, hi⟩] = ls[f']
          rw [ha, hf']
          show sx[i].1 = y
          rw [hie]
        · show S.other ls sx[i] = some f
          rw [hie]
          unfold other
          rw [if_neg, hba, pick_eq hn]
          · exact hf.symm
          · rw [hba]
            intro h
            exact hne (Prod.mk.inj h).1
    | refl x =>
      refine ⟨Iff.rfl, fun f f' hf hf' => ?_⟩
      have : f = f' := by
        ext
        exact (hn.getElem_inj_iff).1 (hf.trans hf'.symm)
      rw [this]
      exact .refl _
    | symm x y _ ih => exact ⟨ih.1.symm, fun f f' hf hf' => .symm _ _ (ih.2 f' f hf' hf)⟩
    | trans x y z _ _ ih1 ih2 =>
      refine ⟨ih1.1.trans ih2.1, fun f f' hf hf' => ?_⟩
      have hy : y ∈ ls := ih1.1.1 (hf ▸ List.getElem_mem _)
      obtain ⟨m, hm, hme⟩ := List.getElem_of_mem hy
      exact .trans _ _ _ (ih1.2 f ⟨m, hm⟩ hf hme) (ih2.2 ⟨m, hm⟩ f' hme hf')
  exact (key ls[f] ls[f'] (hc _ _ ((hls _).1 (List.getElem_mem _)) ((hls _).1 (List.getElem_mem _)))).2 f f' rfl rfl

omit [DecidableEq L] in
theorem joined_valid (hS : S.Closed valid) {x y : L} (h : Relation.EqvGen (fun a b => ∃ e e', S.IsDart valid (a, e) ∧ S.opp a e = .ok (some (b, e'))) x y) :
    valid x ↔ valid y := by
  induction h with
  | rel x y h =>
    obtain ⟨e, e', hd, ho⟩ := h
    obtain ⟨hl, p, hp, he⟩ := id hd
    obtain ⟨l', e'', p', ho', hl', -⟩ := hS.glue _ p _ hl hp he
    have ho' : S.opp x e = .ok (some (l', e'')) := ho'
    rw [ho] at ho'
    injection ho' with ho'
    injection ho' with ho'
    obtain ⟨rfl, rfl⟩ := Prod.mk.inj ho'
    exact ⟨fun _ => hl', fun _ => hl⟩
  | refl x => exact Iff.rfl
  | symm x y _ ih => exact ih.symm
  | trans x y z _ _ ih1 ih2 => exact ih1.trans ih2

omit [DecidableEq L] in
/-- On a connected surface all edges are equivalent if edges are equivalent to their opposites and to the next edges of their polygons. -/
theorem joined_all (hS : S.Closed valid) (hc : S.Joined valid) {Q : L × ℕ → L × ℕ → Prop} (hQ : Equivalence Q)
    (h1 : ∀ d, S.IsDart valid d → Q d (S.oppF d)) (h2 : ∀ d, S.IsDart valid d → Q d (S.nextF d)) {d d' : L × ℕ} (hd : S.IsDart valid d)
    (hd' : S.IsDart valid d') : Q d d' := by
  -- edges of the same polygon
  have h3 : ∀ l p, valid l → S.polygon l = .ok p → ∀ e, e < p.length → Q (l, 0) (l, e) := by
    intro l p hl hp e
    induction e with
    | zero => intro _; exact hQ.refl _
    | succ e ih =>
      intro he
      refine hQ.trans (ih (by omega)) ?_
      have := h2 (l, e) ⟨hl, p, hp, by dsimp only; omega⟩
      unfold nextF at this
      rwa [sides_eq hp, Nat.mod_eq_of_lt he] at this
  have h4 : ∀ d d' : L × ℕ, S.IsDart valid d → S.IsDart valid d' → d.1 = d'.1 → Q d d' := by
    rintro ⟨l, e⟩ ⟨l', e'⟩ ⟨hl, p, hp, he⟩ ⟨-, q, hq, he'⟩ h
    dsimp only at h hl hp he hq he'
    subst h
    rw [hp] at hq
    injection hq with hq
    subst hq
    exact hQ.trans (hQ.symm (h3 l p hl hp e he)) (h3 l p hl hp e' he')
  have h5 : ∀ x y, Relation.EqvGen (fun a b => ∃ e e', S.IsDart valid (a, e) ∧ S.opp a e = .ok (some (b, e'))) x y →
      ∀ d d' : L × ℕ, S.IsDart valid d → S.IsDart valid d' → d.1 = x → d'.1 = y → Q d d' := by
    intro x y h
    induction h with
    | rel x y h =>
      rintro d d' hd hd' rfl rfl
      obtain ⟨e, e', hde, ho⟩ := h
      have ho' : S.oppF (d.1, e) = (d'.1, e') := by
        have := hS.opp_oppF hde
        rw [ho] at this
        injection this with this
        injection this with this
        exact this.symm
      have h6 := h1 _ hde
      rw [ho'] at h6
      exact hQ.trans (h4 d _ hd hde rfl) (hQ.trans h6 (h4 _ d' (ho' ▸ hS.oppF_dart hde) hd' rfl))
    | refl x => rintro d d' hd hd' rfl h; exact h4 d d' hd hd' h.symm
    | symm x y _ ih => exact fun d d' hd hd' h h' => hQ.symm (ih d' d hd' hd h' h)
    | trans x y z hxy _ ih1 ih2 =>
      rintro d d' hd hd' rfl rfl
      have hy : valid y := (joined_valid hS hxy).1 hd.1
      obtain ⟨p, hp, hv⟩ := hS.poly y hy
      have := hv.len3
      have hy0 : S.IsDart valid (y, 0) := ⟨hy, p, hp, by dsimp only; omega⟩
      exact hQ.trans (ih1 d (y, 0) hd hy0 rfl rfl) (ih2 (y, 0) d' hy0 hd' rfl rfl)
  exact h5 _ _ (hc _ _ hd.1 hd'.1) d d' hd hd' rfl rfl

/-- The vertices of a connected surface are joined by simplices. -/
theorem linked_all (hS : S.Closed valid) (hc : S.Joined valid) {fuel : ℕ} {V : L × ℕ → Finset (L × Vec K)}
    (hV : ∀ d, S.IsDart valid d → S.surfaceVertex fuel d = .ok (V d)) {sx : List (L × ℕ)}
    (hsx2 : ∀ d, S.IsDart valid d → d ∈ sx ∨ S.oppF d ∈ sx) (vx : List (Finset (L × Vec K))) {d d' : L × ℕ}
    (hd : S.IsDart valid d) (hd' : S.IsDart valid d') :
    Linked (fun i : Fin sx.length => pick vx (V sx[i])) (fun i => pick vx (V (S.oppF sx[i]))) (pick vx (V d)) (pick vx (V d')) := by
  set Q := Linked (fun i : Fin sx.length => pick vx (V sx[i])) (fun i => pick vx (V (S.oppF sx[i]))) with hQ
  -- an edge joins its ends
  have h1 : ∀ d, S.IsDart valid d → Q (pick vx (V d)) (pick vx (V (S.oppF d))) := by
    intro d hd
    rcases hsx2 d hd with h | h
    · obtain ⟨i, hi, hie⟩ := List.getElem_of_mem h
      subst hie
      exact .rel _ _ ⟨⟨i, hi⟩, rfl, rfl⟩
    · obtain ⟨i, hi, hie⟩ := List.getElem_of_mem h
      refine .symm _ _ (.rel _ _ ⟨⟨i, hi⟩, ?_, ?_⟩)
      · show pick vx (V sx[i]) = _
        rw [hie]
      · show pick vx (V (S.oppF sx[i])) = _
        rw [hie, hS.oppF_oppF hd]
  have hsame : ∀ a b, S.IsDart valid a → S.SameVertex valid a b → V a = V b := by
    intro a b ha h
    have hb := (sameVertex_valid h).1 ha
    exact (surfaceVertex_eq_iff hS.bordered ha hb (hV _ ha) (hV _ hb)).2 h
  -- consecutive edges of a polygon
  have h2 : ∀ d, S.IsDart valid d → Q (pick vx (V d)) (pick vx (V (S.nextF d))) := by
    intro d hd
    have := h1 d hd
    rwa [hsame _ _ (hS.oppF_dart hd) (hS.sameVertex_next hd)] at this
  exact joined_all hS hc (Q := fun a b => Q (pick vx (V a)) (pick vx (V b))) ⟨fun _ => .refl _, fun h => .symm _ _ h, fun h h' => .trans _ _ _ h h'⟩ h1 h2
    hd hd'

/-- Everything about the matrices of the boundary maps. -/
theorem chain_complex (hS : S.Closed valid) (hc : S.Joined valid) {ls : List L} (hn : ls.Nodup) (hls : ∀ l, l ∈ ls ↔ valid l) (hne : ls ≠ [])
    {es : List (L × ℕ)} (he : S.edges ls = .ok es) {fuel : ℕ} (hf : es.length + 1 < fuel) (rel : Finset (Finset (L × Vec K)))
    (hrel : ∀ x ∈ rel, ∃ d, S.IsDart valid d ∧ S.surfaceVertex fuel d = .ok x) (R : Type) [CommRing R] [IsDomain R] [IsPrincipalIdealRing R] :
    ∃ (vx : List (Finset (L × Vec K))) (sx : List (L × ℕ)) (M1 M2 : List (List R)), S.simplices0 fuel rel ls = .ok vx ∧ S.simplices1 ls = .ok sx ∧
      S.chainRows1 R fuel rel sx vx = .ok M1 ∧ S.chainRows2 R ls sx = .ok M2 ∧
      rowMap M1 sx.length vx.length ∘ₗ rowMap M2 ls.length sx.length = 0 ∧
      vx.length + rel.card = Nat.card (Quotient (S.vertexSetoid valid)) ∧
      sx.length = Nat.card (Quotient (edgeSetoid hS.bordered)) ∧
      (rel = ∅ → finrank R (LinearMap.range (rowMap M1 sx.length vx.length)) + 1 = vx.length) ∧
      (rel ≠ ∅ → LinearMap.range (rowMap M1 sx.length vx.length) = ⊤) ∧
      (rel = ∅ → Nonempty (Homology0 M1 sx.length vx.length ≃ₗ[R] R)) ∧
      finrank R (LinearMap.ker (rowMap M2 ls.length sx.length)) = (if S.selfGlued valid = 0 then 1 else 0) ∧
      Module.Free R (Homology1 M1 M2 ls.length sx.length vx.length) ∧
      (rel = ∅ → ls.length + vx.length + S.selfGlued valid ≤ sx.length + 2) := by
  obtain ⟨es', he', hnd, hmem⟩ := edges_spec hS.bordered ls hn (fun l hl => (hls l).1 hl)
  rw [he] at he'; injection he' with he'; subst he'
  have hes : ∀ d, d ∈ es ↔ S.IsDart valid d := fun d => by
    rw [hmem]
    exact ⟨fun h => h.2, fun h => ⟨(hls _).2 h.1, h⟩⟩
  obtain ⟨sx, h1, h2, h3, h4, h5⟩ := simplices1_spec hS hn hls
  have hV : ∀ d, ∃ x, S.IsDart valid d → S.surfaceVertex fuel d = .ok x := by
    intro d
    by_cases hd : S.IsDart valid d
    · obtain ⟨x, hx⟩ := surfaceVertex_defined hS.bordered (fun d hd => (hes d).2 hd) hf hd
      exact ⟨x, fun _ => hx⟩
    · exact ⟨∅, fun h => absurd h hd⟩
  choose V hV using hV
  obtain ⟨vs, hvs, hvn, hvm, hvc⟩ := vertices_spec hS he hes hV
  set vx := vs.filter (· ∉ rel) with hvx
  have hxn : vx.Nodup := hvn.filter _
  have hxr : ∀ x ∈ vx, x ∉ rel := fun x hx => by simpa using (List.mem_filter.1 hx).2
  have hrel' : ∀ x ∈ rel, ∃ d, S.IsDart valid d ∧ V d = x := by
    intro x hx
    obtain ⟨d, hd, h⟩ := hrel x hx
    rw [hV d hd] at h
    injection h with h
    exact ⟨d, hd, h⟩
  have hcard : vx.length + rel.card = vs.length := by
    have e1 : (vs.filter (· ∈ rel)).length = rel.card := by
      rw [← List.toFinset_card_of_nodup (hvn.filter _)]
      congr 1
      ext x
      simp only [List.mem_toFinset, List.mem_filter, decide_eq_true_eq]
      exact ⟨fun h => h.2, fun h => ⟨(hvm x).2 (hrel' x h), h⟩⟩
    rw [← e1, hvx]
    have := List.length_eq_length_filter_add (l := vs) (fun x => decide (x ∈ rel))
    simp only [decide_not] at this ⊢
    omega
  have ha : ∀ i : Fin sx.length, ∃ k : Fin ls.length, ls[k] = sx[i].1 := by
    intro i
    obtain ⟨k, hk, e⟩ := List.getElem_of_mem ((hls _).2 (h3 sx[i] (List.getElem_mem i.2)).1)
    exact ⟨⟨k, hk⟩, e⟩
  choose a ha using ha
  have hvalid : ∀ l ∈ ls, valid l := fun l hl => (hls l).1 hl
  obtain ⟨l0, hl0⟩ := List.exists_mem_of_ne_nil _ hne
  haveI : Nonempty (Fin ls.length) := ⟨⟨0, List.length_pos_iff.2 hne⟩⟩
  have hd0 : ∃ d0, S.IsDart valid d0 := by
    obtain ⟨p, hp, hv⟩ := hS.poly l0 (hvalid _ hl0)
    have := hv.len3
    exact ⟨(l0, 0), hvalid _ hl0, p, hp, by dsimp only; omega⟩
  obtain ⟨d0, hd0⟩ := hd0
  have hpick : ∀ j : Fin vx.length, ∃ d, S.IsDart valid d ∧ pick vx (V d) = some j := by
    intro j
    obtain ⟨d, hd, h⟩ := (hvm vx[j]).1 (List.mem_filter.1 (List.getElem_mem j.2)).1
    exact ⟨d, hd, (pick_eq hxn _ _).2 h⟩
  have hlink := fun d d' hd hd' => linked_all (d := d) (d' := d') hS hc hV h4 vx hd hd'
  have hadj := adjacent_all hS hc hn hls h3 h4 ha
  -- the image in degree 0 in the absolute case
  have hrange : rel = ∅ → ∃ _ : Nonempty (Fin vx.length), LinearMap.range (rowMap (sx.map fun d => vx.map (S.edgeBoundary rel V d (1 : R))) sx.length vx.length) = LinearMap.ker (aug R (Fin vx.length)) := by
    intro h0
    have hall : ∀ d, S.IsDart valid d → V d ∈ vx := by
      intro d hd
      rw [hvx, List.mem_filter]
      refine ⟨(hvm _).2 ⟨d, hd, rfl⟩, by simp [h0]⟩
    obtain ⟨j0, hj0⟩ := pick_mem (hall d0 hd0)
    haveI : Nonempty (Fin vx.length) := ⟨j0⟩
    refine ⟨⟨j0⟩, ?_⟩
    have hs : ∀ i : Fin sx.length, ∃ j, pick vx (V sx[i]) = some j := fun i => pick_mem (hall _ (h3 _ (List.getElem_mem i.2)))
    have ht : ∀ i : Fin sx.length, ∃ j, pick vx (V (S.oppF sx[i])) = some j := fun i => pick_mem (hall _ (hS.oppF_dart (h3 _ (List.getElem_mem i.2))))
    choose s hs using hs
    choose t ht using ht
    rw [rowMap1 hxn hxr, funext hs, funext ht]
    apply range_connected
    intro x y
    obtain ⟨d, hd, h⟩ := hpick x
    obtain ⟨d', hd', h'⟩ := hpick y
    have := hlink d d' hd hd'
    rwa [h, h', funext hs, funext ht] at this
  refine ⟨vx, sx, _, _, ?_, h1, chainRows1_eq hS rel hV h3 vx, chainRows2_eq hS h3 h4 h5 hvalid, rows_comp hS rel hV h2 h3 h4 h5 hvalid vx, hcard.trans hvc,
    simplices1_card hS h2 h3 h4 h5, ?_, ?_, ?_, ?_, ?_, ?_⟩
  · unfold simplices0
    rw [hvs]
    rfl
  · intro h0
    obtain ⟨_, h⟩ := hrange h0
    rw [h, finrank_ker_aug, Fintype.card_fin]
  · intro h0
    rw [rowMap1 hxn hxr]
    apply range_relative
    intro y
    obtain ⟨x, hx⟩ := Finset.nonempty_iff_ne_empty.2 h0
    obtain ⟨d, hd, h⟩ := hrel' x hx
    obtain ⟨d', hd', h'⟩ := hpick y
    have := hlink d d' hd hd'
    rwa [h', h, pick_none (fun hm => hxr x hm hx)] at this
  · intro h0
    obtain ⟨_, h⟩ := hrange h0
    exact ⟨(Submodule.quotEquivOfEq _ _ h).trans ((aug R _).quotKerEquivOfSurjective aug_surjective)⟩
  · rw [rowMap2 hn ha]
    haveI := dart_finite hes
    by_cases hs : S.selfGlued valid = 0
    · rw [if_pos hs]
      refine finrank_const (ker_closed hadj ?_)
      intro i h
      have hsd := h3 sx[i] (List.getElem_mem i.2)
      unfold other at h
      by_cases hself : S.oppF sx[i] = sx[i]
      · unfold selfGlued at hs
        haveI : Finite {d // S.IsDart valid d ∧ S.opp d.1 d.2 = .ok (some d)} := Finite.of_injective (β := {d // S.IsDart valid d}) (fun d => ⟨d.1, d.2.1⟩) fun a b h => Subtype.ext (Subtype.mk.inj h)
        have := (Nat.card_eq_zero.1 hs).resolve_right (fun h => not_finite_iff_infinite.2 h ‹_›)
        refine this.false ⟨sx[i], hsd, ?_⟩
        rw [hS.opp_oppF hsd, hself]
      · rw [if_neg hself] at h
        obtain ⟨j, hj⟩ := pick_mem (l := ls) ((hls _).2 (hS.oppF_dart hsd).1)
        rw [hj] at h
        cases h
    · rw [if_neg hs]
      unfold selfGlued at hs
      obtain ⟨⟨d, hd, hself⟩⟩ := (Nat.card_ne_zero.1 hs).1
      rw [hS.opp_oppF hd] at hself
      injection hself with hself
      injection hself with hself
      have hm : d ∈ sx := (h4 d hd).elim id (fun h => hself ▸ h)
      obtain ⟨i, hi, hie⟩ := List.getElem_of_mem hm
      rw [ker_open hadj (e := ⟨i, hi⟩), finrank_bot]
      show S.other ls sx[i] = none
      rw [hie]
      exact if_pos hself
  · have := torsionFree_homology (R := R) hadj (LinearMap.ker (rowMap (sx.map fun d => vx.map (S.edgeBoundary rel V d (1 : R))) sx.length vx.length))
    rw [← rowMap2 hn ha] at this
    exact Module.free_of_finite_type_torsion_free'
  · intro h0
    obtain ⟨_, hr⟩ := hrange h0
    have hcomp := rows_comp (R := R) hS rel hV h2 h3 h4 h5 hvalid vx
    have hr' : finrank R (LinearMap.range (rowMap (sx.map fun d => vx.map (S.edgeBoundary rel V d (1 : R))) sx.length vx.length)) + 1 = vx.length := by
      rw [hr, finrank_ker_aug, Fintype.card_fin]
    rw [rowMap2 hn ha] at hcomp
    have hb := rank_bound hadj hcomp (by
      intro x hx
      funext j
      rw [rowMap_apply]
      refine Finset.sum_eq_zero fun i _ => ?_
      rw [getD_map_map]
      by_cases h : S.oppF sx[i] = sx[i]
      · have : S.edgeBoundary rel V sx[i] (1 : R) = 0 := by
          unfold edgeBoundary
          rw [h, sub_self]
        rw [this, Pi.zero_apply, mul_zero]
      · have h6 := hx i (by
          unfold other
          rw [if_neg h]
          obtain ⟨j, hj⟩ := pick_mem (l := ls) ((hls _).2 (hS.oppF_dart (h3 sx[i] (List.getElem_mem i.2))).1)
          rw [hj]
          exact Option.some_ne_none j)
        rw [h6, zero_mul])
    have hc : Nat.card {i : Fin sx.length // S.other ls sx[i] = none} = S.selfGlued valid := by
      unfold selfGlued
      have hself : ∀ i : Fin sx.length, S.other ls sx[i] = none → S.oppF sx[i] = sx[i] := by
        intro i hi
        by_contra h
        unfold other at hi
        rw [if_neg h] at hi
        obtain ⟨j, hj⟩ := pick_mem (l := ls) ((hls _).2 (hS.oppF_dart (h3 sx[i] (List.getElem_mem i.2))).1)
        rw [hj] at hi
        cases hi
      refine Nat.card_congr (Equiv.ofBijective (fun i => ⟨sx[i.1], h3 _ (List.getElem_mem i.1.2), ?_⟩) ⟨?_, ?_⟩)
      · exact (hS.opp_oppF (h3 _ (List.getElem_mem i.1.2))).trans (congrArg (fun x => Except.ok (some x)) (hself i.1 i.2))
      · intro i j h
        have h : sx[i.1] = sx[j.1] := Subtype.mk.inj h
        ext
        exact (h2.getElem_inj_iff).1 h
      · rintro ⟨d, hd, hs⟩
        rw [hS.opp_oppF hd] at hs
        injection hs with hs
        injection hs with hs
        have hm : d ∈ sx := (h4 d hd).elim id (fun h => hs ▸ h)
        obtain ⟨i, hi, hie⟩ := List.getElem_of_mem hm
        refine ⟨⟨⟨i, hi⟩, ?_⟩, Subtype.ext hie⟩
        show S.other ls sx[i] = none
        rw [hie]
        exact if_pos hs
    rw [hc, Fintype.card_fin, Fintype.card_fin] at hb
    omega

end RSurf
end Flat
