import Verif.Model.FundamentalGroup
import Verif.Lemmas.ReducedWords
import Verif.Props.Categories
import Verif.Props.RamifiedCover

/-!
# C41: paths of the fundamental group
-/

namespace Flat
namespace FPath
open RSurf
variable {L K : Type} [DecidableEq L] [Field K] [LinearOrder K] [IsStrictOrderedRing K]

/-- A path of the surface from `a` to `b`: there is one more polygon than edges, and each edge is an edge of its polygon that is glued to the given edge of the
next polygon. -/
structure IsPath (S : RSurf L K) (valid : L → Prop) (a b : L) (P : FPath L) : Prop where
  len : P.polys.length = P.edges.length + 1
  len' : P.rev.length = P.edges.length
  start : P.polys[0]? = some a
  stop : P.polys[P.edges.length]? = some b
  step : ∀ (i : ℕ) (p q : L) (e r : ℕ), P.polys[i]? = some p → P.edges[i]? = some e → P.rev[i]? = some r → P.polys[i + 1]? = some q →
    S.IsDart valid (p, e) ∧ S.opp p e = .ok (some (q, r))

/-- A path never crosses an edge and goes straight back. -/
def Reduced (P : FPath L) : Prop := ∀ (i e r : ℕ), P.rev[i]? = some r → P.edges[i + 1]? = some e → e ≠ r

/-- The concatenation of two paths. -/
def concat (P Q : FPath L) : FPath L := ⟨P.polys ++ Q.polys.tail, P.edges ++ Q.edges, P.rev ++ Q.rev⟩

/-- One path arises from another by not crossing an edge back and forth. -/
def Backtrack (P Q : FPath L) : Prop := ∃ (A B : List L) (p q : L) (E E' R R' : List ℕ) (e f : ℕ), A.length = E.length ∧ A.length = R.length ∧
  P = ⟨A ++ p :: q :: p :: B, E ++ e :: f :: E', R ++ f :: e :: R'⟩ ∧ Q = ⟨A ++ p :: B, E ++ E', R ++ R'⟩

/-- Two closed paths at `b` are homotopic in the surface without its vertices. -/
def Homotopic (S : RSurf L K) (valid : L → Prop) (b : L) : FPath L → FPath L → Prop :=
  Relation.EqvGen (fun P Q => IsPath S valid b b P ∧ IsPath S valid b b Q ∧ Backtrack P Q)

/-! ### Paths as words -/

/-- A step of a path: the polygon, the edge, the edge of the next polygon, and the next polygon. -/
abbrev Letter (L : Type) := L × ℕ × ℕ × L

def Letter.inv (x : Letter L) : Letter L := (x.2.2.2, x.2.2.1, x.2.1, x.1)

theorem Letter.inv_inv (x : Letter L) : Letter.inv (Letter.inv x) = x := rfl

def toPath (a : L) (w : List (Letter L)) : FPath L := ⟨a :: w.map (fun x => x.2.2.2), w.map (fun x => x.2.1), w.map (fun x => x.2.2.1)⟩

def Walk (S : RSurf L K) (valid : L → Prop) : L → List (Letter L) → L → Prop
  | a, [], b => a = b
  | a, x :: w, b => x.1 = a ∧ S.IsDart valid (x.1, x.2.1) ∧ S.opp x.1 x.2.1 = .ok (some (x.2.2.2, x.2.2.1)) ∧ Walk S valid x.2.2.2 w b

section
variable {S : RSurf L K} {valid : L → Prop}

theorem walk_append {a b : L} {u v : List (Letter L)} : Walk S valid a (u ++ v) b ↔ ∃ c, Walk S valid a u c ∧ Walk S valid c v b := by
  induction u generalizing a with
  | nil => simp [Walk]
  | cons x u ih =>
    simp only [List.cons_append, Walk, ih]
    constructor
    · rintro ⟨h1, h2, h3, c, h4, h5⟩
      exact ⟨c, ⟨h1, h2, h3, h4⟩, h5⟩
    · rintro ⟨c, ⟨h1, h2, h3, h4⟩, h5⟩
      exact ⟨h1, h2, h3, c, h4, h5⟩

theorem isPath_iff {a b : L} {P : FPath L} : IsPath S valid a b P ↔ ∃ w, P = toPath a w ∧ Walk S valid a w b := by
  constructor
  · obtain ⟨polys, edges, rev⟩ := P
    induction edges generalizing a polys rev with
    | nil =>
      rintro ⟨h1, h2, h3, h4, h5⟩
      dsimp only at *
      obtain ⟨p, rfl⟩ := List.length_eq_one_iff.1 h1
      have : rev = [] := List.length_eq_zero_iff.1 h2
      subst this
      simp at h3 h4
      subst h3
      exact ⟨[], rfl, h4⟩
    | cons e edges ih =>
      rintro ⟨h1, h2, h3, h4, h5⟩
      dsimp only at *
      cases polys with
      | nil => simp at h1
      | cons p polys =>
        cases polys with
        | nil => simp at h1
        | cons q polys =>
          cases rev with
          | nil => simp at h2
          | cons r rev =>
            simp at h3
            subst h3
            obtain ⟨w, hw, hwalk⟩ := ih (a := q) (q :: polys) rev ⟨by simpa using h1, by simpa using h2, rfl, by simpa using h4,
              fun i p' q' e' r' ha hb hc hd => h5 (i + 1) p' q' e' r' (by simpa using ha) (by simpa using hb) (by simpa using hc) (by simpa using hd)⟩
            have h6 := h5 0 p q e r rfl rfl rfl rfl
            refine ⟨(p, e, r, q) :: w, ?_, rfl, h6.1, h6.2, hwalk⟩
            simp only [toPath, FPath.mk.injEq, List.cons.injEq, true_and] at hw
            simp [toPath, hw]
  · rintro ⟨w, rfl, hw⟩
    induction w generalizing a with
    | nil => exact ⟨rfl, rfl, rfl, by have h : a = b := hw; simp [toPath, h], by simp [toPath]⟩
    | cons x w ih =>
      obtain ⟨h1, h2, h3, h4⟩ := hw
      have := ih h4
      refine ⟨by simp [toPath], by simp [toPath], rfl, ?_, ?_⟩
      · have := this.stop
        simpa [toPath] using this
      · intro i p q e r hp he hr hq
        cases i with
        | zero =>
          simp [toPath] at hp he hr hq
          subst hp he hr hq
          rw [h1] at h2 h3
          exact ⟨h2, h3⟩
        | succ i => exact this.step i p q e r (by simpa [toPath] using hp) (by simpa [toPath] using he) (by simpa [toPath] using hr) (by simpa [toPath] using hq)

theorem toPath_inj {a b b' : L} {w w' : List (Letter L)} (h : Walk S valid a w b) (h' : Walk S valid a w' b') (he : toPath a w = toPath a w') : w = w' := by
  induction w generalizing a w' with
  | nil =>
    cases w' with
    | nil => rfl
    | cons x w' => simp [toPath] at he
  | cons x w ih =>
    cases w' with
    | nil => simp [toPath] at he
    | cons y w' =>
      simp only [toPath, List.map_cons, FPath.mk.injEq, List.cons.injEq, true_and] at he
      obtain ⟨⟨h1, h2⟩, ⟨h3, h4⟩, h5, h6⟩ := he
      have hxy : x = y := Prod.ext (h.1.trans h'.1.symm) (Prod.ext h3 (Prod.ext h5 h1))
      subst hxy
      rw [ih h.2.2.2 h'.2.2.2 (by simp [toPath, h2, h4, h6])]

theorem Walk.letter {a b : L} {w : List (Letter L)} (h : Walk S valid a w b) {x : Letter L} (hx : x ∈ w) : S.IsDart valid (x.1, x.2.1) ∧
    S.opp x.1 x.2.1 = .ok (some (x.2.2.2, x.2.2.1)) := by
  induction w generalizing a with
  | nil => cases hx
  | cons y w ih =>
    rcases List.mem_cons.1 hx with rfl | hx
    · exact ⟨h.2.1, h.2.2.1⟩
    · exact ih h.2.2.2 hx

theorem Walk.inv (hS : S.Bordered valid) {a b : L} {w : List (Letter L)} (h : Walk S valid a w b) : Walk S valid b (w.reverse.map Letter.inv) a := by
  induction w generalizing a with
  | nil => exact Eq.symm h
  | cons x w ih =>
    obtain ⟨h1, h2, h3, h4⟩ := h
    rw [List.reverse_cons, List.map_append, walk_append]
    obtain ⟨h5, h6⟩ := hS.opp_symm (d := (x.1, x.2.1)) h2 h3
    exact ⟨_, ih h4, rfl, h5, h6, h1⟩

/-- The sources of the letters of a walk. -/
theorem Walk.sources {a b : L} {w : List (Letter L)} (h : Walk S valid a w b) : w.map (fun x => x.1) ++ [b] = a :: w.map (fun x => x.2.2.2) := by
  induction w generalizing a with
  | nil => simp [Walk] at h; simp [h]
  | cons x w ih =>
    rw [List.map_cons, List.cons_append, ih h.2.2.2, List.map_cons, h.1]

theorem toPath_reverse {a b : L} {w : List (Letter L)} (h : Walk S valid a w b) :
    (⟨(toPath a w).polys.reverse, (toPath a w).rev.reverse, (toPath a w).edges.reverse⟩ : FPath L) = toPath b (w.reverse.map Letter.inv) := by
  simp only [toPath, FPath.mk.injEq, List.map_map]
  refine ⟨?_, ?_, ?_⟩
  · rw [← h.sources]
    simp [Letter.inv, Function.comp_def]
  · simp [Letter.inv, Function.comp_def]
  · simp [Letter.inv, Function.comp_def]

theorem toPath_ends {a b : L} {w : List (Letter L)} (h : Walk S valid a w b) : (toPath a w).polys.head? = some a ∧ (toPath a w).polys.getLast? = some b := by
  refine ⟨rfl, ?_⟩
  simp only [toPath]
  rw [← h.sources]
  simp

theorem make_toPath {b : L} {w : List (Letter L)} (h : Walk S valid b w b) : make b (toPath b w) = .ok (toPath b w) := by
  unfold make
  rw [if_neg (by simp [toPath]), if_pos (toPath_ends h)]

/-- Reduced paths are reduced words. -/
theorem reduced_iff (hS : S.Bordered valid) {a b : L} {w : List (Letter L)} (h : Walk S valid a w b) : Reduced (toPath a w) ↔ Words.Red Letter.inv w := by
  induction w generalizing a with
  | nil => simp [Reduced, toPath, Words.Red]
  | cons x w ih =>
    cases w with
    | nil => simp [Reduced, toPath, Words.Red]
    | cons y w =>
      have ih' := ih h.2.2.2
      unfold Words.Red at *
      rw [List.isChain_cons_cons, ← ih']
      obtain ⟨h1, h2, h3, h4, h5, h6, h7⟩ := h
      have hxy : x = Letter.inv y ↔ y.2.1 = x.2.2.1 := by
        constructor
        · rintro rfl; rfl
        · intro he
          obtain ⟨-, hb⟩ := hS.opp_symm (d := (x.1, x.2.1)) h2 h3
          dsimp only at hb
          rw [← he, ← h4, h6] at hb
          simp only [Except.ok.injEq, Option.some.injEq, Prod.mk.injEq] at hb
          exact Prod.ext hb.1.symm (Prod.ext hb.2.symm (Prod.ext he.symm h4.symm))
      constructor
      · intro hr
        refine ⟨fun hx => hr 0 y.2.1 x.2.2.1 rfl rfl (hxy.1 hx), ?_⟩
        intro i e r ha hb
        exact hr (i + 1) e r (by simpa [toPath] using ha) (by simpa [toPath] using hb)
      · rintro ⟨hx, hr⟩ i e r ha hb
        cases i with
        | zero =>
          simp [toPath] at ha hb
          subst ha hb
          exact fun he => hx (hxy.2 he)
        | succ i => exact hr i e r (by simpa [toPath] using ha) (by simpa [toPath] using hb)

theorem concat_toPath {a b : L} (u v : List (Letter L)) : concat (toPath a u) (toPath b v) = toPath a (u ++ v) := by
  simp [concat, toPath]

theorem backtrack_of_step {a b : L} {u v : List (Letter L)} (hu : Walk S valid a u b) (h : Words.Step (ι := Letter.inv) u v) :
    Walk S valid a v b ∧ Backtrack (toPath a u) (toPath a v) := by
  obtain ⟨u, v, x⟩ := h
  induction u generalizing a with
  | nil =>
    obtain ⟨h1, h2, h3, h4, h5, h6, h7⟩ := hu
    have h1 : x.2.2.2 = a := h1
    subst h1
    refine ⟨h7, [], v.map (fun x => x.2.2.2), x.2.2.2, x.1, [], v.map (fun x => x.2.1), [], v.map (fun x => x.2.2.1), x.2.2.1, x.2.1, rfl, rfl, ?_, ?_⟩
    · simp [toPath, Letter.inv]
    · simp [toPath]
  | cons y u ih =>
    obtain ⟨h1, h2, h3, h4⟩ := hu
    obtain ⟨h5, A, B, p, q, E, E', R, R', e, f, hA, hA', hP, hQ⟩ := ih h4
    refine ⟨⟨h1, h2, h3, h5⟩, a :: A, B, p, q, y.2.1 :: E, E', y.2.2.1 :: R, R', e, f, by simp [hA], by simp [hA'], ?_, ?_⟩
    · simp only [toPath, FPath.mk.injEq] at hP
      simp [toPath, ← hP.1, ← hP.2.1, ← hP.2.2]
    · simp only [toPath, FPath.mk.injEq] at hQ
      simp [toPath, ← hQ.1, ← hQ.2.1, ← hQ.2.2]

theorem step_of_backtrack {a b b' : L} {u v : List (Letter L)} (hu : Walk S valid a u b) (hv : Walk S valid a v b') (h : Backtrack (toPath a u) (toPath a v)) :
    Words.Step (ι := Letter.inv) u v := by
  obtain ⟨A, B, p, q, E, E', R, R', e, f, hA, hA', hP, hQ⟩ := h
  induction A generalizing a u v E R with
  | nil =>
    have hE : E = [] := by simpa using hA.symm
    have hR : R = [] := by simpa using hA'.symm
    subst hE hR
    cases u with
    | nil => simp [toPath] at hP
    | cons x u =>
      cases u with
      | nil => simp [toPath] at hP
      | cons y u =>
        simp only [toPath, List.map_cons, FPath.mk.injEq, List.nil_append, List.cons.injEq] at hP hQ
        obtain ⟨⟨rfl, h1, h2, h3⟩, ⟨h4, h5, h6⟩, h7, h8, h9⟩ := hP
        obtain ⟨⟨-, h10⟩, h11, h12⟩ := hQ
        have hw : u = v := by
          have h13 := hu.2.2.2.2.2.2
          rw [h2] at h13
          exact toPath_inj h13 hv (by simp [toPath, h3, h6, h9, h10, h11, h12])
        subst hw
        have hx : x = Letter.inv y := by
          refine Prod.ext (hu.1.trans h2.symm) (Prod.ext (h4.trans h8.symm) (Prod.ext (h7.trans h5.symm) hu.2.2.2.1.symm))
        rw [hx]
        exact Words.Step.mk [] u y
  | cons a' A ih =>
    cases E with
    | nil => simp at hA
    | cons e0 E =>
      cases R with
      | nil => simp at hA'
      | cons r0 R =>
        cases u with
        | nil => simp [toPath] at hP
        | cons x u =>
          cases v with
          | nil => simp [toPath] at hQ
          | cons y v =>
            simp only [toPath, List.map_cons, FPath.mk.injEq, List.cons_append, List.cons.injEq] at hP hQ
            obtain ⟨⟨rfl, h1⟩, ⟨h2, h3⟩, h4, h5⟩ := hP
            obtain ⟨⟨-, h6⟩, ⟨h7, h8⟩, h9, h10⟩ := hQ
            have hq : x.2.2.2 = y.2.2.2 := by
              cases A with
              | nil => 
                simp at h1 h6
                rw [h1.1, h6.1]
              | cons a2 A =>
                simp at h1 h6
                rw [h1.1, h6.1]
            have hxy : x = y := Prod.ext (hu.1.trans hv.1.symm) (Prod.ext (h2.trans h7.symm) (Prod.ext (h4.trans h9.symm) hq))
            subst hxy
            refine Words.Step.cons (ih hu.2.2.2 hv.2.2.2 E R (by simpa using hA) (by simpa using hA') ?_ ?_)
            · simp [toPath, h1, h3, h5]
            · simp [toPath, h6, h8, h10]

/-! ### The product -/

/-- No polygon is glued to two different polygons along edges that have the same number in these. -/
def Determined (S : RSurf L K) (valid : L → Prop) : Prop := ∀ x y : L × ℕ, ∀ q r r', S.IsDart valid x → S.IsDart valid y → S.opp x.1 x.2 = .ok (some (q, r)) →
  S.opp y.1 y.2 = .ok (some (q, r')) → x.2 = y.2 → x = y

/-- What `mul` does to the lists. -/
def cut (i : ℕ) (P Q : FPath L) : FPath L := ⟨P.polys.take (P.polys.length - i) ++ Q.polys.drop (i + 1), P.edges.take (P.edges.length - i) ++ Q.edges.drop i,
  P.rev.take (P.rev.length - i) ++ Q.rev.drop i⟩

theorem cut_toPath (a b : L) (u v : List (Letter L)) (i : ℕ) (hi : i ≤ u.length) : cut i (toPath a u) (toPath b v) = toPath a (u.take (u.length - i) ++ v.drop i) := by
  simp only [cut, toPath, List.length_cons, List.length_map, FPath.mk.injEq, List.map_append, List.map_take, List.map_drop, List.drop_succ_cons, true_and, and_true]
  rw [show u.length + 1 - i = (u.length - i) + 1 by omega]
  simp

theorem cancel_le (as bs : List ℕ) : cancel as bs ≤ as.length := by
  induction as generalizing bs with
  | nil => simp [cancel]
  | cons a as ih =>
    cases bs with
    | nil => simp [cancel]
    | cons b bs =>
      unfold cancel
      split_ifs
      · simp [ih]
      · simp

theorem cancel_mulR (hS : S.Bordered valid) (hd : Determined S valid) {a b c : L} (ru v : List (Letter L)) (hu : Walk S valid a ru.reverse b) (hv : Walk S valid b v c) :
    ru.reverse.take (ru.length - cancel (ru.map (fun x => x.2.1)) (v.map (fun x => x.2.2.1))) ++ v.drop (cancel (ru.map (fun x => x.2.1)) (v.map (fun x => x.2.2.1))) =
      Words.mulR Letter.inv ru v := by
  induction ru generalizing b v with
  | nil => simp [cancel, Words.mulR]
  | cons x ru ih =>
    cases v with
    | nil =>
      simp only [List.map_nil, List.map_cons, cancel, Words.mulR, List.drop_nil, Nat.sub_zero]
      rw [List.take_of_length_le (by simp)]
    | cons y v =>
      rw [List.reverse_cons, walk_append] at hu
      obtain ⟨b', hu', hx1, hx2, hx3, hx4⟩ := hu
      obtain ⟨hy1, hy2, hy3, hy4⟩ := hv
      have hx4 : x.2.2.2 = b := hx4
      simp only [List.map_cons, cancel, Words.mulR]
      by_cases hxy : x.2.1 = y.2.2.1
      · have hinv : x = Letter.inv y := by
          obtain ⟨h5, h6⟩ := hS.opp_symm (d := (y.1, y.2.1)) hy2 hy3
          dsimp only at h6
          have h7 := hd (x.1, x.2.1) (y.2.2.2, y.2.2.1) b x.2.2.1 y.2.1 hx2 h5 (by rw [← hx4]; exact hx3) (by rw [← hy1]; exact h6) hxy
          injection h7 with h8 h9
          rw [← h8, ← h9, hx3] at h6
          simp only [Except.ok.injEq, Option.some.injEq, Prod.mk.injEq] at h6
          exact Prod.ext h8 (Prod.ext hxy (Prod.ext h6.2 h6.1))
        rw [if_pos hxy, if_pos hinv]
        have hb : b' = y.2.2.2 := by rw [← hx1, hinv]; rfl
        rw [← ih v (by rw [← hb]; exact hu') hy4]
        simp only [List.length_cons, Nat.reduceSubDiff, List.drop_succ_cons, List.reverse_cons]
        rw [List.take_append_of_le_length (by simp)]
      · have hinv : x ≠ Letter.inv y := by
          intro h
          apply hxy
          rw [h]
          rfl
        rw [if_neg hxy, if_neg hinv, Nat.sub_zero, List.take_of_length_le (by simp)]
        simp

theorem mul_toPath (hS : S.Bordered valid) (hd : Determined S valid) {b : L} {u v : List (Letter L)} (hu : Walk S valid b u b) (hv : Walk S valid b v b) :
    mul b (toPath b u) (toPath b v) = .ok (some (toPath b (Words.mulR Letter.inv u.reverse v))) ∧ Walk S valid b (Words.mulR Letter.inv u.reverse v) b := by
  have h1 : Walk S valid b (Words.mulR Letter.inv u.reverse v) b := by
    have h2 := Words.mulR_step (ι := Letter.inv) u.reverse v
    rw [List.reverse_reverse] at h2
    have h3 : Walk S valid b (u ++ v) b := walk_append.2 ⟨b, hu, hv⟩
    generalize u ++ v = w at h2 h3
    induction h2 using Relation.ReflTransGen.head_induction_on with
    | refl => exact h3
    | head h _ ih => exact ih (backtrack_of_step h3 h).1
  refine ⟨?_, h1⟩
  unfold mul
  rw [if_neg (by rw [(toPath_ends hu).2, (toPath_ends hv).1]; simp)]
  have h4 := cut_toPath b b u v (cancel (toPath b u).edges.reverse (toPath b v).rev) (by
    refine (cancel_le _ _).trans ?_
    simp [toPath])
  have h5 := cancel_mulR hS hd (a := b) (b := b) (c := b) u.reverse v (by rw [List.reverse_reverse]; exact hu) hv
  rw [List.reverse_reverse, List.length_reverse, List.map_reverse] at h5
  rw [show (toPath b u).edges = u.map (fun x => x.2.1) from rfl, show (toPath b v).rev = v.map (fun x => x.2.2.1) from rfl, h5] at h4
  unfold cut at h4
  dsimp only
  rw [show (toPath b u).edges = u.map (fun x => x.2.1) from rfl, show (toPath b v).rev = v.map (fun x => x.2.2.1) from rfl]
  have h6 := make_toPath h1
  rw [← h4] at h6 ⊢
  rw [show (toPath b u).edges = u.map (fun x => x.2.1) from rfl, show (toPath b v).rev = v.map (fun x => x.2.2.1) from rfl] at h6 ⊢
  rw [h6]

theorem homotopic_words {b : L} {P Q : FPath L} (h : Homotopic S valid b P Q) : ∀ u, P = toPath b u → Walk S valid b u b → ∀ v, Q = toPath b v → Walk S valid b v b →
    Relation.EqvGen (fun w w' => Walk S valid b w b ∧ Words.Step (ι := Letter.inv) w w') u v := by
  induction h with
  | rel P Q h =>
    rintro u rfl hu v rfl hv
    exact .rel _ _ ⟨hu, step_of_backtrack hu hv h.2.2⟩
  | refl P =>
    rintro u rfl hu v h hv
    rw [toPath_inj hu hv h]
    exact .refl _
  | symm P Q h ih =>
    intro u h1 hu v h2 hv
    exact .symm _ _ (ih v h2 hv u h1 hu)
  | trans P Q R h1 h2 ih1 ih2 =>
    intro u hP hu v hR hv
    by_cases hq : IsPath S valid b b Q
    · obtain ⟨w, hw, hw'⟩ := isPath_iff.1 hq
      exact .trans _ _ _ (ih1 u hP hu w hw hw') (ih2 w hw hw' v hR hv)
    · have h3 : ∀ A B, Homotopic S valid b A B → (IsPath S valid b b A ↔ IsPath S valid b b B) := by
        intro A B h
        induction h with
        | rel A B h => exact ⟨fun _ => h.2.1, fun _ => h.1⟩
        | refl => exact Iff.rfl
        | symm _ _ _ ih => exact ih.symm
        | trans _ _ _ _ _ ih1 ih2 => exact ih1.trans ih2
      exact absurd ((h3 P Q h1).1 (isPath_iff.2 ⟨u, hP, hu⟩)) hq

/-- **C41**. Reduced closed paths at `b` that are homotopic are equal, so that each class has at most one reduced representative. -/
theorem C41_reduced_unique (hS : S.Closed valid) {b : L} {P Q : FPath L} (hP : IsPath S valid b b P) (hPr : Reduced P) (hQ : IsPath S valid b b Q) (hQr : Reduced Q)
    (h : Homotopic S valid b P Q) : P = Q := by
  obtain ⟨u, rfl, hu⟩ := isPath_iff.1 hP
  obtain ⟨v, rfl, hv⟩ := isPath_iff.1 hQ
  have key : Relation.EqvGen (Words.Step (ι := Letter.inv)) u v := by
    have h1 := homotopic_words h u rfl hu v rfl hv
    clear hP hPr hQ hQr h hu hv
    induction h1 with
    | rel _ _ h => exact .rel _ _ h.2
    | refl => exact .refl _
    | symm _ _ _ ih => exact .symm _ _ ih
    | trans _ _ _ _ _ ih1 ih2 => exact .trans _ _ _ ih1 ih2
  rw [Words.red_unique Letter.inv_inv key ((reduced_iff hS.bordered hu).1 hPr) ((reduced_iff hS.bordered hv).1 hQr)]

/-- **C41**, for surfaces in which the number of an edge across a gluing determines the polygon.  The product of two reduced closed paths is a closed path, it is
reduced, and it is homotopic to the concatenation. -/
theorem C41_product_partial (hS : S.Closed valid) (hd : Determined S valid) {b : L} {P Q : FPath L} (hP : IsPath S valid b b P) (hPr : Reduced P)
    (hQ : IsPath S valid b b Q) (hQr : Reduced Q) :
    ∃ R, mul b P Q = .ok (some R) ∧ IsPath S valid b b R ∧ Reduced R ∧ Homotopic S valid b (concat P Q) R := by
  obtain ⟨u, rfl, hu⟩ := isPath_iff.1 hP
  obtain ⟨v, rfl, hv⟩ := isPath_iff.1 hQ
  obtain ⟨h1, h2⟩ := mul_toPath hS.bordered hd hu hv
  refine ⟨_, h1, isPath_iff.2 ⟨_, rfl, h2⟩, ?_, ?_⟩
  · rw [reduced_iff hS.bordered h2]
    exact Words.mulR_red _ _ (by rw [List.reverse_reverse]; exact (reduced_iff hS.bordered hu).1 hPr) ((reduced_iff hS.bordered hv).1 hQr)
  · rw [concat_toPath]
    have h3 := Words.mulR_step (ι := Letter.inv) u.reverse v
    rw [List.reverse_reverse] at h3
    have h4 : Walk S valid b (u ++ v) b := walk_append.2 ⟨b, hu, hv⟩
    generalize u ++ v = w at h3 h4
    generalize Words.mulR Letter.inv u.reverse v = z at h3
    clear h1 h2
    induction h3 using Relation.ReflTransGen.head_induction_on with
    | refl => exact .refl _
    | head h _ ih =>
      obtain ⟨h5, h6⟩ := backtrack_of_step h4 h
      exact .trans _ _ _ (.rel _ _ ⟨isPath_iff.2 ⟨_, rfl, h4⟩, isPath_iff.2 ⟨_, rfl, h5⟩, h6⟩) (ih h5)

/-- **C41**, for the same surfaces.  The product is associative. -/
theorem C41_associative_partial (hS : S.Closed valid) (hd : Determined S valid) {b : L} {P Q R : FPath L} (hP : IsPath S valid b b P) (hPr : Reduced P)
    (hQ : IsPath S valid b b Q) (hQr : Reduced Q) (hR : IsPath S valid b b R) (hRr : Reduced R) :
    ∃ PQ QR X, mul b P Q = .ok (some PQ) ∧ mul b Q R = .ok (some QR) ∧ mul b PQ R = .ok (some X) ∧ mul b P QR = .ok (some X) := by
  obtain ⟨u, rfl, hu⟩ := isPath_iff.1 hP
  obtain ⟨v, rfl, hv⟩ := isPath_iff.1 hQ
  obtain ⟨w, rfl, hw⟩ := isPath_iff.1 hR
  obtain ⟨h1, h2⟩ := mul_toPath hS.bordered hd hu hv
  obtain ⟨h3, h4⟩ := mul_toPath hS.bordered hd hv hw
  obtain ⟨h5, -⟩ := mul_toPath hS.bordered hd h2 hw
  obtain ⟨h6, -⟩ := mul_toPath hS.bordered hd hu h4
  refine ⟨_, _, _, h1, h3, h5, ?_⟩
  rw [h6, Words.mulR_assoc Letter.inv_inv ((reduced_iff hS.bordered hu).1 hPr) ((reduced_iff hS.bordered hv).1 hQr) ((reduced_iff hS.bordered hw).1 hRr)]

/-- **C41**. On every closed surface the inverse of a closed path is a closed path, it is reduced if the path is, and inverting it gives the path back. -/
theorem C41_inverse (hS : S.Closed valid) {b : L} {P : FPath L} (hP : IsPath S valid b b P) :
    ∃ I, invert b P = .ok I ∧ IsPath S valid b b I ∧ (Reduced P → Reduced I) ∧ invert b I = .ok P := by
  obtain ⟨u, rfl, hu⟩ := isPath_iff.1 hP
  have h1 := hu.inv hS.bordered
  refine ⟨toPath b (u.reverse.map Letter.inv), ?_, isPath_iff.2 ⟨_, rfl, h1⟩, ?_, ?_⟩
  · unfold invert
    rw [toPath_reverse hu, make_toPath h1]
  · rw [reduced_iff hS.bordered hu, reduced_iff hS.bordered h1]
    exact Words.red_inv Letter.inv_inv
  · unfold invert
    rw [toPath_reverse h1]
    have : ((u.reverse.map Letter.inv).reverse.map Letter.inv) = u := by
      rw [← List.map_reverse, List.reverse_reverse, List.map_map]
      simp [Function.comp_def, Letter.inv_inv]
    rw [this, make_toPath hu]

/-- **C41**. On every closed surface the product of a path with its inverse, in both orders, is the neutral element, which is the trivial path and neutral. -/
theorem C41_inverse_product (hS : S.Closed valid) {b : L} {P : FPath L} (hP : IsPath S valid b b P) :
    ∃ I, invert b P = .ok I ∧ mul b P I = .ok (some ⟨[b], [], []⟩) ∧ mul b I P = .ok (some ⟨[b], [], []⟩) ∧ one b = .ok ⟨[b], [], []⟩ ∧
      mul b ⟨[b], [], []⟩ P = .ok (some P) ∧ mul b P ⟨[b], [], []⟩ = .ok (some P) := by
  obtain ⟨u, rfl, hu⟩ := isPath_iff.1 hP
  have h1 := hu.inv hS.bordered
  have hcancel : ∀ l : List ℕ, cancel l l = l.length := by
    intro l
    induction l with
    | nil => rfl
    | cons a l ih => simp [cancel, ih]
  have hone : make b ⟨[b], [], []⟩ = .ok ⟨[b], [], []⟩ := make_toPath (S := S) (valid := valid) (b := b) (w := []) rfl
  have h2 : ∀ v w : List (Letter L), Walk S valid b v b → Walk S valid b w b → (toPath b w).rev = (toPath b v).edges.reverse →
      mul b (toPath b v) (toPath b w) = .ok (some ⟨[b], [], []⟩) := by
    intro v w hv hw h
    unfold mul
    rw [if_neg (by rw [(toPath_ends hv).2, (toPath_ends hw).1]; simp), h, hcancel]
    have hl : w.length = v.length := by simpa [toPath] using congrArg List.length h
    have hvl : (toPath b v).edges.reverse.length = v.length := by simp [toPath]
    rw [hvl]
    have h3 := cut_toPath b b v w v.length le_rfl
    rw [Nat.sub_self, ← hl] at h3
    unfold cut at h3
    rw [← h, ← hl]
    dsimp only
    rw [h3]
    simp only [List.take_zero, List.drop_length, List.append_nil]
    rw [show toPath b [] = (⟨[b], [], []⟩ : FPath L) from rfl, hone]
  refine ⟨toPath b (u.reverse.map Letter.inv), ?_, ?_, ?_, hone, ?_, ?_⟩
  · unfold invert
    rw [toPath_reverse hu, make_toPath h1]
  · refine h2 _ _ hu h1 ?_
    simp [toPath, Letter.inv, Function.comp_def]
  · refine h2 _ _ h1 hu ?_
    simp [toPath, Letter.inv, Function.comp_def]
  · unfold mul
    have := make_toPath hu
    rw [if_neg (by rw [(toPath_ends hu).1]; simp)]
    simp only [List.reverse_nil, cancel, toPath] at *
    simp [this]
  · unfold mul
    have := make_toPath hu
    rw [if_neg (by rw [(toPath_ends hu).2]; simp)]
    have hc : cancel (toPath b u).edges.reverse [] = 0 := by cases (toPath b u).edges.reverse <;> rfl
    simp [hc, this]

/-- **C41**. For closed paths `==` is equality: the edges determine the edges that they are glued to. -/
theorem C41_eq {b : L} {P Q : FPath L} (hP : IsPath S valid b b P) (hQ : IsPath S valid b b Q) : eq P Q = true ↔ P = Q := by
  constructor
  swap
  · rintro rfl; simp [eq]
  intro h
  simp only [eq, decide_eq_true_eq] at h
  obtain ⟨h1, h2⟩ := h
  have h3 : P.rev = Q.rev := by
    apply List.ext_getElem?
    intro i
    by_cases hi : i < P.edges.length
    · have hi' : i < Q.edges.length := by rw [← h2]; exact hi
      obtain ⟨r, hr⟩ : ∃ r, P.rev[i]? = some r := ⟨_, List.getElem?_eq_getElem (by rw [hP.len']; exact hi)⟩
      obtain ⟨r', hr'⟩ : ∃ r, Q.rev[i]? = some r := ⟨_, List.getElem?_eq_getElem (by rw [hQ.len']; exact hi')⟩
      obtain ⟨p, hp⟩ : ∃ p, P.polys[i]? = some p := ⟨_, List.getElem?_eq_getElem (by rw [hP.len]; omega)⟩
      obtain ⟨q, hq⟩ : ∃ q, P.polys[i + 1]? = some q := ⟨_, List.getElem?_eq_getElem (by rw [hP.len]; omega)⟩
      obtain ⟨e, he⟩ : ∃ e, P.edges[i]? = some e := ⟨_, List.getElem?_eq_getElem hi⟩
      have s1 := (hP.step i _ _ _ _ hp he hr hq).2
      rw [h1] at hp hq
      rw [h2] at he
      have s2 := (hQ.step i _ _ _ _ hp he hr' hq).2
      rw [s1] at s2
      simp only [Except.ok.injEq, Option.some.injEq, Prod.mk.injEq] at s2
      rw [hr, hr', s2.2]
    · rw [List.getElem?_eq_none (by rw [hP.len']; omega), List.getElem?_eq_none (by rw [hQ.len', ← h2]; omega)]
  obtain ⟨p, e, r⟩ := P
  obtain ⟨p', e', r'⟩ := Q
  dsimp only at h1 h2 h3
  rw [h1, h2, h3]

theorem follow_spec (hS : S.Closed valid) (as : List Int) {a : L} (ha : valid a) : ∃ w c, follow S a as = .ok (w.map (fun x => x.2.2.2), w.map (fun x => x.2.1),
    w.map (fun x => x.2.2.1)) ∧ Walk S valid a w c ∧ List.Forall₂ (fun (x : Letter L) (i : Int) => ∃ p, S.polygon x.1 = .ok p ∧ (x.2.1 : Int) = i % p.length) w as := by
  induction as generalizing a with
  | nil => exact ⟨[], a, rfl, rfl, .nil⟩
  | cons i as ih =>
    obtain ⟨p, hp, hv⟩ := hS.poly a ha
    have h3 := hv.len3
    have h0 : 0 ≤ i % (p.length : Int) := Int.emod_nonneg _ (by omega)
    have h1 : i % (p.length : Int) < p.length := Int.emod_lt_of_pos _ (by omega)
    obtain ⟨q, r, p', ho, hq, hp', hr, hback⟩ := hS.glue a p (i % (p.length : Int)).toNat ha hp (by omega)
    obtain ⟨w, c, hf, hw, hall⟩ := ih hq
    refine ⟨(a, (i % (p.length : Int)).toNat, r, q) :: w, c, ?_, ⟨rfl, ⟨ha, p, hp, by dsimp only; omega⟩, ho, hw⟩, .cons ⟨p, hp, by dsimp only; omega⟩ hall⟩
    unfold follow
    simp only [bind, Except.bind, hp, opp!_ok ho, hf, pure, Except.pure, List.map_cons]

/-- **C41**. The group called with a list of edges returns the path that leaves each polygon through the edge with the given number (modulo the number of edges), if that
path is closed, and otherwise fails. -/
theorem C41_constructor (hS : S.Closed valid) {b : L} (hb : valid b) (as : List Int) :
    ∃ c P, IsPath S valid b c P ∧ List.Forall₂ (fun (x : L × ℕ) (i : Int) => ∃ p, S.polygon x.1 = .ok p ∧ (x.2 : Int) = i % p.length) (P.polys.zip P.edges) as ∧
      ofEdges S b as = if c = b then .ok P else .error .assertionError := by
  obtain ⟨w, c, hf, hw, hall⟩ := follow_spec hS as hb
  refine ⟨c, toPath b w, isPath_iff.2 ⟨w, rfl, hw⟩, ?_, ?_⟩
  · have h1 : (toPath b w).polys.zip (toPath b w).edges = w.map (fun x => (x.1, x.2.1)) := by
      clear hf hall
      induction w generalizing b with
      | nil => rfl
      | cons x w ih =>
        have := ih (b := x.2.2.2) (by have := hS.bordered.opp_symm (d := (x.1, x.2.1)) hw.2.1 hw.2.2.1; exact this.1.1) hw.2.2.2
        simp only [toPath, List.map_cons, List.zip_cons_cons] at this ⊢
        rw [this, hw.1]
    rw [h1, List.forall₂_map_left_iff]
    exact hall
  · unfold ofEdges
    simp only [bind, Except.bind, hf]
    unfold make
    rw [if_neg (by simp)]
    have := toPath_ends hw
    unfold toPath at this
    rw [this.1, this.2]
    by_cases hc : c = b
    · rw [if_pos hc, if_pos ⟨rfl, by rw [hc]⟩]; rfl
    · rw [if_neg hc, if_neg]
      rintro ⟨-, h⟩
      exact hc (by simpa using h)

end

/-! ### Examples -/

theorem squareTorus_determined : Determined squareTorus (fun _ => True) := by
  rintro ⟨_, e⟩ ⟨_, e'⟩ q r r' _ _ _ _ h
  rw [Prod.mk.injEq]
  exact ⟨rfl, h⟩

example : IsPath squareTorus (fun _ => True) () () ⟨[(), (), ()], [0, 1], [2, 3]⟩ ∧ Reduced (⟨[(), (), ()], [0, 1], [2, 3]⟩ : FPath Unit) := by
  constructor
  · rw [isPath_iff]
    exact ⟨[((), 0, 2, ()), ((), 1, 3, ())], rfl, rfl, ⟨trivial, _, rfl, by decide⟩, rfl, rfl, ⟨trivial, _, rfl, by decide⟩, rfl, rfl⟩
  · intro i e r h1 h2
    match i with
    | 0 => simp at h1 h2; omega
    | i + 1 => simp at h2

/-- A sphere made from three squares `A = 0`, `B = 1`, `C = 2`: some edges are glued as in the comment of the violation below, the others to themselves. -/
def threeSquares : RSurf ℕ ℚ where
  polygon l := if l < 3 then .ok [(0, 0), (1, 0), (1, 1), (0, 1)] else .error .keyError
  opp l e :=
    if l < 3 ∧ e < 4 then
      match l, e with
      | 1, 0 => .ok (some (0, 0))
      | 0, 0 => .ok (some (1, 0))
      | 1, 1 => .ok (some (2, 0))
      | 2, 0 => .ok (some (1, 1))
      | 0, 1 => .ok (some (2, 1))
      | 2, 1 => .ok (some (0, 1))
      | l, e => .ok (some (l, e))
    else .error .valueError

theorem threeSquares_closed : threeSquares.Closed (fun l => l < 3) := by
  constructor
  · intro l hl
    exact ⟨_, if_pos hl, (Poly.check_iff _ (by decide)).1 (by decide +kernel)⟩
  · intro l p e hl hp he
    have : [(0, 0), (1, 0), (1, 1), (0, 1)] = p := by
      simp only [threeSquares, if_pos hl] at hp
      injection hp
    subst this
    have he' : e < 4 := he
    have key : ∀ (l : Fin 3) (e : Fin 4), ∃ (l' : Fin 3) (e' : Fin 4), threeSquares.opp l e = .ok (some (l', e')) ∧ threeSquares.opp l' e' = .ok (some (l, e)) := by
      decide +kernel
    obtain ⟨l', e', h1, h2⟩ := key ⟨l, hl⟩ ⟨e, he'⟩
    exact ⟨l', e', _, h1, l'.2, if_pos l'.2, e'.2, h2⟩

/-- **C41** fails in general: the product of two reduced closed paths need not be a path of the surface.  The path from the second square through its edge 1 to the third
one, through edge 1 to the first one, and through edge 0 back, is multiplied with itself.  Only the numbers of the edges are compared, so that two steps are cancelled
although they are not inverses of each other. -/
theorem C41_product_violation : ∃ P R : FPath ℕ, IsPath threeSquares (fun l => l < 3) 1 1 P ∧ Reduced P ∧ mul 1 P P = .ok (some R) ∧
    ∀ c, ¬ IsPath threeSquares (fun l => l < 3) 1 c R := by
  refine ⟨⟨[1, 2, 0, 1], [1, 1, 0], [0, 1, 0]⟩, ⟨[1, 2, 1], [1, 0], [0, 0]⟩, ?_, ?_, by decide +kernel, ?_⟩
  · rw [isPath_iff]
    refine ⟨[(1, 1, 0, 2), (2, 1, 1, 0), (0, 0, 0, 1)], rfl, rfl, ⟨by decide, _, rfl, by decide⟩, rfl, rfl, ⟨by decide, _, rfl, by decide⟩, rfl, rfl,
      ⟨by decide, _, rfl, by decide⟩, rfl, rfl⟩
  · intro i e r h1 h2
    match i with
    | 0 => simp at h1 h2; omega
    | 1 => simp at h1 h2; omega
    | i + 2 => simp at h2
  · intro c h
    have := (h.step 1 2 1 0 0 rfl rfl rfl rfl).2
    revert this
    decide +kernel

end FPath
end Flat
