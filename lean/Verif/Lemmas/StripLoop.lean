import Verif.Lemmas.StripSaddle
import Verif.Model.Cylinder
import Verif.Props.Covers

/-!
# Strips that close up

The polygons that are crossed through a list of edges.  When they come back to the start, up to a translation in the plane, they repeat as a strip.
-/

namespace Flat
variable {L K : Type} [Field K] [LinearOrder K] [IsStrictOrderedRing K]

namespace RSurf
open Poly
variable {S : RSurf L K} {valid : L → Prop}

/-- Only edges of polygons are glued. -/
def EdgesOnly (S : RSurf L K) (valid : L → Prop) : Prop :=
  ∀ l e c, valid l → S.opp l e = .ok (some c) → ∃ p, S.polygon l = .ok p ∧ e < p.length

/-- The polygons that are crossed through a list of edges, with the maps that unfold them into the plane. -/
inductive Unfolds (S : RSurf L K) (valid : L → Prop) : L → Similarity K → List ℕ → List (L × Similarity K) → Prop
  | nil {l : L} {G : Similarity K} (hl : valid l) : Unfolds S valid l G [] [(l, G)]
  | cons {l l' : L} {G g : Similarity K} {e e' : ℕ} {es : List ℕ} {xs : List (L × Similarity K)} (hl : valid l)
      (hg : S.GluesTo l e l' e' g) (h : Unfolds S valid l' (G.mul g.inv) es xs) : Unfolds S valid l G (e :: es) ((l, G) :: xs)

theorem planar_opp_of_glue (hS : S.Closed valid) {l l' : L} {e e' : ℕ} {g : Similarity K} (hl : valid l) (h : S.GluesTo l e l' e' g) (G : Similarity K) :
    S.planarCover.opp! (l, G) e = .ok ((l', G.mul g.inv), e') := by
  apply opp!_ok
  simp only [planarCover, opp!_ok h.opp, edgeTransformation_of_glue hS hl h, bind, Except.bind, pure, Except.pure]

theorem Unfolds.labels (hS : S.Closed valid) {l : L} {G : Similarity K} {es : List ℕ} {xs : List (L × Similarity K)} (h : S.Unfolds valid l G es xs) :
    S.cylLabels (l, G) es = .ok xs := by
  induction h with
  | nil hl => rfl
  | cons hl hg h ih =>
    unfold cylLabels
    simp only [planar_opp_of_glue hS hl hg, ih, bind, Except.bind, pure, Except.pure]

theorem unfolds_of_labels (hS : S.Closed valid) (hE : S.EdgesOnly valid) {es : List ℕ} :
    ∀ {l : L} {G : Similarity K} {xs : List (L × Similarity K)}, valid l → S.cylLabels (l, G) es = .ok xs → S.Unfolds valid l G es xs := by
  induction es with
  | nil =>
    intro l G xs hl h
    unfold cylLabels at h
    injection h with h
    subst h
    exact .nil hl
  | cons e es ih =>
    intro l G xs hl h
    unfold cylLabels at h
    cases h1 : S.planarCover.opp! (l, G) e with
    | error x => rw [h1] at h; cases h
    | ok y =>
      have h2 : ∃ c, S.opp l e = .ok (some c) := by
        unfold opp! at h1
        simp only [planarCover, opp!, bind, Except.bind] at h1
        cases h3 : S.opp l e with
        | error x => rw [h3] at h1; cases h1
        | ok o =>
          cases o with
          | none => rw [h3] at h1; cases h1
          | some c => exact ⟨c, rfl⟩
      obtain ⟨c, hc⟩ := h2
      obtain ⟨p, hp, he⟩ := hE l e c hl hc
      obtain ⟨l', e', p', g, hg, -, -, hl', -⟩ := gluesTo_ok hS hl hp he
      have h3 := planar_opp_of_glue hS hl hg G
      rw [h1] at h3; injection h3 with h3; subst h3
      simp only [h1, bind, Except.bind] at h
      cases h4 : S.cylLabels (l', G.mul g.inv) es with
      | error x => rw [h4] at h; cases h
      | ok ys =>
        rw [h4] at h
        injection h with h
        subst h
        exact .cons hl hg (ih hl' h4)

theorem Unfolds.length {l : L} {G : Similarity K} {es : List ℕ} {xs : List (L × Similarity K)} (h : S.Unfolds valid l G es xs) :
    xs.length = es.length + 1 := by
  induction h with
  | nil hl => rfl
  | cons hl hg h ih => simp [ih]

theorem Unfolds.head {l : L} {G : Similarity K} {es : List ℕ} {xs : List (L × Similarity K)} (h : S.Unfolds valid l G es xs) :
    ∃ r, xs = (l, G) :: r := by
  cases h <;> exact ⟨_, rfl⟩

theorem Unfolds.get {l : L} {G : Similarity K} {es : List ℕ} {xs : List (L × Similarity K)} (h : S.Unfolds valid l G es xs) :
    ∀ r (hr : r < es.length) (h1 : r < xs.length) (h2 : r + 1 < xs.length), valid xs[r].1 ∧
      ∃ e' g, S.GluesTo xs[r].1 es[r] xs[r + 1].1 e' g ∧ xs[r + 1].2 = xs[r].2.mul g.inv := by
  induction h with
  | nil hl => intro r hr; cases hr
  | @cons l l' G g e e' es xs hl hg h ih =>
    intro r hr h1 h2
    cases r with
    | zero =>
      obtain ⟨t, rfl⟩ := h.head
      exact ⟨hl, e', g, hg, rfl⟩
    | succ r =>
      simp only [List.length_cons] at hr h1 h2
      exact ih r (by omega) (by omega) (by omega)

theorem Unfolds.get_wf {l : L} {G : Similarity K} {es : List ℕ} {xs : List (L × Similarity K)} (h : S.Unfolds valid l G es xs) (hw : G.WF) (hs : G.sign = 1) :
    ∀ x ∈ xs, x.2.WF ∧ x.2.sign = 1 := by
  induction h with
  | nil hl =>
    intro x hx
    rw [List.mem_singleton] at hx
    subst hx
    exact ⟨hw, hs⟩
  | @cons l l' G g e e' es xs hl hg h ih =>
    intro x hx
    rcases List.mem_cons.1 hx with rfl | hx
    · exact ⟨hw, hs⟩
    · refine ih (Similarity.C01_mul_wf _ _ hw (Similarity.C01_inv_wf _ hg.wf)) ?_ x hx
      exact mul_sign hs hg.sign

/-- A strip that repeats after `n` polygons, moved by the vector `v`. -/
structure Loop (S : RSurf L K) (valid : L → Prop) (n : ℕ) (v : Vec K) (l : ℤ → L) (p : ℤ → Poly K) (e e' : ℤ → ℕ) (g G : ℤ → Similarity K) : Prop
    extends Strip S valid l p e e' g G where
  per_l : ∀ i, l (i + n) = l i
  per_p : ∀ i, p (i + n) = p i
  per_e : ∀ i, e (i + n) = e i
  per_e' : ∀ i, e' (i + n) = e' i
  per_g : ∀ i, g (i + n) = g i
  per_G : ∀ i, G (i + n) = (Similarity.ofVec v).mul (G i)

/-- The position in a list that repeats. -/
def pos (n : ℕ) (i : ℤ) : ℕ := (i % n).toNat

theorem pos_lt {n : ℕ} (hn : 0 < n) (i : ℤ) : pos n i < n := by
  unfold pos
  have := Int.emod_lt_of_pos i (b := n) (by omega)
  have := Int.emod_nonneg i (b := n) (by omega)
  omega

theorem pos_add (n : ℕ) (i : ℤ) : pos n (i + n) = pos n i := by
  unfold pos
  rw [Int.add_emod_right]

theorem pos_of_lt {n r : ℕ} (h : r < n) : pos n r = r := by
  unfold pos
  rw [Int.emod_eq_of_lt (by omega) (by omega)]
  rfl

theorem pos_succ {n : ℕ} (hn : 0 < n) (i : ℤ) : (pos n i + 1 < n ∧ pos n (i + 1) = pos n i + 1 ∧ (i + 1) / (n : ℤ) = i / n) ∨
    (pos n i + 1 = n ∧ pos n (i + 1) = 0 ∧ (i + 1) / (n : ℤ) = i / n + 1) := by
  have h1 := Int.emod_lt_of_pos i (b := n) (by omega)
  have h2 := Int.emod_nonneg i (b := n) (by omega)
  have h3 := Int.mul_ediv_add_emod i n
  have hpos : ((pos n i : ℕ) : ℤ) = i % n := by unfold pos; omega
  by_cases h : pos n i + 1 < n
  · left
    have e1 : i + 1 = (i % n + 1) + n * (i / n) := by linarith
    have hlt : i % n + 1 < n := by omega
    refine ⟨h, ?_, ?_⟩
    · unfold pos
      conv_lhs => rw [e1]
      rw [Int.add_mul_emod_self_left, Int.emod_eq_of_lt (by omega) hlt]
      omega
    · conv_lhs => rw [e1]
      rw [Int.add_mul_ediv_left _ _ (by omega), Int.ediv_eq_zero_of_lt (by omega) hlt, zero_add]
  · right
    have hp := pos_lt hn i
    have hq : pos n i + 1 = n := by omega
    have e1 : i + 1 = 0 + n * (i / n + 1) := by
      have : (n : ℤ) = i % n + 1 := by omega
      have e2 : (n : ℤ) * (i / n + 1) = n * (i / n) + n := by ring
      omega
    refine ⟨hq, ?_, ?_⟩
    · unfold pos
      conv_lhs => rw [e1]
      rw [Int.add_mul_emod_self_left]
      simp
    · conv_lhs => rw [e1]
      rw [Int.add_mul_ediv_left _ _ (by omega)]
      simp

omit [LinearOrder K] [IsStrictOrderedRing K] in
theorem ofVec_add (a b : Vec K) : Similarity.ofVec (a + b) = (Similarity.ofVec a).mul (Similarity.ofVec b) := by
  unfold Similarity.ofVec Similarity.mul
  simp
  constructor <;> ring

/-- The polygons that are crossed through a list of edges repeat as a strip when they come back to the start up to a translation. -/
theorem exists_loop (hS : S.Closed valid) (hc : S.AllConvex valid) {l0 : L} {es : List ℕ} {xs : List (L × Similarity K)} (h : S.Unfolds valid l0 .one es xs) (hn : es ≠ [])
    {v : Vec K} (hx : xs.getLast? = some (l0, .ofVec v)) :
    ∃ l p e e' g G, S.Loop valid es.length v l p e e' g G ∧ (∀ r : ℕ, ∀ hr : r < es.length, e r = es[r]) ∧
      (∀ r : ℕ, ∀ hr : r < xs.length, (l r, G r) = xs[r]) := by
  have hlen := h.length
  have hn0 : 0 < es.length := List.length_pos_iff.2 hn
  have hlast : xs[es.length] = (l0, .ofVec v) := by
    rw [List.getLast?_eq_getElem?, hlen, Nat.add_sub_cancel, List.getElem?_eq_getElem (by omega)] at hx
    exact Option.some.inj hx
  have hfirst : xs[0] = (l0, .one) := by
    obtain ⟨t, rfl⟩ := h.head
    rfl
  have hex : ∀ r : ℕ, ∃ (e' : ℕ) (g : Similarity K) (p : Poly K), ∀ hr : r < es.length, S.GluesTo xs[r].1 es[r] xs[r + 1].1 e' g ∧
      xs[r + 1].2 = xs[r].2.mul g.inv ∧ S.polygon xs[r].1 = .ok p := by
    intro r
    by_cases hr : r < es.length
    · obtain ⟨h1, e', g, h2, h3⟩ := h.get r hr (by omega) (by omega)
      obtain ⟨p, hp, -⟩ := hS.poly _ h1
      exact ⟨e', g, p, fun _ => ⟨h2, h3, hp⟩⟩
    · exact ⟨0, .one, [], fun h => absurd h hr⟩
  choose e' g p hall using hex
  have hwf := h.get_wf one_wf rfl
  have hvalid : ∀ r (hr : r < es.length), valid xs[r].1 := fun r hr => (h.get r hr (by omega) (by omega)).1
  let n := es.length
  let P := pos n
  have hP : ∀ i, P i < n := pos_lt hn0
  let X : ℤ → L × Similarity K := fun i => xs[P i]'(by have := hP i; omega)
  have hXs : ∀ i, (P i + 1 < n ∧ P (i + 1) = P i + 1 ∧ X (i + 1) = xs[P i + 1]'(by have := hP i; omega) ∧ (i + 1) / (n : ℤ) = i / n) ∨
      (P i + 1 = n ∧ P (i + 1) = 0 ∧ X (i + 1) = (l0, .one) ∧ xs[P i + 1]'(by have := hP i; omega) = (l0, .ofVec v) ∧ (i + 1) / (n : ℤ) = i / n + 1) := by
    intro i
    rcases pos_succ hn0 i with ⟨h1, h2, h3⟩ | ⟨h1, h2, h3⟩
    · refine .inl ⟨h1, h2, ?_, h3⟩
      show xs[P (i + 1)]'_ = _
      have h2 : P (i + 1) = P i + 1 := h2
      simp only [h2]
    · refine .inr ⟨h1, h2, ?_, ?_, h3⟩
      · show xs[P (i + 1)]'_ = _
        have h2 : P (i + 1) = 0 := h2
        simp only [h2]
        exact hfirst
      · have h1 : P i + 1 = es.length := h1
        simp only [h1]
        exact hlast
  have hlab : ∀ i, (X (i + 1)).1 = (xs[P i + 1]'(by have := hP i; omega)).1 := by
    intro i
    rcases hXs i with ⟨-, -, h1, -⟩ | ⟨-, -, h1, h2, -⟩
    · rw [h1]
    · rw [h1, h2]
  have hpoly : ∀ i, S.polygon (X i).1 = .ok (p (P i)) := fun i => (hall (P i) (hP i)).2.2
  have hgl : ∀ i, S.GluesTo (X i).1 (es[P i]'(hP i)) (X (i + 1)).1 (e' (P i)) (g (P i)) := by
    intro i
    have := (hall (P i) (hP i)).1
    rw [hlab]
    exact this
  have hXwf : ∀ i, (X i).2.WF ∧ (X i).2.sign = 1 := fun i => hwf _ (List.getElem_mem _)
  refine ⟨fun i => (X i).1, fun i => p (P i), fun i => es[P i]'(hP i), fun i => e' (P i), fun i => g (P i),
    fun i => (Similarity.ofVec (((i / (n : ℤ) : ℤ) : K) • v)).mul (X i).2, ?_, ?_, ?_⟩
  · have hstep : ∀ i, (Similarity.ofVec ((((i + 1) / (n : ℤ) : ℤ) : K) • v)).mul (X (i + 1)).2 =
        ((Similarity.ofVec (((i / (n : ℤ) : ℤ) : K) • v)).mul (X i).2).mul (g (P i)).inv := by
      intro i
      have h1 := (hall (P i) (hP i)).2.1
      have h2 : (X i).2.mul (g (P i)).inv = (xs[P i + 1]'(by have := hP i; omega)).2 := h1.symm
      rw [Similarity.C01_mul_assoc _ _ _ (ofVec_wf _) (hXwf i).1, h2]
      rcases hXs i with ⟨-, -, h3, h4⟩ | ⟨-, -, h3, h4, h5⟩
      · rw [h3, h4]
      · rw [h3, h4, h5]
        push_cast
        rw [add_smul, one_smul, ofVec_add]
        exact Similarity.C01_mul_one _
    have hper : ∀ i : ℤ, P (i + n) = P i := pos_add n
    have hperX : ∀ i : ℤ, X (i + n) = X i := by
      intro i
      show xs[P (i + n)]'_ = xs[P i]'_
      simp only [hper i]
    exact {
      valid := fun i => hvalid _ (hP i)
      polygon := hpoly
      convex := fun i => hc _ _ (hvalid _ (hP i)) (hpoly i)
      lt := fun i => by
        obtain ⟨q, q', hq, -, hlt, -⟩ := (hgl i).ends
        rw [hpoly] at hq; injection hq with hq; subst hq
        exact hlt
      lt' := fun i => by
        obtain ⟨q, q', hq, hq', hlt, -⟩ := (hgl i).ends
        obtain ⟨-, q2, h2, h3, -⟩ := hS.bordered.back (hvalid _ (hP i)) hq hlt (hgl i).opp
        rw [hpoly] at h2; injection h2 with h2; subst h2
        exact h3
      glues := hgl
      wf := fun i => Similarity.C01_mul_wf _ _ (ofVec_wf _) (hXwf i).1
      sign := fun i => mul_sign rfl (hXwf i).2
      step := hstep
      per_l := fun i => by rw [hperX]
      per_p := fun i => by rw [hper]
      per_e := fun i => by
        show es[P (i + n)]'_ = es[P i]'_
        simp only [hper i]
      per_e' := fun i => by rw [hper]
      per_g := fun i => by rw [hper]
      per_G := fun i => by
        rw [hperX, Int.add_ediv_of_dvd_right (dvd_refl _), Int.ediv_self (by omega), ← Similarity.C01_mul_assoc _ _ _ (ofVec_wf _) (ofVec_wf _)]
        push_cast
        rw [add_smul, one_smul, add_comm, ofVec_add] }
  · intro r hr
    have : P r = r := pos_of_lt hr
    simp only [this]
  · intro r hr
    by_cases hr2 : r < n
    · have h1 : P r = r := pos_of_lt hr2
      have h2 : X r = xs[r] := by
        show xs[P r]'_ = _
        simp only [h1]
      have h3 : ((r : ℤ) / (n : ℤ)) = 0 := Int.ediv_eq_zero_of_lt (by omega) (by omega)
      dsimp only
      rw [h2, h3]
      have : (Similarity.ofVec ((((0 : ℤ)) : K) • v)) = Similarity.one := by simp [Similarity.ofVec, Similarity.one]
      rw [this, Similarity.C01_one_mul]
    · have h1 : r = n := by omega
      subst h1
      have h1 : X (n : ℤ) = (l0, .one) := by
        have h2 : P (n : ℤ) = 0 := by
          have := pos_add n 0
          rw [zero_add] at this
          show pos n n = 0
          rw [this]
          exact pos_of_lt (r := 0) hn0
        show xs[P (n : ℤ)]'_ = _
        simp only [h2]
        exact hfirst
      dsimp only
      rw [h1, Int.ediv_self (by omega), hlast]
      simp only [Int.cast_one, one_smul, Similarity.C01_mul_one]

end RSurf
end Flat
