import Mathlib.Algebra.BigOperators.Group.List.Basic
import Mathlib.Algebra.Order.BigOperators.Group.List
import Mathlib.Algebra.Order.Ring.Defs
import Mathlib.Tactic.Linarith
import Mathlib.Tactic.Ring
import Mathlib.Tactic.NormNum
import Mathlib.Data.Rat.Defs
import Mathlib.Algebra.Order.Ring.Rat
import Verif.Model.FlowMap

/-!
# C43: `FlowPolygonMap` moves points between two partitions of an interval
-/

namespace Flat
variable {L K : Type} [DecidableEq L] [CommRing K] [LinearOrder K] [IsStrictOrderedRing K]

/-- Where interval `i` of a partition starts. -/
def flowStart (ls : List K) (i : ℕ) : K := (ls.take i).sum

theorem flowStart_succ {ls : List K} {i : ℕ} {l : K} (h : ls[i]? = some l) : flowStart ls (i + 1) = flowStart ls i + l := by
  unfold flowStart
  obtain ⟨hi, hl⟩ := List.getElem?_eq_some_iff.1 h
  rw [List.take_add_one, h, List.sum_append]
  simp

theorem flowStart_length (ls : List K) : flowStart ls ls.length = ls.sum := by
  unfold flowStart
  rw [List.take_length]

theorem flowStart_le {ls : List K} (hp : ∀ x ∈ ls, x > 0) (i : ℕ) : flowStart ls i ≤ ls.sum := by
  have h := List.sum_take_add_sum_drop ls i
  have h2 : 0 ≤ (ls.drop i).sum := List.sum_nonneg (fun x hx => (hp x (List.mem_of_mem_drop hx)).le)
  unfold flowStart
  linarith

theorem flowStart_mono {ls : List K} (hp : ∀ x ∈ ls, x > 0) {i j : ℕ} (h : i ≤ j) : flowStart ls i ≤ flowStart ls j := by
  have h1 := List.sum_take_add_sum_drop (ls.take j) i
  have h2 : 0 ≤ ((ls.take j).drop i).sum :=
    List.sum_nonneg (fun x hx => (hp x (List.mem_of_mem_take (List.mem_of_mem_drop hx))).le)
  unfold flowStart
  rw [List.take_take, Nat.min_eq_left h] at h1
  linarith

/-- Points in the interior of intervals have a single representation. -/
theorem flow_unique {ls : List K} (hp : ∀ x ∈ ls, x > 0) {i j : ℕ} {a b x y : K} (hi : ls[i]? = some a) (hj : ls[j]? = some b)
    (h : flowStart ls i + x = flowStart ls j + y) (hx : 0 < x) (hx' : x < a) (hy : 0 ≤ y) (hy' : y ≤ b) : i = j ∧ x = y := by
  have hij : i = j := by
    rcases lt_trichotomy i j with hlt | heq | hgt
    · exfalso
      have h1 := flowStart_mono hp (show i + 1 ≤ j from hlt)
      rw [flowStart_succ hi] at h1
      linarith
    · exact heq
    · exfalso
      have h1 := flowStart_mono hp (show j + 1 ≤ i from hgt)
      rw [flowStart_succ hj] at h1
      linarith
  subst hij
  exact ⟨rfl, by linarith⟩

/-! ## The constructor -/

theorem flowAdvance_spec {top : List K} (hp : ∀ x ∈ top, x > 0) (fuel : ℕ) (lenb : K) (it : ℕ) (lt x1 : K) (hit : top[it]? = some lt)
    (h0 : 0 < x1) (h1 : x1 ≤ lt) (hb : 0 ≤ lenb) (hle : flowStart top it + (lt - x1) + lenb ≤ top.sum) (hf : top.length + 1 ≤ fuel + it) :
    ∃ lenb' it' lt' x1', flowAdvance top fuel lenb it lt x1 = .ok (lenb', it', lt', x1') ∧
      ((lenb' = 0 ∧ flowStart top it + (lt - x1) + lenb = top.sum) ∨
       (top[it']? = some lt' ∧ 0 < x1' ∧ x1' ≤ lt' ∧ 0 ≤ lenb' ∧ lenb' < x1' ∧
          flowStart top it + (lt - x1) + lenb = flowStart top it' + (lt' - x1') + lenb')) := by
  induction fuel generalizing lenb it lt x1 with
  | zero =>
    have := (List.getElem?_eq_some_iff.1 hit).1
    omega
  | succ fuel ih =>
    rw [flowAdvance]
    by_cases hc : lenb ≠ 0 ∧ lenb ≥ x1
    · rw [if_pos hc]
      have hs := flowStart_succ hit
      cases ht : top[it + 1]? with
      | some t =>
        dsimp only
        have htp : 0 < t := hp t (List.mem_of_getElem? ht)
        obtain ⟨a, b, c, d, e1, e2⟩ := ih (lenb - x1) (it + 1) t t ht htp le_rfl (sub_nonneg.2 hc.2) (by rw [hs]; linarith) (by omega)
        refine ⟨a, b, c, d, e1, ?_⟩
        rcases e2 with ⟨e2, e3⟩ | ⟨e2, e3, e4, e5, e6, e7⟩
        · left
          exact ⟨e2, by rw [hs] at e3; linarith⟩
        · right
          exact ⟨e2, e3, e4, e5, e6, by rw [hs] at e7; linarith⟩
      | none =>
        dsimp only
        have hlen : it + 1 = top.length := by
          have h2 := (List.getElem?_eq_some_iff.1 hit).1
          have h3 := List.getElem?_eq_none_iff.1 ht
          omega
        have hsum := flowStart_length top
        rw [← hlen, hs] at hsum
        have hz : lenb - x1 = 0 := by
          have := hc.2
          linarith
        rw [hz]
        obtain ⟨f, rfl⟩ : ∃ f, fuel = f + 1 := ⟨fuel - 1, by omega⟩
        rw [flowAdvance, if_neg (by simp)]
        exact ⟨_, _, _, _, rfl, .inl ⟨rfl, by linarith⟩⟩
    · rw [if_neg hc]
      refine ⟨_, _, _, _, rfl, .inr ⟨hit, h0, h1, hb, ?_, rfl⟩⟩
      by_contra hlt
      push Not at hlt
      exact hc ⟨fun h => by rw [h] at hlt; linarith, hlt⟩

theorem flowImages_spec {top : List K} (hp : ∀ x ∈ top, x > 0) (bot : List K) (hq : ∀ x ∈ bot, x > 0) (it : ℕ) (lt x1 : K)
    (hgood : bot ≠ [] → top[it]? = some lt ∧ 0 < x1 ∧ x1 ≤ lt) (P : K) (hP : bot ≠ [] → P = flowStart top it + (lt - x1)) (hsum : P + bot.sum = top.sum) :
    ∃ imgs, flowImages top bot it lt x1 = .ok imgs ∧ imgs.length = bot.length ∧
      ∀ i, i < bot.length → ∃ j y t, imgs[i]? = some (j, y) ∧ top[j]? = some t ∧ 0 ≤ y ∧ y < t ∧ flowStart top j + y = P + flowStart bot i := by
  induction bot generalizing it lt x1 P with
  | nil => exact ⟨[], rfl, rfl, fun i hi => absurd hi (by simp)⟩
  | cons b bot ih =>
    obtain ⟨g1, g2, g3⟩ := hgood (by simp)
    have hP := hP (by simp)
    rw [List.sum_cons] at hsum
    have hbp : 0 < b := hq b (by simp)
    have hq' : ∀ x ∈ bot, x > 0 := fun x hx => hq x (List.mem_cons_of_mem _ hx)
    have hbot : 0 ≤ bot.sum := List.sum_nonneg (fun x hx => (hq' x hx).le)
    obtain ⟨b', it', lt', x1', e1, e2⟩ := flowAdvance_spec hp (top.length + 1) b it lt x1 g1 g2 g3 hbp.le (by linarith) (by omega)
    have hnil : flowStart top it + (lt - x1) + b = top.sum → bot = [] := by
      intro h
      by_contra hne
      have : 0 < bot.sum := List.sum_pos bot hq' hne
      linarith
    obtain ⟨imgs, i1, i2, i3⟩ := ih hq' it' lt' (if b' ≠ 0 then x1' - b' else x1') (by
        intro hne
        rcases e2 with ⟨-, e3⟩ | ⟨e2, e3, e4, e5, e6, e7⟩
        · exact absurd (hnil e3) hne
        · refine ⟨e2, ?_, ?_⟩ <;> split_ifs <;> linarith) (P + b) (by
        intro hne
        rcases e2 with ⟨-, e3⟩ | ⟨e2, e3, e4, e5, e6, e7⟩
        · exact absurd (hnil e3) hne
        · by_cases h0 : b' = 0
          · rw [if_neg (by simpa using h0)]; rw [h0] at e7; linarith
          · rw [if_pos h0]; linarith) (by linarith)
    refine ⟨(it, lt - x1) :: imgs, ?_, by simp [i2], ?_⟩
    · simp only [flowImages, e1, bind, Except.bind, i1, pure, Except.pure]
    · intro i hi
      cases i with
      | zero =>
        refine ⟨it, lt - x1, lt, rfl, g1, by linarith, by linarith, ?_⟩
        rw [hP]
        simp [flowStart]
      | succ i =>
        obtain ⟨j, y, t, k1, k2, k3, k4, k5⟩ := i3 i (by simpa using hi)
        refine ⟨j, y, t, k1, k2, k3, k4, ?_⟩
        rw [k5]
        simp only [flowStart, List.take_succ_cons, List.sum_cons]
        ring

/-! ## Moving points -/

theorem flowWalk_spec (ls : List K) (j : ℕ) (x : K) (hx : 0 ≤ x) (hs : x ≤ ls.sum) (hne : ls ≠ []) :
    ∃ k y l, flowWalk ls j x = .ok (j + k, y) ∧ ls[k]? = some l ∧ 0 ≤ y ∧ y ≤ l ∧ flowStart ls k + y = x := by
  induction ls generalizing j x with
  | nil => exact absurd rfl hne
  | cons l ls ih =>
    rw [flowWalk]
    by_cases h : x > l
    · rw [if_pos h]
      rw [List.sum_cons] at hs
      have hne' : ls ≠ [] := by
        rintro rfl
        simp at hs
        linarith
      obtain ⟨k, y, l', e1, e2, e3, e4, e5⟩ := ih (j + 1) (x - l) (by linarith) (by linarith) hne'
      refine ⟨k + 1, y, l', by rw [e1, Nat.add_assoc, Nat.add_comm 1 k], by simpa using e2, e3, e4, ?_⟩
      simp only [flowStart, List.take_succ_cons, List.sum_cons] at e5 ⊢
      linarith
    · rw [if_neg h]
      push Not at h
      exact ⟨0, x, l, rfl, rfl, hx, h, by simp [flowStart]⟩

/-- What the images of the left endpoints have to satisfy. -/
def FlowImages (bot top : List K) (images : List (ℕ × K)) : Prop :=
  ∀ i, i < bot.length → ∃ j y t, images[i]? = some (j, y) ∧ top[j]? = some t ∧ 0 ≤ y ∧ y < t ∧ flowStart top j + y = flowStart bot i

theorem flowMove_spec {bot top : List K} {images : List (ℕ × K)} (hp : ∀ x ∈ top, x > 0) (hq : ∀ x ∈ bot, x > 0)
    (hsum : top.sum = bot.sum) (hI : FlowImages bot top images) {i : ℕ} {len x : K} (hi : bot[i]? = some len) (hx : 0 ≤ x) (hx' : x ≤ len) :
    (flowStart bot i + x < bot.sum → ∃ j y t, flowMove bot top images i x = .ok (j, y) ∧ top[j]? = some t ∧ 0 ≤ y ∧ y ≤ t ∧
      flowStart top j + y = flowStart bot i + x) ∧
    (flowStart bot i + x = bot.sum → (∃ j y t, flowMove bot top images i x = .ok (j, y) ∧ top[j]? = some t ∧ 0 ≤ y ∧ y ≤ t ∧
      flowStart top j + y = flowStart bot i + x ∧ ∃ l, top.getLast? = some l ∧ l < len) ∨
      (flowMove bot top images i x = .error .indexError ∧ ∃ l, top.getLast? = some l ∧ len ≤ l)) := by
  obtain ⟨hil, -⟩ := List.getElem?_eq_some_iff.1 hi
  obtain ⟨j, y, t, k1, k2, k3, k4, k5⟩ := hI i hil
  have hmove : flowMove bot top images i x = if x + y < t then .ok (j, x + y) else flowWalk (top.drop (j + 1)) (j + 1) (x - (t - y)) := by
    unfold flowMove
    rw [hi, k1]
    dsimp only
    rw [if_neg (by push Not; exact ⟨hx, hx'⟩), k2]
  have hj1 := flowStart_succ k2
  have hle := flowStart_le hq (i + 1)
  rw [flowStart_succ hi] at hle
  rw [hmove]
  by_cases hlt : x + y < t
  · rw [if_pos hlt]
    refine ⟨fun _ => ⟨j, x + y, t, rfl, k2, by linarith, hlt.le, by linarith⟩, fun h => ?_⟩
    exfalso
    have := flowStart_le hp (j + 1)
    linarith
  · rw [if_neg hlt]
    push Not at hlt
    have hdrop : top.sum = flowStart top (j + 1) + (top.drop (j + 1)).sum := (List.sum_take_add_sum_drop top (j + 1)).symm
    by_cases hne : top.drop (j + 1) = []
    · have h0 : flowStart top (j + 1) = top.sum := by rw [hdrop, hne]; simp
      refine ⟨fun h => by exfalso; linarith, fun h => .inr ⟨by rw [hne]; rfl, ?_⟩⟩
      have hjl : j + 1 = top.length := by
        have h1 := (List.getElem?_eq_some_iff.1 k2).1
        have h2 := List.drop_eq_nil_iff.1 hne
        omega
      refine ⟨t, ?_, ?_⟩
      · rw [List.getLast?_eq_getElem?, ← hjl]; exact k2
      · have : x = len := by linarith
        linarith
    · obtain ⟨k, z, l, e1, e2, e3, e4, e5⟩ := flowWalk_spec (top.drop (j + 1)) (j + 1) (x - (t - y)) (by linarith) (by linarith) hne
      have hpos : flowStart top (j + 1 + k) + z = flowStart bot i + x := by
        have : flowStart top (j + 1 + k) = flowStart top (j + 1) + flowStart (top.drop (j + 1)) k := by
          unfold flowStart
          rw [List.take_add, List.sum_append]
        rw [this]
        linarith
      have hl : top[j + 1 + k]? = some l := by rw [← e2, List.getElem?_drop]
      refine ⟨fun _ => ⟨_, _, l, e1, hl, e3, e4, hpos⟩, fun h => .inl ⟨_, _, l, e1, hl, e3, e4, hpos, ?_⟩⟩
      have hjl : j + 1 < top.length := by
        by_contra hge
        exact hne (List.drop_eq_nil_iff.2 (by omega))
      refine ⟨top[top.length - 1], by rw [List.getLast?_eq_getElem?]; exact List.getElem?_eq_getElem _, ?_⟩
      have hlast := flowStart_succ (List.getElem?_eq_getElem (l := top) (i := top.length - 1) (by omega))
      rw [show top.length - 1 + 1 = top.length by omega, flowStart_length] at hlast
      have hmono := flowStart_mono hp (show j + 1 ≤ top.length - 1 by omega)
      have : x = len := by linarith
      linarith

/-! ## The properties -/

/-- The position in the whole interval of the point `x` in the interval with label `i`. -/
def flowPos (labels : List L) (lengths : List K) (i : L) (x : K) : K := flowStart lengths (labels.idxOf i) + x

/-- `x` is in the closed interval with label `i`. -/
def FlowIn (labels : List L) (lengths : List K) (i : L) (x : K) : Prop :=
  ∃ (k : ℕ) (l : K), labels[k]? = some i ∧ lengths[k]? = some l ∧ 0 ≤ x ∧ x ≤ l

/-- `x` is in the open interval with label `i`. -/
def FlowInterior (labels : List L) (lengths : List K) (i : L) (x : K) : Prop :=
  ∃ (k : ℕ) (l : K), labels[k]? = some i ∧ lengths[k]? = some l ∧ 0 < x ∧ x < l

/-- The invariants of a `FlowPolygonMap`. -/
structure FlowMap.Valid (T : FlowMap L K) : Prop where
  botPos : ∀ x ∈ T.botLengths, x > 0
  topPos : ∀ x ∈ T.topLengths, x > 0
  botLen : T.botLabels.length = T.botLengths.length
  topLen : T.topLabels.length = T.topLengths.length
  sum : T.topLengths.sum = T.botLengths.sum
  botNodup : T.botLabels.Nodup
  topNodup : T.topLabels.Nodup
  fwd : FlowImages T.botLengths T.topLengths T.forwardImages
  bwd : FlowImages T.topLengths T.botLengths T.backwardImages

theorem flowMap_spec (bl tl : List L) (b t : List K) :
    ((∀ x ∈ b, 0 < x) ∧ (∀ x ∈ t, 0 < x) ∧ bl.length = b.length ∧ tl.length = t.length ∧ t.sum = b.sum ∧ bl.Nodup ∧ tl.Nodup ∧ b ≠ [] →
      ∃ T : FlowMap L K, FlowMap.mk' bl b tl t = .ok T ∧ T.Valid ∧ T.botLabels = bl ∧ T.botLengths = b ∧ T.topLabels = tl ∧ T.topLengths = t) ∧
    (¬ ((∀ x ∈ b, 0 < x) ∧ (∀ x ∈ t, 0 < x) ∧ bl.length = b.length ∧ tl.length = t.length ∧ t.sum = b.sum ∧ bl.Nodup ∧ tl.Nodup ∧ b ≠ []) →
      FlowMap.mk' bl b tl t = .error .valueError ∨ FlowMap.mk' bl b tl t = .error .indexError) := by
  unfold FlowMap.mk'
  by_cases h1 : ∀ x ∈ b, x > 0
  swap
  · rw [if_pos h1]; exact ⟨fun h => absurd h.1 h1, fun _ => .inl rfl⟩
  rw [if_neg (not_not.2 h1)]
  by_cases h2 : ∀ x ∈ t, x > 0
  swap
  · rw [if_pos h2]; exact ⟨fun h => absurd h.2.1 h2, fun _ => .inl rfl⟩
  rw [if_neg (not_not.2 h2)]
  by_cases h3 : bl.length = b.length
  swap
  · rw [if_pos h3]; exact ⟨fun h => absurd h.2.2.1 h3, fun _ => .inl rfl⟩
  rw [if_neg (not_not.2 h3)]
  by_cases h4 : tl.length = t.length
  swap
  · rw [if_pos h4]; exact ⟨fun h => absurd h.2.2.2.1 h4, fun _ => .inl rfl⟩
  rw [if_neg (not_not.2 h4)]
  by_cases h5 : t.sum = b.sum
  swap
  · rw [if_pos h5]; exact ⟨fun h => absurd h.2.2.2.2.1 h5, fun _ => .inl rfl⟩
  rw [if_neg (not_not.2 h5)]
  by_cases h6 : bl.Nodup
  swap
  · rw [if_pos h6]; exact ⟨fun h => absurd h.2.2.2.2.2.1 h6, fun _ => .inl rfl⟩
  rw [if_neg (not_not.2 h6)]
  by_cases h7 : tl.Nodup
  swap
  · rw [if_pos h7]; exact ⟨fun h => absurd h.2.2.2.2.2.2.1 h7, fun _ => .inl rfl⟩
  rw [if_neg (not_not.2 h7)]
  cases b with
  | nil =>
    refine ⟨fun h => absurd rfl h.2.2.2.2.2.2.2, fun _ => .inr ?_⟩
    cases t <;> rfl
  | cons b0 b =>
    refine ⟨fun _ => ?_, fun h => absurd ⟨h1, h2, h3, h4, h5, h6, h7, by simp⟩ h⟩
    cases t with
    | nil =>
      exfalso
      have : 0 < (b0 :: b).sum := List.sum_pos _ h1 (by simp)
      rw [← h5] at this
      simp at this
    | cons t0 t =>
      obtain ⟨f, f1, -, f3⟩ := flowImages_spec h2 (b0 :: b) h1 0 t0 t0 (fun _ => ⟨rfl, h2 t0 (by simp), le_rfl⟩) 0 (by simp [flowStart]) (by rw [h5, zero_add])
      obtain ⟨g, g1, -, g3⟩ := flowImages_spec h1 (t0 :: t) h2 0 b0 b0 (fun _ => ⟨rfl, h1 b0 (by simp), le_rfl⟩) 0 (by simp [flowStart]) (by rw [h5, zero_add])
      simp only [f1, g1, bind, Except.bind, pure, Except.pure]
      refine ⟨_, rfl, ⟨h1, h2, h3, h4, h5, h6, h7, ?_, ?_⟩, rfl, rfl, rfl, rfl⟩
      · intro i hi; simpa using f3 i hi
      · intro i hi; simpa using g3 i hi

/-- The constructor accepts two partitions of an interval with distinct labels, and nothing else. -/
theorem C43_constructor (bl tl : List L) (b t : List K) :
    (∃ T, FlowMap.mk' bl b tl t = .ok T) ↔
      (∀ x ∈ b, 0 < x) ∧ (∀ x ∈ t, 0 < x) ∧ bl.length = b.length ∧ tl.length = t.length ∧ t.sum = b.sum ∧ bl.Nodup ∧ tl.Nodup ∧ b ≠ [] := by
  constructor
  · rintro ⟨T, hT⟩
    by_contra h
    rcases (flowMap_spec bl tl b t).2 h with h | h <;> rw [h] at hT <;> cases hT
  · intro h
    obtain ⟨T, hT, -⟩ := (flowMap_spec bl tl b t).1 h
    exact ⟨T, hT⟩

theorem flowMap_valid {bl tl : List L} {b t : List K} {T : FlowMap L K} (h : FlowMap.mk' bl b tl t = .ok T) : T.Valid ∧
    T.botLabels = bl ∧ T.botLengths = b ∧ T.topLabels = tl ∧ T.topLengths = t := by
  obtain ⟨T', h1, h2⟩ := (flowMap_spec bl tl b t).1 ((C43_constructor bl tl b t).1 ⟨T, h⟩)
  rw [h] at h1
  cases h1
  exact h2

theorem idxOf_of_getElem {ls : List L} (hn : ls.Nodup) {k : ℕ} {i : L} (h : ls[k]? = some i) : ls.idxOf i = k ∧ i ∈ ls := by
  obtain ⟨hk, rfl⟩ := List.getElem?_eq_some_iff.1 h
  exact ⟨hn.idxOf_getElem k hk, List.getElem_mem hk⟩

/-- Both directions at once. -/
theorem flowLabelled_spec {bot top : List K} {bl tl : List L} {images : List (ℕ × K)} (hp : ∀ x ∈ top, x > 0) (hq : ∀ x ∈ bot, x > 0)
    (hsum : top.sum = bot.sum) (hbl : bl.Nodup) (htl : tl.Nodup) (htlen : tl.length = top.length)
    (hI : FlowImages bot top images) {i : L} {x : K} (h : FlowIn bl bot i x) :
    (flowPos bl bot i x < bot.sum → ∃ j y, flowLabelled bot top bl tl images i x = .ok (j, y) ∧ FlowIn tl top j y ∧ flowPos tl top j y = flowPos bl bot i x) ∧
    (flowPos bl bot i x = bot.sum → ∃ m n, bot.getLast? = some m ∧ top.getLast? = some n ∧
      if m ≤ n then flowLabelled bot top bl tl images i x = .error .indexError
      else ∃ j y, flowLabelled bot top bl tl images i x = .ok (j, y) ∧ FlowIn tl top j y ∧ flowPos tl top j y = flowPos bl bot i x) := by
  obtain ⟨k, l, h1, h2, h3, h4⟩ := h
  obtain ⟨hk, hmem⟩ := idxOf_of_getElem hbl h1
  have hmove := flowMove_spec hp hq hsum hI h2 h3 h4
  have hconv : ∀ (j : ℕ) (y t : K), flowMove bot top images k x = .ok (j, y) → top[j]? = some t → 0 ≤ y → y ≤ t → flowStart top j + y = flowStart bot k + x →
      ∃ j y, flowLabelled bot top bl tl images i x = .ok (j, y) ∧ FlowIn tl top j y ∧ flowPos tl top j y = flowStart bot k + x := by
    intro j y t e1 e2 e3 e4 e5
    have hj : j < tl.length := by rw [htlen]; exact (List.getElem?_eq_some_iff.1 e2).1
    have hl : tl[j]? = some tl[j] := List.getElem?_eq_getElem hj
    refine ⟨tl[j], y, ?_, ⟨j, t, hl, e2, e3, e4⟩, ?_⟩
    · unfold flowLabelled
      rw [if_pos hmem, hk, e1]
      simp only [bind, Except.bind, hl]
      rfl
    · unfold flowPos
      rw [(idxOf_of_getElem htl hl).1]
      exact e5
  unfold flowPos
  rw [hk]
  refine ⟨fun hlt => ?_, fun heq => ?_⟩
  · obtain ⟨j, y, t, e1, e2, e3, e4, e5⟩ := hmove.1 hlt
    exact hconv j y t e1 e2 e3 e4 e5
  · have hlast : bot.getLast? = some l := by
      have hkl := (List.getElem?_eq_some_iff.1 h2).1
      have : k + 1 = bot.length := by
        by_contra hne
        have hlt' : k + 1 < bot.length := by omega
        have hs := flowStart_succ (List.getElem?_eq_getElem hlt')
        have hle := flowStart_le hq (k + 1 + 1)
        rw [hs, flowStart_succ h2] at hle
        have := hq _ (List.getElem_mem hlt')
        linarith
      rw [List.getLast?_eq_getElem?, ← this]
      exact h2
    rcases hmove.2 heq with ⟨j, y, t, e1, e2, e3, e4, e5, n, n1, n2⟩ | ⟨e1, n, n1, n2⟩
    · refine ⟨l, n, hlast, n1, ?_⟩
      rw [if_neg (not_le.2 n2)]
      exact hconv j y t e1 e2 e3 e4 e5
    · refine ⟨l, n, hlast, n1, ?_⟩
      rw [if_pos n2]
      unfold flowLabelled
      rw [if_pos hmem, hk, e1]
      rfl

/-- A point of the bottom partition other than the right endpoint of the whole interval has a forward image; it is a point of the top partition in the same
position. -/
theorem C43_forward {bl tl : List L} {b t : List K} {T : FlowMap L K} (h : FlowMap.mk' bl b tl t = .ok T) {i : L} {x : K} (hi : FlowIn bl b i x)
    (hr : flowPos bl b i x < b.sum) : ∃ j y, T.forwardImage i x = .ok (j, y) ∧ FlowIn tl t j y ∧ flowPos tl t j y = flowPos bl b i x := by
  obtain ⟨hv, rfl, rfl, rfl, rfl⟩ := flowMap_valid h
  exact (flowLabelled_spec hv.topPos hv.botPos hv.sum hv.botNodup hv.topNodup hv.topLen hv.fwd hi).1 hr

/-- The same for backward images. -/
theorem C43_backward {bl tl : List L} {b t : List K} {T : FlowMap L K} (h : FlowMap.mk' bl b tl t = .ok T) {j : L} {y : K} (hj : FlowIn tl t j y)
    (hr : flowPos tl t j y < t.sum) : ∃ i x, T.backwardImage j y = .ok (i, x) ∧ FlowIn bl b i x ∧ flowPos bl b i x = flowPos tl t j y := by
  obtain ⟨hv, rfl, rfl, rfl, rfl⟩ := flowMap_valid h
  exact (flowLabelled_spec hv.botPos hv.topPos hv.sum.symm hv.topNodup hv.botNodup hv.botLen hv.bwd hj).1 hr

/-- Points outside of the interval are rejected with a `ValueError`, unknown labels with a `KeyError`. -/
theorem C43_errors {bl tl : List L} {b t : List K} {T : FlowMap L K} (h : FlowMap.mk' bl b tl t = .ok T) (i : L) (x : K) :
    (i ∉ bl → T.forwardImage i x = .error .keyError) ∧ (i ∈ bl → ¬ FlowIn bl b i x → T.forwardImage i x = .error .valueError) := by
  obtain ⟨hv, rfl, rfl, rfl, rfl⟩ := flowMap_valid h
  unfold FlowMap.forwardImage flowLabelled
  refine ⟨fun hi => if_neg hi, fun hi hx => ?_⟩
  rw [if_pos hi]
  have hk := List.idxOf_lt_length_of_mem hi
  have hk' : T.botLabels.idxOf i < T.botLengths.length := hv.botLen ▸ hk
  obtain ⟨j, y, t, k1, k2, -⟩ := hv.fwd _ hk'
  have hl := List.getElem?_eq_getElem hk'
  have : flowMove T.botLengths T.topLengths T.forwardImages (T.botLabels.idxOf i) x = .error .valueError := by
    unfold flowMove
    rw [hl, k1]
    dsimp only
    rw [if_pos]
    by_contra hc
    push Not at hc
    refine hx ⟨_, _, ?_, hl, hc.1, hc.2⟩
    rw [List.getElem?_eq_getElem hk, List.getElem_idxOf]
  rw [this]
  rfl

theorem flowIn_unique {labels : List L} {lengths : List K} (hn : labels.Nodup) (hp : ∀ x ∈ lengths, x > 0) {i j : L} {x y : K}
    (h : FlowInterior labels lengths i x) (h' : FlowIn labels lengths j y) (hpos : flowPos labels lengths j y = flowPos labels lengths i x) : (j, y) = (i, x) := by
  obtain ⟨k, l, a1, a2, a3, a4⟩ := h
  obtain ⟨k', l', b1, b2, b3, b4⟩ := h'
  unfold flowPos at hpos
  rw [(idxOf_of_getElem hn a1).1, (idxOf_of_getElem hn b1).1] at hpos
  obtain ⟨rfl, rfl⟩ := flow_unique hp a2 b2 hpos.symm a3 a4 b3 b4
  rw [a1] at b1
  cases b1
  rfl

theorem FlowInterior.flowIn {labels : List L} {lengths : List K} {i : L} {x : K} (h : FlowInterior labels lengths i x) : FlowIn labels lengths i x := by
  obtain ⟨k, l, a1, a2, a3, a4⟩ := h
  exact ⟨k, l, a1, a2, a3.le, a4.le⟩

theorem FlowInterior.pos_lt {labels : List L} {lengths : List K} (hn : labels.Nodup) (hp : ∀ x ∈ lengths, x > 0) {i : L} {x : K}
    (h : FlowInterior labels lengths i x) : flowPos labels lengths i x < lengths.sum := by
  obtain ⟨k, l, a1, a2, a3, a4⟩ := h
  have := flowStart_le hp (k + 1)
  rw [flowStart_succ a2] at this
  unfold flowPos
  rw [(idxOf_of_getElem hn a1).1]
  linarith

/-- Going forward and then backward returns to the same point; for points in the interior of an interval.  This is what is missing for all points: endpoints of
intervals have two names, and the method may return the other one, see `C43_endpoint_violation`. -/
theorem C43_backward_forward_partial {bl tl : List L} {b t : List K} {T : FlowMap L K} (h : FlowMap.mk' bl b tl t = .ok T) {i : L} {x : K}
    (hi : FlowInterior bl b i x) : ∃ j y, T.forwardImage i x = .ok (j, y) ∧ T.backwardImage j y = .ok (i, x) := by
  obtain ⟨hv, h1, h2, h3, h4⟩ := flowMap_valid h
  have hn : bl.Nodup := h1 ▸ hv.botNodup
  have hp : ∀ x ∈ b, x > 0 := h2 ▸ hv.botPos
  have hs : t.sum = b.sum := by rw [← h2, ← h4]; exact hv.sum
  have hlt := hi.pos_lt hn hp
  obtain ⟨j, y, e1, e2, e3⟩ := C43_forward h hi.flowIn hlt
  obtain ⟨i', x', f1, f2, f3⟩ := C43_backward h e2 (by rw [e3, hs]; exact hlt)
  refine ⟨j, y, e1, ?_⟩
  rw [f1, flowIn_unique hn hp hi f2 (by rw [f3, e3])]

/-- Going backward and then forward returns to the same point, for points in the interior of an interval. -/
theorem C43_forward_backward_partial {bl tl : List L} {b t : List K} {T : FlowMap L K} (h : FlowMap.mk' bl b tl t = .ok T) {j : L} {y : K}
    (hj : FlowInterior tl t j y) : ∃ i x, T.backwardImage j y = .ok (i, x) ∧ T.forwardImage i x = .ok (j, y) := by
  obtain ⟨hv, h1, h2, h3, h4⟩ := flowMap_valid h
  have hn : tl.Nodup := h3 ▸ hv.topNodup
  have hp : ∀ x ∈ t, x > 0 := h4 ▸ hv.topPos
  have hs : t.sum = b.sum := by rw [← h2, ← h4]; exact hv.sum
  have hlt := hj.pos_lt hn hp
  obtain ⟨i, x, e1, e2, e3⟩ := C43_backward h hj.flowIn hlt
  obtain ⟨j', y', f1, f2, f3⟩ := C43_forward h e2 (by rw [e3, ← hs]; exact hlt)
  refine ⟨i, x, e1, ?_⟩
  rw [f1, flowIn_unique hn hp hj f2 (by rw [f3, e3])]

/-- For all points, going forward and backward returns to the same position. -/
theorem C43_backward_forward_position {bl tl : List L} {b t : List K} {T : FlowMap L K} (h : FlowMap.mk' bl b tl t = .ok T) {i : L} {x : K}
    (hi : FlowIn bl b i x) (hr : flowPos bl b i x < b.sum) : ∃ j y i' x', T.forwardImage i x = .ok (j, y) ∧ T.backwardImage j y = .ok (i', x') ∧
      FlowIn bl b i' x' ∧ flowPos bl b i' x' = flowPos bl b i x := by
  obtain ⟨hv, h1, h2, h3, h4⟩ := flowMap_valid h
  have hs : t.sum = b.sum := by rw [← h2, ← h4]; exact hv.sum
  obtain ⟨j, y, e1, e2, e3⟩ := C43_forward h hi hr
  obtain ⟨i', x', f1, f2, f3⟩ := C43_backward h e2 (by rw [e3, hs]; exact hr)
  exact ⟨j, y, i', x', e1, f1, f2, by rw [f3, e3]⟩

/-- Points of different intervals have different forward images, up to endpoints of the intervals: no two points in the interior of intervals have the
same image. -/
theorem C43_injective {bl tl : List L} {b t : List K} {T : FlowMap L K} (h : FlowMap.mk' bl b tl t = .ok T) {i i' : L} {x x' : K}
    (hi : FlowInterior bl b i x) (hi' : FlowInterior bl b i' x') (he : T.forwardImage i x = T.forwardImage i' x') : i = i' ∧ x = x' := by
  obtain ⟨j, y, e1, e2⟩ := C43_backward_forward_partial h hi
  obtain ⟨j', y', f1, f2⟩ := C43_backward_forward_partial h hi'
  rw [e1, f1] at he
  cases he
  rw [e2] at f2
  cases f2
  exact ⟨rfl, rfl⟩

/-- The right endpoint of the whole interval has a forward image if and only if the last interval of the bottom is longer than the last one of the top; else there is
an `IndexError` although the point passes the range check. -/
theorem C43_right_end {bl tl : List L} {b t : List K} {T : FlowMap L K} (h : FlowMap.mk' bl b tl t = .ok T) {i : L} {x : K} (hi : FlowIn bl b i x)
    (hr : flowPos bl b i x = b.sum) : ∃ m n, b.getLast? = some m ∧ t.getLast? = some n ∧
      if m ≤ n then T.forwardImage i x = .error .indexError
      else ∃ j y, T.forwardImage i x = .ok (j, y) ∧ FlowIn tl t j y ∧ flowPos tl t j y = flowPos bl b i x := by
  obtain ⟨hv, rfl, rfl, rfl, rfl⟩ := flowMap_valid h
  exact (flowLabelled_spec hv.topPos hv.botPos hv.sum hv.botNodup hv.topNodup hv.topLen hv.fwd hi).2 hr

/-- The result of the constructor for three intervals and one interval. -/
def exFlow : FlowMap ℕ ℚ := ⟨[2, 3, 4], [1, 1, 1], [0], [3], [(0, 0), (0, 1), (0, 2)], [(0, 0)]⟩

/-- The claim in the documentation that singularities are always sent to a point `(i, 0)` is wrong: the second one in an interval is not.  As a consequence, the
left endpoint of an interval does not go to itself when moving forward and backward. -/
theorem C43_endpoint_violation : FlowMap.mk' [2, 3, 4] [1, 1, 1] [0] [3] = .ok exFlow ∧ exFlow.backwardImage 0 1 = .ok (3, 0) ∧
    exFlow.forwardImage 4 0 = .ok (0, 2) ∧ exFlow.backwardImage 0 2 = .ok (3, 1) := by
  decide +kernel

/-- The right endpoint of the whole interval is in range but there is an `IndexError`. -/
theorem C43_right_end_violation : FlowIn [2, 3, 4] [1, 1, 1] 4 (1 : ℚ) ∧ exFlow.forwardImage 4 1 = .error .indexError := by
  exact ⟨⟨2, 1, by decide +kernel, by decide +kernel, by norm_num, by norm_num⟩, by decide +kernel⟩

example : FlowMap.mk' [0, 1, 2] [2, 3, (1 : ℚ)] [2, 1, 0] [1, 3, 2] =
      .ok ⟨[0, 1, 2], [2, 3, 1], [2, 1, 0], [1, 3, 2], [(0, 0), (1, 1), (2, 1)], [(0, 0), (0, 1), (1, 2)]⟩ ∧
    FlowInterior [0, 1, 2] [2, 3, 1] 1 (1 / 2 : ℚ) :=
  ⟨by decide +kernel, 1, 3, by decide +kernel, by decide +kernel, by norm_num, by norm_num⟩

end Flat
