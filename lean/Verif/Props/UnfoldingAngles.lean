import Verif.Lemmas.UnfoldingHolonomy
import Verif.Lemmas.UnfoldingStratum
import Mathlib.Tactic.LinearCombination
import Mathlib.Data.Nat.Prime.Int

/-!
# C86: angles and strata of unfolded billiards

The pillowcase of a polygon with angles `2π a` has cone points of angle `2π (2a)`.  Its holonomy group is generated by the rotations by these angles.  The
smallest cover that is a translation surface is the cover that corresponds to this group of rotations (modulo full turns); the smallest cover that is a
half-translation surface corresponds to the group of rotations modulo half turns.  Over a cone point of the pillowcase, there is one point of the cover
for each coset of the group generated by the rotation at the cone point, and the angle there is the angle of the cone point times the order of this rotation.
-/

namespace Flat

/-- **C86.** `_normalize_angles` accepts exactly the lists of at least three positive numbers such that no angle is a full turn or more when they
are rescaled to the angles of a polygon.  The result is proportional to the input and adds up to the angle sum of a polygon. -/
theorem C86_normalize (as : List ℚ) :
    (∀ bs, normalizeAngles as = .ok bs → 3 ≤ as.length ∧ (∃ c : ℚ, 0 < c ∧ bs = as.map (c * ·)) ∧ bs.sum = (bs.length : ℚ) / 2 - 1 ∧ ∀ b ∈ bs, 0 < b ∧ b < 1) ∧
    (∀ c : ℚ, 0 < c → 3 ≤ as.length → (∀ a ∈ as, 0 < a) → (as.map (c * ·)).sum = (as.length : ℚ) / 2 - 1 → (∀ a ∈ as, c * a < 1) →
      normalizeAngles as = .ok (as.map (c * ·))) := by
  have e : (as.map fun a => a / as.sum).map (fun a => a * ((as.length : ℚ) - 2) / 2) = as.map ((((as.length : ℚ) - 2) / 2 / as.sum) * ·) := by
    rw [List.map_map]
    refine List.map_congr_left fun a _ => ?_
    show a / as.sum * _ / 2 = _ / 2 / as.sum * a
    ring
  have hsum : ∀ (c : ℚ) (l : List ℚ), (l.map (c * ·)).sum = c * l.sum := by
    intro c l
    induction l with
    | nil => simp
    | cons a l ih => rw [List.map_cons, List.sum_cons, List.sum_cons, ih, mul_add]
  have hpos : 3 ≤ as.length → (∀ a ∈ as, 0 < a) → 0 < as.sum := by
    intro h3 h
    exact List.sum_pos as h (by rintro rfl; simp at h3)
  constructor
  · intro bs h
    unfold normalizeAngles at h
    simp only [e] at h
    by_cases h3 : as.length < 3
    · rw [if_pos h3] at h; exact absurd h (by simp)
    rw [if_neg h3] at h
    by_cases ha : as.any (fun a => decide (a ≤ 0)) = true
    · rw [if_pos ha] at h; exact absurd h (by simp)
    rw [if_neg ha] at h
    have ha' : ∀ a ∈ as, 0 < a := fun a hm => by
      by_contra hn
      exact ha (List.any_eq_true.2 ⟨a, hm, decide_eq_true (not_lt.1 hn)⟩)
    have hs := hpos (by omega) ha'
    have h3' : (3 : ℚ) ≤ as.length := by exact_mod_cast (not_lt.1 h3)
    split_ifs at h with hb
    obtain rfl := Except.ok.inj h
    refine ⟨by omega, ⟨_, div_pos (by linarith) hs, rfl⟩, ?_, ?_⟩
    · rw [hsum, List.length_map, div_mul_cancel₀ _ hs.ne']
      ring
    · intro b hm
      by_contra hn
      refine hb (List.any_eq_true.2 ⟨b, hm, ?_⟩)
      rw [Bool.or_eq_true, decide_eq_true_iff, decide_eq_true_iff]
      by_cases h0 : b ≤ 0
      · exact Or.inl h0
      · exact Or.inr (not_lt.1 fun h1 => hn ⟨not_le.1 h0, h1⟩)
  · intro c hc h3 ha hs h1
    have hp := hpos h3 ha
    have hce : ((as.length : ℚ) - 2) / 2 / as.sum = c := by
      rw [hsum] at hs
      rw [div_eq_iff hp.ne', hs]
      ring
    unfold normalizeAngles
    simp only [e, hce]
    rw [if_neg (by omega), if_neg, if_neg]
    · intro h
      obtain ⟨b, hb, h⟩ := List.any_eq_true.1 h
      obtain ⟨a, hm, rfl⟩ := List.mem_map.1 hb
      rw [Bool.or_eq_true, decide_eq_true_iff, decide_eq_true_iff] at h
      have := mul_pos hc (ha a hm)
      have := h1 a hm
      rcases h with h | h <;> linarith
    · intro h
      obtain ⟨b, hb, h⟩ := List.any_eq_true.1 h
      exact absurd (ha b hb) (not_lt.2 (of_decide_eq_true h))

example : normalizeAngles [1, 2, 5] = .ok [1 / 16, 1 / 8, 5 / 16] := by decide +kernel

instance : Fact ((0 : ℚ) < 1) := ⟨by norm_num⟩
instance : Fact ((0 : ℚ) < 1 / 2) := ⟨by norm_num⟩

/-- **C86.** `billiard_unfolding_angles("rational")`: the angles of the pillowcase. -/
theorem C86_rational (as : List ℚ) : ∃ d, billiardUnfoldingAngles as .rational = .ok d ∧ d.keys.Nodup ∧ (∀ e ∈ d, 0 < e.2) ∧
    (d.flatMap fun e => List.replicate e.2 e.1).Perm (as.map (2 * ·)) := by
  have h := rationalAngles_counts as
  refine ⟨rationalAngles as, ?_, h.nodup, h.pos, h.perm⟩
  simp [billiardUnfoldingAngles]

/-- **C86.** `billiard_unfolding_angles("translation")`: over a cone point of angle `x = 2a` there is one point for each coset of the group generated by
the rotation by `x` in the holonomy group, and the angle is `x` times the order of that rotation. -/
theorem C86_translation (as : List ℚ) : ∃ d, billiardUnfoldingAngles as .translation = .ok d ∧ d.keys.Nodup ∧ (∀ e ∈ d, 0 < e.2) ∧
    (d.flatMap fun e => List.replicate e.2 e.1).Perm ((as.map (2 * ·)).flatMap fun x : ℚ =>
      List.replicate ((AddSubgroup.zmultiples (x : AddCircle (1 : ℚ))).relIndex (AddSubgroup.closure {z | ∃ y : ℚ, y ∈ as.map (2 * ·) ∧ z = (y : AddCircle (1 : ℚ))}))
        (x * (addOrderOf (x : AddCircle (1 : ℚ)) : ℚ))) := by
  obtain ⟨d, h1, h2⟩ := unfoldingAngles_translation as
  refine ⟨d, h1, h2.nodup, h2.pos, h2.perm.trans (List.Perm.of_eq (List.flatMap_congr fun x hx => ?_))⟩
  have := relIndex_angle (p := 1) hx
  unfold holonomyGroup at this
  rw [this, addOrderOf_angle]
  simp only [div_one, List.map_id']

/-- **C86.** `billiard_unfolding_angles("half-translation")`: the same with rotations modulo half turns. -/
theorem C86_half_translation (as : List ℚ) : ∃ d, billiardUnfoldingAngles as .halfTranslation = .ok d ∧ d.keys.Nodup ∧ (∀ e ∈ d, 0 < e.2) ∧
    (d.flatMap fun e => List.replicate e.2 e.1).Perm ((as.map (2 * ·)).flatMap fun x : ℚ =>
      List.replicate ((AddSubgroup.zmultiples (x : AddCircle (1 / 2 : ℚ))).relIndex (AddSubgroup.closure {z | ∃ y : ℚ, y ∈ as.map (2 * ·) ∧ z = (y : AddCircle (1 / 2 : ℚ))}))
        (x * (addOrderOf (x : AddCircle (1 / 2 : ℚ)) : ℚ))) := by
  obtain ⟨d, h1, h2⟩ := unfoldingAngles_half as
  refine ⟨d, h1, h2.nodup, h2.pos, h2.perm.trans (List.Perm.of_eq (List.flatMap_congr fun x hx => ?_))⟩
  have := relIndex_angle (p := 1 / 2) hx
  unfold holonomyGroup at this
  have e : ∀ y : ℚ, y / (1 / 2) = 2 * y := fun y => by ring
  rw [this, addOrderOf_angle, e, List.map_map]
  congr 3
  refine List.map_congr_left fun a _ => ?_
  show 2 * (2 * a) = 2 * a / (1 / 2)
  ring

/-- The triangle with angles proportional to 1, 2, 5. -/
example : billiardUnfoldingAngles [1 / 16, 1 / 8, 5 / 16] .rational = .ok [(1 / 8, 1), (1 / 4, 1), (5 / 8, 1)] ∧
    billiardUnfoldingAngles [1 / 16, 1 / 8, 5 / 16] .halfTranslation = .ok [(1 / 2, 3), (5 / 2, 1)] ∧
    billiardUnfoldingAngles [1 / 16, 1 / 8, 5 / 16] .translation = .ok [(1, 3), (5, 1)] ∧
    billiardUnfoldingAngles [1 / 16, 1 / 8, 5 / 16] .other = .error .valueError := by decide +kernel

theorem stratum_core {d : Dict ℚ ℕ} {l : List ℚ} (hc : d.Counts l) (hl : l ≠ []) (hi : ∀ y ∈ l, 0 < y ∧ (2 * y).den = 1) {g : ℤ}
    (hg : (l.map (· - 1)).sum = 2 * (g - 1 : ℚ)) {as : List ℚ} {cover : CoverType} (hcover : cover = .translation ∨ cover = .halfTranslation)
    (hd : billiardUnfoldingAngles as cover = .ok d) (marked : Bool) : ∃ (ks : List ℤ) (k : ℕ),
      billiardUnfoldingStratum as cover marked = .ok (ks, k) ∧ billiardUnfoldingStratumDimension as cover marked = .ok (2 * g + ks.length - k) ∧
      ((k = 1 ∧ ∀ y ∈ l, y.den = 1) ∨ (k = 2 ∧ ∃ y ∈ l, y.den = 2)) ∧ ks.sum = k * (2 * g - 2) ∧ (∀ j ∈ ks, -1 ≤ j ∧ (k = 1 → 0 ≤ j)) ∧
      (if marked = true then (ks.map fun j : ℤ => (j : ℚ) / k + 1).Perm l else
        ((∀ y ∈ l, y = 1) ∧ ks = [0]) ∨ ((∃ y ∈ l, y ≠ 1) ∧ (ks.map fun j : ℤ => (j : ℚ) / k + 1).Perm (l.filter fun y => decide (y ≠ 1)))) := by
  have hmem := hc.mem
  -- the number of the kind
  obtain ⟨k, hk0, hk, hkey⟩ : ∃ k : ℕ, k ≠ 0 ∧ ((k = 1 ∧ ∀ y ∈ l, y.den = 1) ∨ (k = 2 ∧ ∃ y ∈ l, y.den = 2)) ∧
      (d.keys.all (fun a => decide (a.den = 1)) = true ↔ k = 1) := by
    by_cases h : ∀ y ∈ l, y.den = 1
    · refine ⟨1, by decide, Or.inl ⟨rfl, h⟩, by simp only [List.all_eq_true, decide_eq_true_iff, hmem]; exact ⟨fun _ => trivial, fun _ => h⟩⟩
    · refine ⟨2, by decide, Or.inr ⟨rfl, ?_⟩, by simp only [List.all_eq_true, decide_eq_true_iff, hmem]; exact ⟨fun h' => absurd h' h, fun h' => absurd h' (by decide)⟩⟩
      push Not at h
      obtain ⟨y, hy, h⟩ := h
      refine ⟨y, hy, ?_⟩
      rcases Nat.mod_two_eq_zero_or_one y.den with h0 | h0
      · rw [← (den_two_mul.2 h0).1, (hi y hy).2]
      · exact absurd ((den_two_mul.1 h0).1.symm.trans (hi y hy).2) h
  have hint : ∀ y ∈ l, ((k : ℚ) * (y - 1)).den = 1 := by
    intro y hy
    rcases hk with ⟨rfl, h⟩ | ⟨rfl, -⟩
    · have := (toZZ_eq (h y hy)).2
      rw [← this, show ((1 : ℕ) : ℚ) * ((y.num : ℚ) - 1) = ((y.num - 1 : ℤ) : ℚ) by push_cast; ring]
      exact Rat.den_intCast _
    · have := (toZZ_eq (hi y hy).2).2
      rw [show ((2 : ℕ) : ℚ) * (y - 1) = (((2 * y).num - 2 : ℤ) : ℚ) by push_cast; rw [this]; ring]
      exact Rat.den_intCast _
  have hkq : (k : ℚ) ≠ 0 := by exact_mod_cast hk0
  -- consequences for a list of degrees
  have fin : ∀ (ks : List ℤ) (l' : List ℚ), (∀ y ∈ l', y ∈ l) → (l'.map (· - 1)).sum = 2 * (g - 1 : ℚ) → (ks.map fun j : ℤ => (j : ℚ)).Perm (l'.map fun a => (k : ℚ) * (a - 1)) →
      ks.sum = k * (2 * g - 2) ∧ (∀ j ∈ ks, -1 ≤ j ∧ (k = 1 → 0 ≤ j)) ∧ (ks.map fun j : ℤ => (j : ℚ) / k + 1).Perm l' ∧ ks.length = l'.length := by
    intro ks l' hsub hs hp
    refine ⟨?_, ?_, ?_, ?_⟩
    · have h1 := hp.sum_eq
      have h2 : (l'.map fun a => (k : ℚ) * (a - 1)).sum = k * (l'.map (· - 1)).sum := by
        clear hs hsub hp h1
        induction l' with
        | nil => simp
        | cons a l' ih => rw [List.map_cons, List.sum_cons, ih, List.map_cons, List.sum_cons, mul_add]
      have h3 : (ks.map fun j : ℤ => (j : ℚ)).sum = ((ks.sum : ℤ) : ℚ) := by
        clear hp h1
        induction ks with
        | nil => simp
        | cons a ks ih => rw [List.map_cons, List.sum_cons, ih, List.sum_cons, Int.cast_add]
      rw [h2, h3, hs] at h1
      have : ((ks.sum : ℤ) : ℚ) = ((k * (2 * g - 2) : ℤ) : ℚ) := by rw [h1]; push_cast; ring
      exact_mod_cast this
    · intro j hj
      obtain ⟨y, hy, e⟩ := List.mem_map.1 (hp.mem_iff.1 (List.mem_map_of_mem (f := fun j : ℤ => (j : ℚ)) hj))
      have hy' := hi y (hsub y hy)
      rcases hk with ⟨rfl, h⟩ | ⟨rfl, -⟩
      · have hn := (toZZ_eq (h y (hsub y hy))).2
        have hp1 : 0 < y.num := Rat.num_pos.2 hy'.1
        have : (j : ℚ) = ((y.num - 1 : ℤ) : ℚ) := by push_cast; rw [hn, ← e]; push_cast; ring
        have : j = y.num - 1 := by exact_mod_cast this
        exact ⟨by omega, fun _ => by omega⟩
      · have hn := (toZZ_eq hy'.2).2
        have hp1 : 0 < (2 * y).num := Rat.num_pos.2 (by linarith [hy'.1])
        have : (j : ℚ) = (((2 * y).num - 2 : ℤ) : ℚ) := by push_cast; rw [hn, ← e]; push_cast; ring
        have : j = (2 * y).num - 2 := by exact_mod_cast this
        exact ⟨by omega, fun h => absurd h (by decide)⟩
    · have := hp.map (fun q : ℚ => q / k + 1)
      rw [List.map_map, List.map_map] at this
      refine List.Perm.trans this (List.Perm.of_eq ?_)
      conv_rhs => rw [← List.map_id l']
      refine List.map_congr_left fun a _ => ?_
      show (k : ℚ) * (a - 1) / k + 1 = a
      rw [mul_div_cancel_left₀ _ hkq]
      ring
    · have := hp.length_eq
      rwa [List.length_map, List.length_map] at this
  -- the dimension
  have dim : ∀ d' : Dict ℚ ℕ, ∀ l' : List ℚ, d' = (if marked = true then d else if (if d.has 1 = true then d.erase 1 else d).isEmpty = true then [(1, 1)] else (if d.has 1 = true then d.erase 1 else d)) →
      d'.expand.Perm l' → (l'.map (· - 1)).sum = 2 * (g - 1 : ℚ) → (d'.keys.all (fun a => decide (a.den = 1)) = true ↔ k = 1) →
      billiardUnfoldingStratumDimension as cover marked = .ok (2 * g + l'.length - k) := by
    intro d' l' hd' hp hs hab
    have hx := expand_sums d'
    have hchi : (d'.map fun e => (e.2 : ℚ) * (e.1 - 1)).sum = ((2 * (g - 1) : ℤ) : ℚ) := by
      rw [hx.2, (hp.map _).sum_eq, hs]; push_cast; ring
    have hlen : (d'.map Prod.snd).sum = l'.length := by rw [hx.1, hp.length_eq]
    unfold billiardUnfoldingStratumDimension
    rw [if_neg (by rcases hcover with rfl | rfl <;> decide), if_neg (by rcases hcover with rfl | rfl <;> decide)]
    simp only [hd, bind, Except.bind, pure, Except.pure, ← hd', hchi, hlen]
    rw [if_neg (by rw [Rat.den_intCast]; decide), if_neg (by rw [Rat.num_intCast]; omega), Rat.num_intCast]
    congr 1
    by_cases h1 : k = 1
    · rw [if_pos (hab.2 h1), h1]
      push_cast
      omega
    · rw [if_neg (fun h => h1 (hab.1 h))]
      have : k = 2 := by rcases hk with h | h; exact absurd h.1 h1; exact h.1
      rw [this]
      push_cast
      omega
  have hcmp : (k : ℚ) = if k = 1 then 1 else 2 := by
    rcases hk with ⟨rfl, -⟩ | ⟨rfl, -⟩ <;> norm_num
  -- the stratum
  have str : ∀ ks, stratumDegrees k marked d = .ok ks → (!marked && decide (d.length = 1) && d.has 1) = false → billiardUnfoldingStratum as cover marked = .ok (ks, k) := by
    intro ks hks hn
    unfold billiardUnfoldingStratum
    simp only [hd, bind, Except.bind, pure, Except.pure]
    by_cases h1 : k = 1
    · rw [if_pos (hkey.2 h1), hn]
      rw [hcmp, if_pos h1] at hks
      simp only [Bool.false_eq_true, if_false, hks, h1]
    · rw [if_neg (fun h => h1 (hkey.1 h))]
      rw [hcmp, if_neg h1] at hks
      have : k = 2 := by rcases hk with h | h; exact absurd h.1 h1; exact h.1
      simp only [hks, this]
  obtain ⟨ks, hks, hmap⟩ := stratumDegrees_spec (k : ℚ) marked d fun a ha => hint a ((hmem a).1 ha)
  cases marked with
  | true =>
    have hmap' : ks.map (fun j : ℤ => (j : ℚ)) = d.expand.map fun a => (k : ℚ) * (a - 1) := by rw [hmap]; simp
    obtain ⟨a1, a2, a3, a4⟩ := fin ks l (fun _ h => h) hg (by rw [hmap']; exact hc.perm.map _)
    refine ⟨ks, k, str ks hks rfl, ?_, hk, a1, a2, by rw [if_pos rfl]; exact a3⟩
    rw [a4]
    exact dim d l (by rw [if_pos rfl]) hc.perm hg hkey
  | false =>
    have hmap' : ks.map (fun j : ℤ => (j : ℚ)) = (d.expand.filter fun a => decide (a ≠ 1)).map fun a => (k : ℚ) * (a - 1) := by rw [hmap]; simp
    have hexp := expand_filter_one hc.nodup
    by_cases hall : ∀ y ∈ l, y = 1
    · -- only regular points
      have hk1 : k = 1 := by
        rcases hk with h | ⟨-, y, hy, h⟩
        · exact h.1
        · rw [hall y hy] at h; exact absurd h (by decide)
      obtain ⟨y, hy⟩ := List.exists_mem_of_ne_nil l hl
      have h1mem : (1 : ℚ) ∈ d.keys := (hmem 1).2 (hall y hy ▸ hy)
      obtain ⟨m, hdm⟩ : ∃ m, d = [(1, m)] := by
        have hk1 : ∀ x ∈ d.keys, x = 1 := fun x hx => hall x ((hmem x).1 hx)
        have hn := hc.nodup
        clear * - h1mem hk1 hn
        match d, h1mem, hk1, hn with
        | [(a, m)], _, hk1, _ => exact ⟨m, by rw [hk1 a List.mem_cons_self]⟩
        | (a, m) :: (b, n) :: d, _, hk1, hn =>
          have ha := hk1 a List.mem_cons_self
          have hb := hk1 b (List.mem_cons_of_mem _ List.mem_cons_self)
          simp [Dict.keys, ha, hb] at hn
      have hg1 : g = 1 := by
        have : (l.map (· - 1)).sum = (0 : ℚ) := by
          refine List.sum_eq_zero fun x hx => ?_
          obtain ⟨y, hy, rfl⟩ := List.mem_map.1 hx
          rw [hall y hy]; ring
        rw [this] at hg
        have : (g : ℚ) = ((1 : ℤ) : ℚ) := by push_cast; linarith
        exact_mod_cast this
      refine ⟨[0], k, ?_, ?_, hk, by simp [hg1], by intro j hj; rw [List.mem_singleton] at hj; omega, ?_⟩
      · unfold billiardUnfoldingStratum
        simp only [hd, bind, Except.bind, pure, Except.pure]
        rw [if_pos (hkey.2 hk1), if_pos (by rw [hdm]; simp [Dict.has, Dict.get]), hk1]
      · have := dim [(1, 1)] [1] (by rw [if_neg (by decide), hdm]; simp [Dict.has, Dict.get, Dict.erase]) (by simp [Dict.expand])
          (by rw [hg1]; norm_num) (by rw [hk1]; simp [Dict.keys])
        exact this
      · rw [if_neg (by decide)]
        exact Or.inl ⟨hall, rfl⟩
    · push Not at hall
      have hp := hc.perm.filter (fun a => decide (a ≠ 1))
      obtain ⟨a1, a2, a3, a4⟩ := fin ks (l.filter fun y => decide (y ≠ 1)) (fun _ h => List.mem_of_mem_filter h) (by rw [sum_filter_one, hg]) (by rw [hmap']; exact hp.map _)
      obtain ⟨y, hy, hy1⟩ := hall
      have hne : (!false && decide (d.length = 1) && d.has 1) = false := by
        by_contra hcon
        rw [Bool.not_eq_false, Bool.and_eq_true, Bool.and_eq_true, decide_eq_true_iff] at hcon
        obtain ⟨⟨-, hl1⟩, hh⟩ := hcon
        obtain ⟨⟨a, m⟩, rfl⟩ := List.length_eq_one_iff.1 hl1
        have hya := (hmem y).2 hy
        simp only [Dict.keys, List.map_cons, List.map_nil, List.mem_singleton] at hya
        simp only [Dict.has, Dict.get] at hh
        by_cases ha : a = 1
        · exact hy1 (hya.trans ha)
        · rw [if_neg ha] at hh
          exact absurd hh (by decide)
      refine ⟨ks, k, str ks hks hne, ?_, hk, a1, a2, ?_⟩
      · rw [a4]
        refine dim (if d.has 1 = true then d.erase 1 else d) _ ?_ (by rw [hexp]; exact hp) (by rw [sum_filter_one, hg]) ?_
        · rw [if_neg (show ¬ false = true by decide)]
          refine (if_neg ?_).symm
          intro hemp
          have h0 := List.isEmpty_iff.1 hemp
          rw [h0] at hexp
          have : y ∈ d.expand.filter (fun a => decide (a ≠ 1)) := List.mem_filter.2 ⟨hc.perm.mem_iff.2 hy, decide_eq_true hy1⟩
          rw [← hexp] at this
          simp [Dict.expand] at this
        · rw [← hkey]
          have hkeys : ∀ x, x ∈ (if d.has 1 = true then d.erase 1 else d).keys ↔ x ∈ d.keys ∧ x ≠ 1 := by
            intro x
            have hpos' : ∀ e ∈ (if d.has 1 = true then d.erase 1 else d), 0 < e.2 := by
              intro e he
              refine hc.pos e ?_
              split_ifs at he
              · have er : ∀ d : Dict ℚ ℕ, ∀ e ∈ d.erase 1, e ∈ d := by
                  intro d
                  induction d with
                  | nil => simp [Dict.erase]
                  | cons f d ih =>
                    obtain ⟨a, m⟩ := f
                    intro e he
                    simp only [Dict.erase] at he
                    split_ifs at he with h
                    · exact List.mem_cons_of_mem _ he
                    · rcases List.mem_cons.1 he with rfl | he
                      · exact List.mem_cons_self
                      · exact List.mem_cons_of_mem _ (ih e he)
                exact er d e he
              · exact he
            have me : ∀ d : Dict ℚ ℕ, (∀ e ∈ d, 0 < e.2) → (x ∈ d.keys ↔ x ∈ d.expand) := by
              intro d hd
              simp only [Dict.keys, Dict.expand, List.mem_map, List.mem_flatMap, List.mem_replicate]
              constructor
              · rintro ⟨e, he, rfl⟩
                exact ⟨e, he, (hd e he).ne', rfl⟩
              · rintro ⟨e, he, -, rfl⟩
                exact ⟨e, he, rfl⟩
            rw [me _ hpos', hexp, List.mem_filter, me d hc.pos, decide_eq_true_iff]
          simp only [List.all_eq_true, decide_eq_true_iff, hkeys]
          constructor
          · intro h x hx
            by_cases hx1 : x = 1
            · rw [hx1]; rfl
            · exact h x ⟨hx, hx1⟩
          · exact fun h x hx => h x hx.1
      · rw [if_neg (by decide)]
        exact Or.inr ⟨⟨y, hy, hy1⟩, a3⟩

/-- **C86.** `billiard_unfolding_stratum` and `billiard_unfolding_stratum_dimension` of the (half-)translation surface that unfolds a polygon with the angles `as`:
neither fails.  There is a genus `g`, such that the degrees add up to `2g - 2` or `4g - 4`, respectively.  Without marked points the degrees are those of the points whose angle
is not a full turn (a torus is said to have one marked point), the degree is the angle minus one for an Abelian differential and twice that for a quadratic one.
The dimension is that of the stratum. -/
theorem C86_stratum {as : List ℚ} (h3 : 3 ≤ as.length) (hpos : ∀ a ∈ as, 0 < a) (hsum : as.sum = (as.length : ℚ) / 2 - 1) {cover : CoverType}
    (hcover : cover = .translation ∨ cover = .halfTranslation) (marked : Bool) :
    ∃ (d : Dict ℚ ℕ) (ks : List ℤ) (k : ℕ) (g : ℤ), billiardUnfoldingAngles as cover = .ok d ∧ billiardUnfoldingStratum as cover marked = .ok (ks, k) ∧
      billiardUnfoldingStratumDimension as cover marked = .ok (2 * g + ks.length - k) ∧
      ((k = 1 ∧ (∀ y ∈ d.keys, y.den = 1) ∧ 1 ≤ g) ∨ (k = 2 ∧ cover = .halfTranslation ∧ ∃ y ∈ d.keys, y.den = 2)) ∧ ks.sum = k * (2 * g - 2) ∧ (∀ j ∈ ks, -1 ≤ j ∧ (k = 1 → 0 ≤ j)) ∧
      (if marked = true then (ks.map fun j : ℤ => (j : ℚ) / k + 1).Perm (d.flatMap fun e => List.replicate e.2 e.1) else
        ((∀ y ∈ d.keys, y = 1) ∧ ks = [0]) ∨
        ((∃ y ∈ d.keys, y ≠ 1) ∧ (ks.map fun j : ℤ => (j : ℚ) / k + 1).Perm ((d.flatMap fun e => List.replicate e.2 e.1).filter fun y => decide (y ≠ 1)))) := by
  have hs2 : (as.map (2 * ·)).sum = (((as.length : ℤ) - 2 : ℤ) : ℚ) := by
    have : ∀ l : List ℚ, (l.map (2 * ·)).sum = 2 * l.sum := by
      intro l
      induction l with
      | nil => simp
      | cons a l ih => rw [List.map_cons, List.sum_cons, List.sum_cons, ih, mul_add]
    rw [this, hsum]
    push_cast
    ring
  have hs4 : ((as.map (2 * ·)).map (2 * ·)).sum = ((2 * ((as.length : ℤ) - 2) : ℤ) : ℚ) := by
    have : ∀ l : List ℚ, (l.map (2 * ·)).sum = 2 * l.sum := by
      intro l
      induction l with
      | nil => simp
      | cons a l ih => rw [List.map_cons, List.sum_cons, List.sum_cons, ih, mul_add]
    rw [this, hs2]
    push_cast
    ring
  have hposx : ∀ x ∈ as.map (2 * ·), 0 < x := by
    intro x hx
    obtain ⟨a, ha, rfl⟩ := List.mem_map.1 hx
    have := hpos a ha
    show 0 < 2 * a
    linarith
  have hlen : (as.map (2 * ·)).length = as.length := List.length_map _
  -- common part
  suffices main : ∃ (d : Dict ℚ ℕ) (l : List ℚ), billiardUnfoldingAngles as cover = .ok d ∧ d.Counts l ∧ l ≠ [] ∧ (∀ y ∈ l, 0 < y ∧ (2 * y).den = 1) ∧
      (∃ g : ℤ, (l.map (· - 1)).sum = 2 * (g : ℚ)) ∧ (cover = .translation → ∀ y ∈ l, y.den = 1) by
    obtain ⟨d, l, hd, hc, hl, hi, ⟨g, hg⟩, ht⟩ := main
    obtain ⟨ks, k, b1, b2, b3, b4, b5, b6⟩ := stratum_core (g := g + 1) hc hl hi (by rw [hg]; push_cast; ring) hcover hd marked
    refine ⟨d, ks, k, g + 1, hd, b1, b2, ?_, b4, b5, ?_⟩
    · rcases b3 with ⟨rfl, h⟩ | ⟨rfl, y, hy, h⟩
      · refine Or.inl ⟨rfl, fun y hy => h y ((hc.mem y).1 hy), ?_⟩
        have : 0 ≤ ks.sum := List.sum_nonneg fun j hj => (b5 j hj).2 rfl
        rw [b4] at this
        push_cast at this
        omega
      · refine Or.inr ⟨rfl, ?_, y, (hc.mem y).2 hy, h⟩
        rcases hcover with h' | h'
        · have := ht h' y hy; omega
        · exact h'
    · by_cases hm : marked = true
      · rw [if_pos hm] at b6 ⊢
        exact b6.trans hc.perm.symm
      · rw [if_neg hm] at b6 ⊢
        rcases b6 with ⟨h1, h2⟩ | ⟨⟨y, hy, h1⟩, h2⟩
        · exact Or.inl ⟨fun y hy => h1 y ((hc.mem y).1 hy), h2⟩
        · exact Or.inr ⟨⟨y, (hc.mem y).2 hy, h1⟩, h2.trans (hc.perm.symm.filter _)⟩
  obtain ⟨a, ha⟩ : ∃ a, a ∈ as := List.exists_mem_of_length_pos (by omega)
  have ha2 : 2 * a ∈ as.map (2 * ·) := List.mem_map_of_mem ha
  rcases hcover with rfl | rfl
  · obtain ⟨d, h1, h2⟩ := unfoldingAngles_translation as
    refine ⟨d, _, h1, h2, ?_, ?_, ?_, ?_⟩
    · refine List.ne_nil_of_mem (List.mem_flatMap.2 ⟨2 * a, ha2, List.mem_replicate.2 ⟨?_, rfl⟩⟩)
      exact (Nat.div_pos (Nat.le_of_dvd (lcmDen_pos _) (den_dvd_lcmDen ha2)) (Rat.den_pos _)).ne'
    · intro y hy
      obtain ⟨x, hx, hy⟩ := List.mem_flatMap.1 hy
      obtain ⟨-, rfl⟩ := List.mem_replicate.1 hy
      refine ⟨mul_pos (hposx x hx) (by exact_mod_cast x.den_pos), ?_⟩
      rw [Rat.mul_den_eq_num, show (2 : ℚ) * (x.num : ℚ) = ((2 * x.num : ℤ) : ℚ) by push_cast; rfl]
      exact Rat.den_intCast _
    · have := cover_chi (as.map (2 * ·)) 1 (by norm_num) ((as.length : ℤ) - 2) (by simp only [one_mul, List.map_id']; exact hs2) _ hs2 (by rw [hlen]; omega)
      simp only [one_mul, List.map_id'] at this
      exact this
    · intro _ y hy
      obtain ⟨x, hx, hy⟩ := List.mem_flatMap.1 hy
      obtain ⟨-, rfl⟩ := List.mem_replicate.1 hy
      rw [Rat.mul_den_eq_num]
      exact Rat.den_intCast _
  · obtain ⟨d, h1, h2⟩ := unfoldingAngles_half as
    have e : lcmDen (as.map fun a => 2 * (2 * a)) = lcmDen ((as.map (2 * ·)).map (2 * ·)) := by rw [List.map_map]; rfl
    rw [e] at h2
    refine ⟨d, _, h1, h2, ?_, ?_, ?_, fun h => absurd h (by decide)⟩
    · refine List.ne_nil_of_mem (List.mem_flatMap.2 ⟨2 * a, ha2, List.mem_replicate.2 ⟨?_, rfl⟩⟩)
      exact (Nat.div_pos (Nat.le_of_dvd (lcmDen_pos _) (den_dvd_lcmDen (List.mem_map_of_mem (f := (2 * ·)) ha2))) (Rat.den_pos _)).ne'
    · intro y hy
      obtain ⟨x, hx, hy⟩ := List.mem_flatMap.1 hy
      obtain ⟨-, rfl⟩ := List.mem_replicate.1 hy
      refine ⟨mul_pos (hposx x hx) (by exact_mod_cast (2 * x).den_pos), ?_⟩
      rw [← mul_assoc, Rat.mul_den_eq_num]
      exact Rat.den_intCast _
    · exact cover_chi (as.map (2 * ·)) 2 (by norm_num) _ hs4 _ hs2 (by rw [hlen]; omega)

/-- The triangle with angles proportional to 1, 2, 5 unfolds to `Q_1(3, -1^3)` and `H_3(4)`; with marked points to `H_3(4, 0^3)`. -/
example : billiardUnfoldingStratum [1 / 16, 1 / 8, 5 / 16] .halfTranslation false = .ok ([-1, -1, -1, 3], 2) ∧
    billiardUnfoldingStratum [1 / 16, 1 / 8, 5 / 16] .translation false = .ok ([4], 1) ∧
    billiardUnfoldingStratum [1 / 16, 1 / 8, 5 / 16] .translation true = .ok ([0, 0, 0, 4], 1) ∧
    billiardUnfoldingStratumDimension [1 / 16, 1 / 8, 5 / 16] .halfTranslation false = .ok 4 ∧
    billiardUnfoldingStratumDimension [1 / 16, 1 / 8, 5 / 16] .translation false = .ok 6 ∧
    billiardUnfoldingStratumDimension [1 / 16, 1 / 8, 5 / 16] .translation true = .ok 9 := by decide +kernel

example : 3 ≤ [1 / 16, 1 / 8, (5 / 16 : ℚ)].length ∧ (∀ a ∈ [1 / 16, 1 / 8, (5 / 16 : ℚ)], 0 < a) ∧
    [1 / 16, 1 / 8, (5 / 16 : ℚ)].sum = ([1 / 16, 1 / 8, (5 / 16 : ℚ)].length : ℚ) / 2 - 1 := by decide +kernel

theorem integral_gcd {l : List ℤ} {m : ℤ} : m ∣ l.foldr (fun a b => (Int.gcd a b : ℤ)) 0 ↔ ∀ a ∈ l, m ∣ a := by
  induction l with
  | nil => simp
  | cons a l ih =>
    rw [List.foldr_cons, List.forall_mem_cons, ← ih]
    exact Int.dvd_coe_gcd_iff

theorem mapM_toZZ (c : ℚ) (l : List ℚ) (h : ∀ a ∈ l, (c * a).den = 1) : l.mapM (fun a => toZZ (c * a)) = .ok (l.map fun a => (c * a).num) := by
  induction l with
  | nil => rfl
  | cons a l ih =>
    rw [List.mapM_cons, (toZZ_eq (h a List.mem_cons_self)).1, ih fun b hb => h b (List.mem_cons_of_mem _ hb)]
    rfl

/-- **C86.** `angles(integral=True)`: the result is proportional to the angles, consists of positive integers and has no common divisor. -/
theorem C86_integral {as : List ℚ} (h0 : as ≠ []) (hpos : ∀ a ∈ as, 0 < a) : ∃ (ns : List ℤ) (c : ℚ), integralAngles as = .ok ns ∧ 0 < c ∧
    ns.map (fun n : ℤ => (n : ℚ)) = as.map (c * ·) ∧ (∀ n ∈ ns, 0 < n) ∧ ∀ m : ℤ, (∀ n ∈ ns, m ∣ n) → m ∣ 1 := by
  set N := (as.map Rat.den).foldr Nat.lcm 1 with hN
  set G := (as.map Rat.num).foldr (fun a b => (Int.gcd a b : ℤ)) 0 with hG
  have hNpos : 0 < N := lcmDen_pos as
  obtain ⟨a₀, ha₀⟩ := List.exists_mem_of_ne_nil as h0
  have hGd : ∀ a ∈ as, G ∣ a.num := fun a ha => integral_gcd.1 dvd_rfl _ (List.mem_map_of_mem ha)
  have hG0 : 0 < G := by
    have h1 : G ≠ 0 := by
      intro h
      have := hGd a₀ ha₀
      rw [h, zero_dvd_iff] at this
      have := Rat.num_pos.2 (hpos a₀ ha₀)
      omega
    have h2 : 0 ≤ G := by
      rw [hG]
      cases as with
      | nil => exact absurd rfl h0
      | cons a l => exact Int.natCast_nonneg _
    omega
  have hGq : (0 : ℚ) < (G : ℚ) := by exact_mod_cast hG0
  have hNq : (0 : ℚ) < (N : ℚ) := by exact_mod_cast hNpos
  -- the numbers
  have hnum : ∀ a ∈ as, ∃ k : ℕ, ∃ j : ℤ, N = a.den * k ∧ a.num = G * j ∧ (N : ℚ) / G * a = ((j * k : ℤ) : ℚ) := by
    intro a ha
    obtain ⟨k, hk⟩ : a.den ∣ N := den_dvd_lcmDen ha
    obtain ⟨j, hj⟩ := hGd a ha
    refine ⟨k, j, hk, hj, ?_⟩
    have h1 := Rat.mul_den_eq_num a
    have h2 : (N : ℚ) = (a.den : ℚ) * k := by exact_mod_cast hk
    have h3 : (a.num : ℚ) = (G : ℚ) * j := by exact_mod_cast hj
    rw [div_mul_eq_mul_div, div_eq_iff hGq.ne', h2]
    push_cast
    rw [h3] at h1
    linear_combination (k : ℚ) * h1
  have hden : ∀ a ∈ as, ((N : ℚ) / G * a).den = 1 := by
    intro a ha
    obtain ⟨k, j, -, -, h⟩ := hnum a ha
    rw [h]
    exact Rat.den_intCast _
  refine ⟨as.map fun a => ((N : ℚ) / G * a).num, (N : ℚ) / G, ?_, div_pos hNq hGq, ?_, ?_, ?_⟩
  · exact mapM_toZZ _ _ hden
  · rw [List.map_map]
    refine List.map_congr_left fun a ha => ?_
    exact Rat.coe_int_num_of_den_eq_one (hden a ha)
  · intro n hn
    obtain ⟨a, ha, rfl⟩ := List.mem_map.1 hn
    exact Rat.num_pos.2 (mul_pos (div_pos hNq hGq) (hpos a ha))
  · -- a prime divisor of all numbers would be missing in the denominators or remain in the numerators
    intro m hm
    by_contra hm1
    obtain ⟨q, hq, hqm⟩ := Nat.exists_prime_and_dvd (n := m.natAbs) (fun h => hm1 (Int.isUnit_iff_natAbs_eq.2 h).dvd)
    have hqd : ∀ a ∈ as, ∀ (k : ℕ) (j : ℤ), N = a.den * k → a.num = G * j → (q : ℤ) ∣ j * k := by
      intro a ha k j h1 h2
      have h3 := hm _ (List.mem_map_of_mem (f := fun a => ((N : ℚ) / G * a).num) ha)
      obtain ⟨k', j', h4, h5, h6⟩ := hnum a ha
      have hk : k' = k := Nat.eq_of_mul_eq_mul_left a.den_pos (h4.symm.trans h1)
      have hj : j' = j := Int.eq_of_mul_eq_mul_left hG0.ne' (h5.symm.trans h2)
      rw [hk, hj] at h6
      simp only [h6, Rat.num_intCast] at h3
      exact (Int.natCast_dvd.2 hqm).trans h3
    have hqp : Prime (q : ℤ) := Nat.prime_iff_prime_int.1 hq
    -- all the powers of the prime in `N` come from one denominator
    have hex : ∃ a ∈ as, ∃ k, N = a.den * k ∧ ¬ q ∣ k := by
      by_contra hcon
      push Not at hcon
      obtain ⟨k₀, -, hk₀, -, -⟩ := hnum a₀ ha₀
      have hqN : q ∣ N := (hcon a₀ ha₀ k₀ hk₀).trans ⟨a₀.den, by rw [hk₀]; ring⟩
      obtain ⟨M, hM⟩ := hqN
      have : N ∣ M := lcmDen_dvd.2 fun a ha => by
        obtain ⟨k, -, hk, -, -⟩ := hnum a ha
        obtain ⟨t, ht⟩ := hcon a ha k hk
        refine ⟨t, Nat.eq_of_mul_eq_mul_left hq.pos ?_⟩
        rw [← hM, hk, ht]
        ring
      have hMpos : 0 < M := by
        rcases Nat.eq_zero_or_pos M with h | h
        · rw [h] at hM; omega
        · exact h
      have h1 := Nat.le_of_dvd hMpos this
      have h2 := hq.two_le
      have : 2 * M ≤ N := by rw [hM]; exact Nat.mul_le_mul_right M h2
      omega
    obtain ⟨a, ha, k, hk, hqk⟩ := hex
    -- a numerator that the prime does not divide after the common divisor is removed
    have hex2 : ∃ b ∈ as, ∃ j, b.num = G * j ∧ ¬ (q : ℤ) ∣ j := by
      by_contra hcon
      push Not at hcon
      have h1 : G * q ∣ G := integral_gcd.2 fun n hn => by
        obtain ⟨b, hb, rfl⟩ := List.mem_map.1 hn
        obtain ⟨j, hj⟩ := hGd b hb
        rw [hj]
        exact mul_dvd_mul_left _ (hcon b hb j hj)
      have h2 : (q : ℤ) ∣ 1 := by
        have : G * q ∣ G * 1 := by rwa [mul_one]
        exact (mul_dvd_mul_iff_left hG0.ne').1 this
      exact hqp.not_unit (isUnit_of_dvd_one h2)
    obtain ⟨b, hb, j, hj, hqj⟩ := hex2
    obtain ⟨kb, jb, hkb, hjb, -⟩ := hnum b hb
    obtain ⟨ka, ja, hka, hja, -⟩ := hnum a ha
    have hjb' : jb = j := Int.eq_of_mul_eq_mul_left hG0.ne' (hjb.symm.trans hj)
    have hka' : ka = k := Nat.eq_of_mul_eq_mul_left a.den_pos (hka.symm.trans hk)
    -- at a the numerator is divisible, so the denominator of a is not, so the prime does not divide N; but at b the cofactor is divisible
    have h1 : (q : ℤ) ∣ ja := by
      rcases hqp.dvd_or_dvd (hqd a ha ka ja hka hja) with h | h
      · exact h
      · rw [hka'] at h
        exact absurd (Int.natCast_dvd_natCast.1 h) hqk
    have h2 : q ∣ kb := by
      rcases hqp.dvd_or_dvd (hqd b hb kb jb hkb hjb) with h | h
      · rw [hjb'] at h
        exact absurd h hqj
      · exact Int.natCast_dvd_natCast.1 h
    have h3 : q ∣ a.den := by
      have h4 : q ∣ a.den * k := by rw [← hk, hkb]; exact h2.mul_left _
      rcases hq.dvd_mul.1 h4 with h | h
      · exact h
      · exact absurd h hqk
    have h5 : q ∣ a.num.natAbs := by
      rw [← Int.natCast_dvd, hja]
      exact h1.mul_left _
    have := Nat.dvd_gcd h5 h3
    rw [a.reduced] at this
    exact hq.one_lt.ne' (Nat.dvd_one.1 this)

example : integralAngles [3 / 22, 3 / 22, 3 / 22, 3 / 11, 9 / 11] = .ok [1, 1, 1, 2, 6] := by decide +kernel

end Flat
