import Verif.Model.UnfoldingAngles
import Mathlib.Data.List.Perm.Basic
import Mathlib.Algebra.Order.Ring.Rat
import Mathlib.Data.Nat.Prime.Basic
import Mathlib.Algebra.Order.Ring.Int
import Mathlib.Tactic.Ring
import Mathlib.Tactic.FieldSimp
import Mathlib.Tactic.Linarith
import Mathlib.Tactic.Push

/-!
# Lemmas about dictionaries of angles
-/

namespace Flat

namespace Dict

/-- The list in which each key of a dictionary is repeated as often as its value says. -/
def expand (d : Dict ℚ ℕ) : List ℚ := d.flatMap fun e => List.replicate e.2 e.1

theorem expand_add (d : Dict ℚ ℕ) (k : ℚ) (m : ℕ) : (d.add k m).expand.Perm (d.expand ++ List.replicate m k) := by
  unfold add
  induction d with
  | nil => simp [get, set, expand]
  | cons e d ih =>
    obtain ⟨k', v⟩ := e
    by_cases h : k' = k
    · subst h
      simp only [get, set, if_pos, expand, List.flatMap_cons, Option.getD_some, List.append_assoc]
      rw [List.replicate_add, List.append_assoc]
      exact List.Perm.append_left _ List.perm_append_comm
    · simp only [get, set, if_neg h, expand, List.flatMap_cons, List.append_assoc]
      exact List.Perm.append_left _ ih

theorem mem_keys_add {d : Dict ℚ ℕ} {k x : ℚ} {m : ℕ} : x ∈ (d.add k m).keys ↔ x ∈ d.keys ∨ x = k := by
  unfold add
  generalize (d.get k).getD 0 + m = n
  induction d with
  | nil => simp [set, keys]
  | cons e d ih =>
    obtain ⟨k', v⟩ := e
    by_cases h : k' = k
    · subst h
      simp only [set, if_pos, keys, List.map_cons, List.mem_cons]
      tauto
    · simp only [set, if_neg h, keys, List.map_cons, List.mem_cons] at ih ⊢
      rw [ih]
      tauto

theorem nodup_keys_add {d : Dict ℚ ℕ} (hd : d.keys.Nodup) (k : ℚ) (m : ℕ) : (d.add k m).keys.Nodup := by
  unfold add
  generalize (d.get k).getD 0 + m = n
  have mem : ∀ (d : Dict ℚ ℕ) x, x ∈ (d.set k n).keys → x ∈ d.keys ∨ x = k := by
    intro d x
    induction d with
    | nil => simp [set, keys]
    | cons e d ih =>
      obtain ⟨k', v⟩ := e
      by_cases h : k' = k
      · subst h
        simp only [set, if_pos, keys, List.map_cons, List.mem_cons]
        tauto
      · simp only [set, if_neg h, keys, List.map_cons, List.mem_cons] at ih ⊢
        tauto
  induction d with
  | nil => simp [set, keys]
  | cons e d ih =>
    obtain ⟨k', v⟩ := e
    simp only [keys, List.map_cons, List.nodup_cons] at hd
    by_cases h : k' = k
    · simp only [set, if_pos h, keys, List.map_cons, List.nodup_cons]
      exact hd
    · simp only [set, if_neg h, keys, List.map_cons, List.nodup_cons]
      exact ⟨fun hm => (mem d k' hm).elim hd.1 h, ih hd.2⟩

theorem pos_add {d : Dict ℚ ℕ} (hd : ∀ e ∈ d, 0 < e.2) (k : ℚ) {m : ℕ} (hm : 0 < m) : ∀ e ∈ d.add k m, 0 < e.2 := by
  unfold add
  have hn : 0 < (d.get k).getD 0 + m := by omega
  generalize (d.get k).getD 0 + m = n at hn
  induction d with
  | nil => simp [set, hn]
  | cons e d ih =>
    obtain ⟨k', v⟩ := e
    by_cases h : k' = k
    · simp only [set, if_pos h, List.mem_cons, forall_eq_or_imp]
      exact ⟨hn, fun e he => hd e (List.mem_cons_of_mem _ he)⟩
    · simp only [set, if_neg h, List.mem_cons, forall_eq_or_imp]
      exact ⟨hd _ List.mem_cons_self, ih fun e he => hd e (List.mem_cons_of_mem _ he)⟩

/-- What all the dictionaries of angles satisfy. -/
structure Counts (d : Dict ℚ ℕ) (l : List ℚ) : Prop where
  nodup : d.keys.Nodup
  pos : ∀ e ∈ d, 0 < e.2
  perm : d.expand.Perm l

theorem Counts.add {d : Dict ℚ ℕ} {l : List ℚ} (h : d.Counts l) (k : ℚ) {m : ℕ} (hm : 0 < m) : (d.add k m).Counts (l ++ List.replicate m k) :=
  ⟨nodup_keys_add h.nodup k m, pos_add h.pos k hm, (expand_add d k m).trans (h.perm.append_right _)⟩

theorem Counts.trans {d : Dict ℚ ℕ} {l l' : List ℚ} (h : d.Counts l) (h' : l.Perm l') : d.Counts l' := ⟨h.nodup, h.pos, h.perm.trans h'⟩

theorem Counts.mem {d : Dict ℚ ℕ} {l : List ℚ} (h : d.Counts l) (x : ℚ) : x ∈ d.keys ↔ x ∈ l := by
  rw [← h.perm.mem_iff]
  simp only [keys, expand, List.mem_map, List.mem_flatMap, List.mem_replicate]
  constructor
  · rintro ⟨e, he, rfl⟩
    exact ⟨e, he, (h.pos e he).ne', rfl⟩
  · rintro ⟨e, he, -, rfl⟩
    exact ⟨e, he, rfl⟩

theorem Counts.foldl {α : Type} (f : α → ℚ) (c : α → ℕ) (l : List α) : ∀ (d : Dict ℚ ℕ) (l₀ : List ℚ), d.Counts l₀ → (∀ a ∈ l, 0 < c a) →
    Dict.Counts (l.foldl (fun d a => d.add (f a) (c a)) d) (l₀ ++ l.flatMap fun a => List.replicate (c a) (f a)) := by
  induction l with
  | nil => intro d l₀ h _; simpa using h
  | cons a l ih =>
    intro d l₀ h hc
    rw [List.foldl_cons, List.flatMap_cons, ← List.append_assoc]
    exact ih _ _ (h.add _ (hc a List.mem_cons_self)) fun b hb => hc b (List.mem_cons_of_mem _ hb)

theorem counts_nil : Dict.Counts [] [] := ⟨List.nodup_nil, by simp, List.Perm.refl _⟩

end Dict

theorem flatMap_replicate {α β : Type} (n c : ℕ) (x : α) (y : β) : (List.replicate n x).flatMap (fun _ => List.replicate c y) = List.replicate (n * c) y := by
  induction n with
  | zero => simp
  | succ n ih => rw [List.replicate_succ, List.flatMap_cons, ih, ← List.replicate_add]; congr 1; ring

theorem flatMap_replicate' {α β : Type} (n : ℕ) (x : α) (c : α → ℕ) (y : α → β) :
    (List.replicate n x).flatMap (fun a => List.replicate (c a) (y a)) = List.replicate (n * c x) (y x) := by
  rw [← flatMap_replicate n (c x) x (y x)]
  refine List.flatMap_congr fun a ha => ?_
  rw [(List.mem_replicate.1 ha).2]

theorem Dict.flatMap_expand {β : Type} (d : Dict ℚ ℕ) (c : ℚ → ℕ) (y : ℚ → β) :
    d.expand.flatMap (fun a => List.replicate (c a) (y a)) = d.flatMap fun e => List.replicate (e.2 * c e.1) (y e.1) := by
  unfold Dict.expand
  rw [List.flatMap_assoc]
  exact List.flatMap_congr fun e _ => flatMap_replicate' _ _ _ _

theorem rationalAngles_counts (as : List ℚ) : (rationalAngles as).Counts (as.map (2 * ·)) := by
  have := Dict.Counts.foldl (fun a : ℚ => 2 * a) (fun _ => 1) as [] [] Dict.counts_nil (by simp)
  refine this.trans ?_
  rw [List.nil_append]
  rw [List.map_eq_flatMap]
  exact List.Perm.refl _

/-! ### Denominators -/

theorem foldr_lcm_dvd {l : List ℕ} {m : ℕ} : l.foldr Nat.lcm 1 ∣ m ↔ ∀ a ∈ l, a ∣ m := by
  induction l with
  | nil => simp
  | cons a l ih => rw [List.foldr_cons, Nat.lcm_dvd_iff, ih]; simp

theorem foldr_lcm_pos {l : List ℕ} (h : ∀ a ∈ l, 0 < a) : 0 < l.foldr Nat.lcm 1 := by
  induction l with
  | nil => simp
  | cons a l ih => exact Nat.lcm_pos (h a List.mem_cons_self) (ih fun b hb => h b (List.mem_cons_of_mem _ hb))

theorem den_two_mul {x : ℚ} : (x.den % 2 = 1 → (2 * x).den = x.den ∧ (2 * x).num = 2 * x.num) ∧
    (x.den % 2 = 0 → 2 * (2 * x).den = x.den ∧ (2 * x).num = x.num ∧ x.num % 2 = 1) := by
  have hd : (x.den : ℚ) ≠ 0 := Nat.cast_ne_zero.2 x.den_nz
  have hx : x = (x.num : ℚ) / (x.den : ℚ) := (Rat.num_div_den x).symm
  constructor
  · intro h
    have hc : (2 * x.num).natAbs.Coprime x.den := by
      rw [Int.natAbs_mul]
      exact Nat.Coprime.mul_left ((Nat.coprime_two_left).2 (Nat.odd_iff.2 h)) x.reduced
    have e : 2 * x = ((2 * x.num : ℤ) : ℚ) / ((x.den : ℤ) : ℚ) := by
      conv_lhs => rw [hx]
      push_cast; ring
    have p : (0 : ℤ) < (x.den : ℤ) := by exact_mod_cast x.den_pos
    have h1 := Rat.den_div_eq_of_coprime p (by simpa using hc)
    have h2 := Rat.num_div_eq_of_coprime p (by simpa using hc)
    rw [← e] at h1 h2
    exact ⟨by exact_mod_cast h1, h2⟩
  · intro h
    obtain ⟨k, hk⟩ := Nat.dvd_of_mod_eq_zero h
    have kp : 0 < k := by have := x.den_pos; omega
    have hc : x.num.natAbs.Coprime k := Nat.Coprime.coprime_dvd_right ⟨2, by rw [hk]; ring⟩ x.reduced
    have e : 2 * x = ((x.num : ℤ) : ℚ) / ((k : ℤ) : ℚ) := by
      conv_lhs => rw [hx]
      rw [hk]
      have : (k : ℚ) ≠ 0 := by exact_mod_cast kp.ne'
      push_cast; field_simp
    have p : (0 : ℤ) < (k : ℤ) := by exact_mod_cast kp
    have h1 := Rat.den_div_eq_of_coprime p (by simpa using hc)
    have h2 := Rat.num_div_eq_of_coprime p (by simpa using hc)
    rw [← e] at h1 h2
    have h1' : (2 * x).den = k := by exact_mod_cast h1
    refine ⟨by rw [h1', hk], h2, ?_⟩
    by_contra hn
    have h2d : 2 ∣ x.num.natAbs := by omega
    have := Nat.dvd_gcd h2d (⟨k, hk⟩ : 2 ∣ x.den)
    rw [x.reduced] at this
    omega

/-- The least common multiple of the denominators. -/
def lcmDen (xs : List ℚ) : ℕ := (xs.map Rat.den).foldr Nat.lcm 1

theorem lcmDen_dvd {xs : List ℚ} {m : ℕ} : lcmDen xs ∣ m ↔ ∀ x ∈ xs, x.den ∣ m := by
  unfold lcmDen
  rw [foldr_lcm_dvd]
  simp

theorem den_dvd_lcmDen {xs : List ℚ} {x : ℚ} (h : x ∈ xs) : x.den ∣ lcmDen xs := lcmDen_dvd.1 dvd_rfl x h

theorem lcmDen_pos (xs : List ℚ) : 0 < lcmDen xs := foldr_lcm_pos (by simp [Rat.den_pos])

theorem lcmDen_congr {xs ys : List ℚ} (h : ∀ x, x ∈ xs ↔ x ∈ ys) : lcmDen xs = lcmDen ys :=
  Nat.dvd_antisymm (lcmDen_dvd.2 fun _ hx => den_dvd_lcmDen ((h _).1 hx)) (lcmDen_dvd.2 fun _ hx => den_dvd_lcmDen ((h _).2 hx))

/-- The number `N` of the code. -/
theorem lcmDen_double (xs : List ℚ) : (if lcmDen xs % 2 = 1 then lcmDen xs * 2 else lcmDen xs) = 2 * lcmDen (xs.map (2 * ·)) := by
  by_cases h : lcmDen xs % 2 = 1
  · rw [if_pos h, mul_comm]
    congr 1
    have odd : ∀ x ∈ xs, x.den % 2 = 1 := by
      intro x hx
      by_contra h'
      have : 2 ∣ lcmDen xs := (Nat.dvd_of_mod_eq_zero (by omega)).trans (den_dvd_lcmDen hx)
      omega
    refine Nat.dvd_antisymm (lcmDen_dvd.2 fun x hx => ?_) (lcmDen_dvd.2 fun x hx => ?_)
    · rw [← (den_two_mul.1 (odd x hx)).1]
      exact den_dvd_lcmDen (List.mem_map_of_mem hx)
    · obtain ⟨y, hy, rfl⟩ := List.mem_map.1 hx
      rw [(den_two_mul.1 (odd y hy)).1]
      exact den_dvd_lcmDen hy
  · rw [if_neg h]
    obtain ⟨k, hk⟩ : 2 ∣ lcmDen xs := Nat.dvd_of_mod_eq_zero (by omega)
    refine Nat.dvd_antisymm (lcmDen_dvd.2 fun x hx => ?_) ?_
    · have h1 := den_dvd_lcmDen (List.mem_map_of_mem (f := fun x : ℚ => 2 * x) hx)
      rcases Nat.mod_two_eq_zero_or_one x.den with h0 | h0
      · rw [← (den_two_mul.2 h0).1]
        exact Nat.mul_dvd_mul_left 2 h1
      · rw [(den_two_mul.1 h0).1] at h1
        exact h1.mul_left 2
    · rw [hk]
      refine Nat.mul_dvd_mul_left 2 (lcmDen_dvd.2 fun x hx => ?_)
      obtain ⟨y, hy, rfl⟩ := List.mem_map.1 hx
      have h1 := den_dvd_lcmDen hy
      rw [hk] at h1
      rcases Nat.mod_two_eq_zero_or_one y.den with h0 | h0
      · rw [← (den_two_mul.2 h0).1] at h1
        exact Nat.dvd_of_mul_dvd_mul_left (by norm_num) h1
      · rw [(den_two_mul.1 h0).1]
        exact (Nat.Coprime.dvd_of_dvd_mul_left ((Nat.coprime_two_right).2 (Nat.odd_iff.2 h0)) h1)

theorem cover_den (x : ℚ) : (if x.den % 2 = 1 then x.den * 2 else x.den) = 2 * (2 * x).den := by
  rcases Nat.mod_two_eq_zero_or_one x.den with h0 | h0
  · rw [if_neg (by omega), (den_two_mul.2 h0).1]
  · rw [if_pos h0, (den_two_mul.1 h0).1, mul_comm]

theorem cover_angle (x : ℚ) : (if x.den % 2 = 1 then (x.num : ℚ) else (x.num : ℚ) / 2) = x * ((2 * x).den : ℚ) := by
  rcases Nat.mod_two_eq_zero_or_one x.den with h0 | h0
  · rw [if_neg (by omega)]
    have h1 := (den_two_mul.2 h0).1
    have h2 : (2 : ℚ) * ((2 * x).den : ℚ) = (x.den : ℚ) := by exact_mod_cast h1
    have h3 := Rat.mul_den_eq_num x
    rw [← h2] at h3
    linarith
  · rw [if_pos h0, (den_two_mul.1 h0).1, Rat.mul_den_eq_num]

theorem coverAngles_spec (N : ℕ) (hN : 0 < N) (rat : Dict ℚ ℕ) : ∀ (cov : Dict ℚ ℕ) (l : List ℚ), cov.Counts l → (∀ e ∈ rat, 0 < e.2 ∧ 2 * (2 * e.1).den ∣ N) →
    ∃ cov', coverAngles N rat cov = .ok cov' ∧
      cov'.Counts (l ++ rat.flatMap fun e => List.replicate (e.2 * (N / (2 * (2 * e.1).den))) (e.1 * ((2 * e.1).den : ℚ))) := by
  induction rat with
  | nil => intro cov l h _; exact ⟨cov, rfl, by simpa using h⟩
  | cons e rat ih =>
    obtain ⟨x, m⟩ := e
    intro cov l h hr
    obtain ⟨hm, hd⟩ := hr _ List.mem_cons_self
    have hp : 0 < m * (N / (2 * (2 * x).den)) := Nat.mul_pos hm (Nat.div_pos (Nat.le_of_dvd hN hd) (by have := (2 * x).den_pos; omega))
    obtain ⟨cov', h1, h2⟩ := ih _ _ (h.add (x * ((2 * x).den : ℚ)) hp) fun e he => hr e (List.mem_cons_of_mem _ he)
    refine ⟨cov', ?_, ?_⟩
    · rw [coverAngles]
      simp only [cover_den, cover_angle]
      rw [if_neg (by rw [not_not]; exact Nat.mod_eq_zero_of_dvd hd), Nat.mul_div_assoc _ hd]
      exact h1
    · rw [List.flatMap_cons, ← List.append_assoc]
      exact h2

theorem halfTranslation_cover (as : List ℚ) :
    ∃ cov, coverAngles (2 * lcmDen (((rationalAngles as).keys).map (2 * ·))) (rationalAngles as) [] = .ok cov ∧
      cov.Counts ((as.map (2 * ·)).flatMap fun x => List.replicate (lcmDen (as.map fun a => 2 * (2 * a)) / (2 * x).den) (x * ((2 * x).den : ℚ))) := by
  have hr := rationalAngles_counts as
  have hD : lcmDen (((rationalAngles as).keys).map (2 * ·)) = lcmDen (as.map fun a => 2 * (2 * a)) := by
    refine lcmDen_congr fun x => ?_
    simp only [List.mem_map, hr.mem]
    constructor
    · rintro ⟨_, ⟨b, hb, rfl⟩, rfl⟩; exact ⟨b, hb, rfl⟩
    · rintro ⟨b, hb, rfl⟩; exact ⟨_, ⟨b, hb, rfl⟩, rfl⟩
  rw [hD]
  obtain ⟨cov, h1, h2⟩ := coverAngles_spec (2 * lcmDen (as.map fun a => 2 * (2 * a))) (Nat.mul_pos (by norm_num) (lcmDen_pos _)) (rationalAngles as) [] [] Dict.counts_nil (by
    intro e he
    refine ⟨hr.pos e he, Nat.mul_dvd_mul_left 2 ?_⟩
    obtain ⟨a, ha, h⟩ := List.mem_map.1 ((hr.mem e.1).1 (List.mem_map_of_mem he))
    rw [← h]
    exact den_dvd_lcmDen (List.mem_map_of_mem (f := fun a : ℚ => 2 * (2 * a)) ha))
  refine ⟨cov, h1, h2.trans ?_⟩
  rw [List.nil_append]
  simp only [Nat.mul_div_mul_left _ _ (show 0 < 2 by norm_num)]
  rw [← Dict.flatMap_expand _ (fun x => lcmDen (as.map fun a => 2 * (2 * a)) / (2 * x).den) (fun x => x * ((2 * x).den : ℚ))]
  exact hr.perm.flatMap_right _

theorem unfoldingAngles_half (as : List ℚ) : ∃ d, billiardUnfoldingAngles as .halfTranslation = .ok d ∧
    d.Counts ((as.map (2 * ·)).flatMap fun x => List.replicate (lcmDen (as.map fun a => 2 * (2 * a)) / (2 * x).den) (x * ((2 * x).den : ℚ))) := by
  obtain ⟨cov, h1, h2⟩ := halfTranslation_cover as
  refine ⟨cov, ?_, h2⟩
  have e := lcmDen_double (rationalAngles as).keys
  unfold lcmDen at e h1
  simp only [billiardUnfoldingAngles]
  rw [if_neg (by decide), e, h1]
  simp

theorem unfoldingAngles_translation (as : List ℚ) : ∃ d, billiardUnfoldingAngles as .translation = .ok d ∧
    d.Counts ((as.map (2 * ·)).flatMap fun x => List.replicate (lcmDen (as.map (2 * ·)) / x.den) (x * (x.den : ℚ))) := by
  obtain ⟨cov, h1, h2⟩ := halfTranslation_cover as
  have hr := rationalAngles_counts as
  have e := lcmDen_double (rationalAngles as).keys
  have e' : (if lcmDen (as.map (2 * ·)) % 2 = 1 then lcmDen (as.map (2 * ·)) * 2 else lcmDen (as.map (2 * ·))) = 2 * lcmDen (as.map fun a => 2 * (2 * a)) := by
    have := lcmDen_double (as.map (2 * ·))
    rw [List.map_map] at this
    exact this
  have key : ∀ y, y ∈ cov.keys ↔ ∃ x ∈ as.map (2 * ·), y = x * ((2 * x).den : ℚ) := by
    intro y
    rw [h2.mem]
    simp only [List.mem_flatMap, List.mem_replicate]
    constructor
    · rintro ⟨x, hx, -, rfl⟩; exact ⟨x, hx, rfl⟩
    · rintro ⟨x, hx, rfl⟩
      refine ⟨x, hx, ?_, rfl⟩
      obtain ⟨a, ha, rfl⟩ := List.mem_map.1 hx
      exact (Nat.div_pos (Nat.le_of_dvd (lcmDen_pos _) (den_dvd_lcmDen (List.mem_map_of_mem (f := fun a : ℚ => 2 * (2 * a)) ha))) (Rat.den_pos _)).ne'
  have yeven : ∀ x : ℚ, x.den % 2 = 0 → (x * ((2 * x).den : ℚ)).den = 2 ∧ (x * ((2 * x).den : ℚ)).num = x.num := by
    intro x h0
    have hn := (den_two_mul.2 h0).2.2
    rw [← cover_angle, if_neg (by omega)]
    have hc : x.num.natAbs.Coprime (2 : ℤ).natAbs := by
      rw [Nat.coprime_comm]; exact (Nat.coprime_two_left).2 (Nat.odd_iff.2 (by omega))
    have a1 := Rat.den_div_eq_of_coprime (a := x.num) (b := 2) (by norm_num) hc
    have a2 := Rat.num_div_eq_of_coprime (a := x.num) (b := 2) (by norm_num) hc
    exact ⟨by exact_mod_cast a1, by exact_mod_cast a2⟩
  have yodd : ∀ x : ℚ, x.den % 2 = 1 → (x * ((2 * x).den : ℚ)).den = 1 ∧ (x * ((2 * x).den : ℚ)).num = x.num := by
    intro x h0
    rw [← cover_angle, if_pos h0]
    exact ⟨Rat.den_intCast _, Rat.num_intCast _⟩
  by_cases hany : cov.keys.any (fun y => decide (y.den = 2)) = true
  · refine ⟨cov.foldl (fun dd (ym : ℚ × ℕ) => dd.add ym.1.num (2 / ym.1.den * ym.2)) [], ?_, ?_⟩
    · unfold lcmDen at e h1
      simp only [billiardUnfoldingAngles]
      rw [if_neg (by decide), e, h1]
      simp only
      rw [if_pos ⟨trivial, hany⟩]
    · have hden : ∀ y ∈ cov.keys, y.den = 1 ∨ y.den = 2 := by
        intro y hy
        obtain ⟨x, -, rfl⟩ := (key y).1 hy
        rcases Nat.mod_two_eq_zero_or_one x.den with h0 | h0
        · exact Or.inr (yeven x h0).1
        · exact Or.inl (yodd x h0).1
      have h3 := Dict.Counts.foldl (fun ym : ℚ × ℕ => (ym.1.num : ℚ)) (fun ym => 2 / ym.1.den * ym.2) cov [] [] Dict.counts_nil (by
        intro ym hm
        refine Nat.mul_pos ?_ (h2.pos _ hm)
        rcases hden _ (List.mem_map_of_mem hm) with h | h <;> rw [h] <;> norm_num)
      refine h3.trans ?_
      rw [List.nil_append]
      have h4 := Dict.flatMap_expand cov (fun y => 2 / y.den) (fun y => (y.num : ℚ))
      have h5 : (cov.flatMap fun a : ℚ × ℕ => List.replicate (2 / a.1.den * a.2) (a.1.num : ℚ)) = cov.flatMap fun e => List.replicate (e.2 * (2 / e.1.den)) (e.1.num : ℚ) := by
        refine List.flatMap_congr fun a _ => ?_
        rw [mul_comm]
      rw [h5, ← h4]
      refine (h2.perm.flatMap_right _).trans ?_
      rw [List.flatMap_assoc]
      refine List.Perm.of_eq (List.flatMap_congr fun x hx => ?_)
      rw [flatMap_replicate']
      obtain ⟨y, hy, hy2⟩ := List.any_eq_true.1 hany
      obtain ⟨x', hx', rfl⟩ := (key y).1 hy
      have heven : x'.den % 2 = 0 := by
        rcases Nat.mod_two_eq_zero_or_one x'.den with h0 | h0
        · exact h0
        · have := (yodd x' h0).1
          rw [decide_eq_true_iff] at hy2
          omega
      have hT : lcmDen (as.map (2 * ·)) = 2 * lcmDen (as.map fun a => 2 * (2 * a)) := by
        rw [if_neg] at e'
        · exact e'
        · have := (Nat.dvd_of_mod_eq_zero heven).trans (den_dvd_lcmDen hx')
          omega
      rw [hT]
      have hdvd : (2 * x).den ∣ lcmDen (as.map fun a => 2 * (2 * a)) := by
        obtain ⟨a, ha, rfl⟩ := List.mem_map.1 hx
        exact den_dvd_lcmDen (List.mem_map_of_mem (f := fun a : ℚ => 2 * (2 * a)) ha)
      rcases Nat.mod_two_eq_zero_or_one x.den with h0 | h0
      · rw [(yeven x h0).1, (yeven x h0).2, Rat.mul_den_eq_num, ← (den_two_mul.2 h0).1, Nat.mul_div_mul_left _ _ (show 0 < 2 by norm_num)]
        norm_num
      · rw [(yodd x h0).1, (yodd x h0).2, Rat.mul_den_eq_num, (den_two_mul.1 h0).1]
        rw [(den_two_mul.1 h0).1] at hdvd
        rw [Nat.mul_div_assoc _ hdvd]
        norm_num [mul_comm]
  · refine ⟨cov, ?_, h2.trans ?_⟩
    · unfold lcmDen at e h1
      simp only [billiardUnfoldingAngles]
      rw [if_neg (by decide), e, h1]
      simp only
      rw [if_neg (fun h => hany h.2), if_pos (Or.inr trivial)]
    · have hodd : ∀ x ∈ as.map (2 * ·), x.den % 2 = 1 := by
        intro x hx
        rcases Nat.mod_two_eq_zero_or_one x.den with h0 | h0
        · exact absurd (List.any_eq_true.2 ⟨_, (key _).2 ⟨x, hx, rfl⟩, decide_eq_true (yeven x h0).1⟩) hany
        · exact h0
      have hT : lcmDen (as.map (2 * ·)) = lcmDen (as.map fun a => 2 * (2 * a)) := by
        have h6 : lcmDen (as.map (2 * ·)) % 2 = 1 := by
          by_contra hn
          rw [if_neg hn] at e'
          have hh : lcmDen (as.map (2 * ·)) ∣ lcmDen (as.map fun a => 2 * (2 * a)) := lcmDen_dvd.2 fun x hx => by
            rw [← (den_two_mul.1 (hodd x hx)).1]
            obtain ⟨a, ha, rfl⟩ := List.mem_map.1 hx
            exact den_dvd_lcmDen (List.mem_map_of_mem (f := fun a : ℚ => 2 * (2 * a)) ha)
          have := Nat.le_of_dvd (lcmDen_pos _) hh
          have := lcmDen_pos (as.map fun a => 2 * (2 * a))
          omega
        rw [if_pos h6] at e'
        omega
      refine List.Perm.of_eq (List.flatMap_congr fun x hx => ?_)
      rw [hT, (den_two_mul.1 (hodd x hx)).1]

/-! ### Parity -/

/-- The number of points of a cover modulo 2. -/
theorem sum_div_den_parity (qs : List ℚ) (m : ℤ) (h : qs.sum = m) :
    (((qs.map fun q => lcmDen qs / q.den).sum : ℕ) : ℤ) % 2 = ((lcmDen qs : ℤ) * qs.length) % 2 := by
  set N := lcmDen qs with hN
  have hd : ∀ q ∈ qs, q.den ∣ N := fun q hq => den_dvd_lcmDen hq
  rcases Nat.mod_two_eq_zero_or_one N with h0 | h0
  · have key : ∀ l : List ℚ, (∀ q ∈ l, q.den ∣ N) → (((l.map fun q => N / q.den).sum : ℕ) : ℤ) % 2 = (l.map fun q => q.num * ((N / q.den : ℕ) : ℤ)).sum % 2 := by
      intro l
      induction l with
      | nil => simp
      | cons q l ih =>
        intro hl
        have h1 := ih fun q hq => hl q (List.mem_cons_of_mem _ hq)
        have h2 : ((N / q.den : ℕ) : ℤ) % 2 = (q.num * ((N / q.den : ℕ) : ℤ)) % 2 := by
          obtain ⟨k, hk⟩ := hl q List.mem_cons_self
          have hq := q.den_pos
          have h3 : N / q.den = k := by rw [hk]; exact Nat.mul_div_cancel_left _ hq
          rw [h3]
          rcases Nat.mod_two_eq_zero_or_one k with hk0 | hk0
          · obtain ⟨j, rfl⟩ := Nat.dvd_of_mod_eq_zero hk0
            rw [show q.num * ((2 * j : ℕ) : ℤ) = 2 * (q.num * j) by push_cast; ring]
            omega
          · have hde : q.den % 2 = 0 := by
              have : 2 ∣ q.den * k := hk ▸ Nat.dvd_of_mod_eq_zero h0
              rcases (Nat.Prime.dvd_mul Nat.prime_two).1 this with h | h <;> omega
            have hno : q.num % 2 = 1 := by
              by_contra hn
              have h2d : 2 ∣ q.num.natAbs := by omega
              have := Nat.dvd_gcd h2d (Nat.dvd_of_mod_eq_zero hde)
              rw [q.reduced] at this
              omega
            rw [Int.mul_emod, hno]
            omega
        rw [List.map_cons, List.sum_cons, List.map_cons, List.sum_cons, Nat.cast_add, Int.add_emod, h1, h2, ← Int.add_emod]
    rw [key qs hd]
    have h4 : ((qs.map fun q => q.num * ((N / q.den : ℕ) : ℤ)).sum : ℤ) = N * m := by
      have h5 : (((qs.map fun q => q.num * ((N / q.den : ℕ) : ℤ)).sum : ℤ) : ℚ) = (N : ℚ) * qs.sum := by
        clear h key
        clear_value N
        clear hN
        induction qs with
        | nil => simp
        | cons q l ih =>
          rw [List.map_cons, List.sum_cons, List.sum_cons, Int.cast_add, ih fun q hq => hd q (List.mem_cons_of_mem _ hq), mul_add]
          congr 1
          have hq : (q.den : ℚ) ≠ 0 := Nat.cast_ne_zero.2 q.den_nz
          have := Rat.mul_den_eq_num q
          obtain ⟨k, hk⟩ := hd q List.mem_cons_self
          have h3 : N / q.den = k := by rw [hk]; exact Nat.mul_div_cancel_left _ q.den_pos
          rw [h3, hk]
          push_cast
          rw [← this]
          ring
      rw [h] at h5
      exact_mod_cast h5
    rw [h4, Int.mul_emod, Int.mul_emod (N : ℤ) (qs.length : ℤ)]
    have : (N : ℤ) % 2 = 0 := by omega
    rw [this]
    simp
  · have key : ∀ l : List ℚ, (∀ q ∈ l, q.den ∣ N) → (((l.map fun q => N / q.den).sum : ℕ) : ℤ) % 2 = (l.length : ℤ) % 2 := by
      intro l
      induction l with
      | nil => simp
      | cons q l ih =>
        intro hl
        have h1 := ih fun q hq => hl q (List.mem_cons_of_mem _ hq)
        have h2 : (N / q.den) % 2 = 1 := by
          obtain ⟨k, hk⟩ := hl q List.mem_cons_self
          have h3 : N / q.den = k := by rw [hk]; exact Nat.mul_div_cancel_left _ q.den_pos
          rw [h3]
          by_contra hn
          have : 2 ∣ N := (Nat.dvd_of_mod_eq_zero (by omega : k % 2 = 0)).trans ⟨q.den, by rw [hk]; ring⟩
          omega
        rw [List.map_cons, List.sum_cons, List.length_cons]
        push_cast
        omega
    rw [key qs hd, Int.mul_emod]
    have : (N : ℤ) % 2 = 1 := by omega
    rw [this]
    simp

end Flat
