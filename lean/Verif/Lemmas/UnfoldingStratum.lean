import Verif.Lemmas.UnfoldingAngles

/-!
# Lemmas about the strata of unfolded billiards
-/

namespace Flat

theorem sum_replicate_rat (n : ℕ) (x : ℚ) : (List.replicate n x).sum = n * x := by rw [List.sum_replicate, nsmul_eq_mul]

/-- The Euler characteristic of a cover. -/
theorem cover_chi (xs : List ℚ) (c : ℚ) (hc : 0 < c) (m : ℤ) (hm : (xs.map (c * ·)).sum = m) (j : ℤ) (hj : xs.sum = j) (hpar : (j : ℤ) % 2 = (xs.length : ℤ) % 2) :
    ∃ g : ℤ, ((xs.flatMap fun x => List.replicate (lcmDen (xs.map (c * ·)) / (c * x).den) (x * ((c * x).den : ℚ))).map (· - 1)).sum = 2 * (g : ℚ) := by
  have hpr := sum_div_den_parity _ m hm
  set N := lcmDen (xs.map (c * ·)) with hN
  have hd : ∀ x ∈ xs, (c * x).den ∣ N := fun x hx => den_dvd_lcmDen (List.mem_map_of_mem (f := (c * ·)) hx)
  have key : ∀ l : List ℚ, (∀ x ∈ l, (c * x).den ∣ N) → ((l.flatMap fun x => List.replicate (N / (c * x).den) (x * ((c * x).den : ℚ))).map (· - 1)).sum
      = N * l.sum - (((l.map (c * ·)).map fun q => N / q.den).sum : ℕ) := by
    intro l
    induction l with
    | nil => simp
    | cons x l ih =>
      intro hl
      rw [List.flatMap_cons, List.map_append, List.sum_append, ih fun y hy => hl y (List.mem_cons_of_mem _ hy), List.map_replicate, sum_replicate_rat]
      obtain ⟨k, hk⟩ := hl x List.mem_cons_self
      have h3 : N / (c * x).den = k := by rw [hk]; exact Nat.mul_div_cancel_left _ (Rat.den_pos _)
      simp only [List.map_cons, List.sum_cons, h3]
      have hk' : (N : ℚ) = ((c * x).den : ℚ) * k := by exact_mod_cast hk
      push_cast
      rw [hk']
      ring
  rw [key xs hd, hj]
  rw [List.length_map] at hpr
  set s := ((xs.map (c * ·)).map fun q => N / q.den).sum
  refine ⟨((N : ℤ) * j - s) / 2, ?_⟩
  have h0 : ((N : ℤ) * j - s) % 2 = 0 := by
    rw [Int.sub_emod, hpr, ← Int.sub_emod, ← mul_sub]
    obtain ⟨t, ht⟩ : (2 : ℤ) ∣ j - xs.length := Int.dvd_of_emod_eq_zero (by omega)
    rw [ht, show (N : ℤ) * (2 * t) = 2 * (N * t) by ring]
    omega
  have h1 : (N : ℤ) * j - s = 2 * (((N : ℤ) * j - s) / 2) := by omega
  have h2 : ((N : ℚ) * j - s) = (((N : ℤ) * j - s : ℤ) : ℚ) := by push_cast; ring
  rw [h2, h1]
  push_cast
  simp

theorem toZZ_eq {x : ℚ} (h : x.den = 1) : toZZ x = .ok x.num ∧ (x.num : ℚ) = x := by
  unfold toZZ
  rw [if_pos h]
  exact ⟨rfl, Rat.coe_int_num_of_den_eq_one h⟩

theorem stratumDegrees_spec (c : ℚ) (marked : Bool) (d : Dict ℚ ℕ) (h : ∀ a ∈ d.keys, (c * (a - 1)).den = 1) : ∃ ks, stratumDegrees c marked d = .ok ks ∧
    ks.map (fun k : ℤ => (k : ℚ)) = (d.expand.filter fun a => marked || decide (a ≠ 1)).map fun a => c * (a - 1) := by
  induction d with
  | nil => exact ⟨[], rfl, rfl⟩
  | cons e d ih =>
    obtain ⟨a, m⟩ := e
    obtain ⟨ks, h1, h2⟩ := ih fun b hb => h b (List.mem_cons_of_mem _ hb)
    have ha := toZZ_eq (h a List.mem_cons_self)
    have e1 : Dict.expand ((a, m) :: d) = List.replicate m a ++ Dict.expand d := rfl
    rw [e1, List.filter_append, List.map_append, ← h2]
    by_cases hm : (marked || decide (a ≠ 1)) = true
    · refine ⟨List.replicate m (c * (a - 1)).num ++ ks, ?_, ?_⟩
      · rw [stratumDegrees]
        simp only [hm, if_true, ha.1, h1, bind, Except.bind, pure, Except.pure]
      · rw [List.map_append, List.map_replicate, ha.2]
        congr 1
        rw [List.filter_eq_self.2 (fun b hb => by rw [(List.mem_replicate.1 hb).2]; exact hm), List.map_replicate]
    · refine ⟨ks, ?_, ?_⟩
      · rw [stratumDegrees]
        simp only [hm, h1]
        rfl
      · have : (List.replicate m a).filter (fun a => marked || decide (a ≠ 1)) = [] :=
          List.filter_eq_nil_iff.2 fun b hb => by rw [(List.mem_replicate.1 hb).2]; exact hm
        rw [this]
        rfl

theorem expand_filter_one {d : Dict ℚ ℕ} (h : d.keys.Nodup) : (if d.has 1 then d.erase 1 else d).expand = d.expand.filter (fun a => decide (a ≠ 1)) := by
  have nomem : ∀ d : Dict ℚ ℕ, 1 ∉ d.keys → d.expand.filter (fun a => decide (a ≠ 1)) = d.expand := by
    intro d hd
    refine List.filter_eq_self.2 fun a ha => ?_
    simp only [Dict.expand, List.mem_flatMap, List.mem_replicate] at ha
    obtain ⟨e, he, -, rfl⟩ := ha
    refine decide_eq_true fun h1 => hd ?_
    rw [← h1]
    exact List.mem_map_of_mem he
  have has : ∀ d : Dict ℚ ℕ, d.has 1 = true ↔ (1 : ℚ) ∈ d.keys := by
    intro d
    induction d with
    | nil => simp [Dict.has, Dict.get, Dict.keys]
    | cons e d ih =>
      obtain ⟨a, m⟩ := e
      simp only [Dict.has, Dict.get, Dict.keys, List.map_cons, List.mem_cons] at ih ⊢
      by_cases h : a = 1
      · simp [h]
      · rw [if_neg h, ih]
        constructor
        · exact Or.inr
        · rintro (h' | h')
          · exact absurd h'.symm h
          · exact h'
  by_cases h1 : (1 : ℚ) ∈ d.keys
  · rw [if_pos ((has d).2 h1)]
    clear has
    induction d with
    | nil => simp [Dict.keys] at h1
    | cons e d ih =>
      obtain ⟨a, m⟩ := e
      simp only [Dict.keys, List.map_cons, List.nodup_cons, List.mem_cons] at h h1
      have e1 : Dict.expand ((a, m) :: d) = List.replicate m a ++ Dict.expand d := rfl
      rw [e1, List.filter_append]
      by_cases ha : a = 1
      · subst ha
        rw [nomem d h.1]
        have : (List.replicate m (1 : ℚ)).filter (fun a => decide (a ≠ 1)) = [] :=
          List.filter_eq_nil_iff.2 fun b hb => by rw [(List.mem_replicate.1 hb).2]; decide
        rw [this]
        simp [Dict.erase]
      · have : (List.replicate m a).filter (fun a => decide (a ≠ 1)) = List.replicate m a :=
          List.filter_eq_self.2 fun b hb => by rw [(List.mem_replicate.1 hb).2]; exact decide_eq_true ha
        rw [this, ← ih h.2 (h1.resolve_left fun h' => ha h'.symm)]
        simp only [Dict.erase, if_neg ha]
        rfl
  · rw [if_neg (by rw [has]; exact h1), nomem d h1]

theorem expand_sums (d : Dict ℚ ℕ) : (d.map Prod.snd).sum = d.expand.length ∧ (d.map fun e => (e.2 : ℚ) * (e.1 - 1)).sum = (d.expand.map (· - 1)).sum := by
  induction d with
  | nil => exact ⟨rfl, rfl⟩
  | cons e d ih =>
    obtain ⟨a, m⟩ := e
    have e1 : Dict.expand ((a, m) :: d) = List.replicate m a ++ Dict.expand d := rfl
    rw [e1, List.length_append, List.map_append, List.sum_append, List.map_replicate, sum_replicate_rat, List.length_replicate, ← ih.1, ← ih.2]
    exact ⟨rfl, rfl⟩

theorem sum_filter_one (l : List ℚ) : ((l.filter fun a => decide (a ≠ 1)).map (· - 1)).sum = (l.map (· - 1)).sum := by
  induction l with
  | nil => rfl
  | cons a l ih =>
    by_cases h : a = 1
    · subst h
      rw [List.filter_cons_of_neg (by simp), List.map_cons, List.sum_cons, ih]
      ring
    · rw [List.filter_cons_of_pos (by simpa using h), List.map_cons, List.sum_cons, List.map_cons, List.sum_cons, ih]

end Flat
