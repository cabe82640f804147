import Verif.Model.Dict

namespace Flat
namespace Dict
variable {L V W : Type*} [DecidableEq L]

@[simp] theorem get_nil (k : L) : get ([] : Dict L V) k = none := rfl

theorem get_set (d : Dict L V) (k k' : L) (v : V) :
    (d.set k v).get k' = if k' = k then some v else d.get k' := by
  induction d with
  | nil =>
    by_cases h : k' = k
    · subst h; simp [set, get]
    · simp [set, get, h, Ne.symm h]
  | cons x d ih =>
    obtain ⟨a, b⟩ := x
    by_cases h : a = k
    · subst h
      by_cases h' : k' = a
      · subst h'; simp [set, get]
      · simp [set, get, h', Ne.symm h']
    · by_cases h' : k' = a
      · subst h'
        simp [set, get, h]
      · simp only [set, if_neg h, get, if_neg (Ne.symm h'), ih]

theorem keys_set (d : Dict L V) (k : L) (v : V) :
    (d.set k v).keys = if k ∈ d.keys then d.keys else d.keys ++ [k] := by
  induction d with
  | nil => simp [set, keys]
  | cons x d ih =>
    obtain ⟨a, b⟩ := x
    by_cases h : a = k
    · subst h; simp [set, keys]
    · have h' : ¬ k = a := fun e => h e.symm
      by_cases hk : k ∈ keys d
      · rw [if_pos hk] at ih
        simp only [keys] at ih hk
        simp [set, h, keys, ih, hk]
      · rw [if_neg hk] at ih
        simp only [keys] at ih hk
        simp [set, h, h', keys, ih, hk]

theorem mem_keys_iff (d : Dict L V) (k : L) : k ∈ d.keys ↔ (d.get k).isSome := by
  induction d with
  | nil => simp [keys]
  | cons x d ih =>
    obtain ⟨a, b⟩ := x
    simp only [keys, List.map_cons, List.mem_cons] at ih ⊢
    by_cases h : a = k
    · simp [get, h]
    · simp only [get, if_neg h, ← ih]
      constructor
      · rintro (h' | h')
        · exact absurd h'.symm h
        · exact h'
      · exact Or.inr

theorem has_iff (d : Dict L V) (k : L) : d.has k = true ↔ k ∈ d.keys := by
  rw [mem_keys_iff]; rfl

theorem get_eq_none_iff (d : Dict L V) (k : L) : d.get k = none ↔ k ∉ d.keys := by
  rw [mem_keys_iff]; simp

theorem keys_erase (d : Dict L V) (k : L) : (d.erase k).keys = d.keys.erase k := by
  induction d with
  | nil => rfl
  | cons x d ih =>
    obtain ⟨a, b⟩ := x
    by_cases h : a = k
    · subst h; simp [erase, keys]
    · simp only [keys] at ih
      simp [erase, keys, h, ih]

theorem get_erase (d : Dict L V) (hd : d.keys.Nodup) (k k' : L) :
    (d.erase k).get k' = if k' = k then none else d.get k' := by
  induction d with
  | nil => simp [erase]
  | cons x d ih =>
    obtain ⟨a, b⟩ := x
    simp only [keys, List.map_cons, List.nodup_cons] at hd
    obtain ⟨ha, hd⟩ := hd
    by_cases h : a = k
    · subst h
      by_cases h' : k' = a
      · subst h'
        have : get d k' = none := (get_eq_none_iff d k').2 ha
        simp [erase, this]
      · simp [erase, get, h', Ne.symm h']
    · by_cases h' : a = k'
      · subst h'
        simp [erase, get, h]
      · simp only [erase, if_neg h, get, if_neg h', ih hd]

theorem keys_set_nodup (d : Dict L V) (hd : d.keys.Nodup) (k : L) (v : V) :
    (d.set k v).keys.Nodup := by
  rw [keys_set]
  split_ifs with h
  · exact hd
  · simp only [List.nodup_append, hd, true_and, List.nodup_singleton]
    rintro a ha b hb rfl
    rw [List.mem_singleton] at hb
    exact h (hb ▸ ha)

theorem keys_erase_nodup (d : Dict L V) (hd : d.keys.Nodup) (k : L) : (d.erase k).keys.Nodup := by
  rw [keys_erase]
  exact hd.erase _

theorem mem_keys_erase (d : Dict L V) (hd : d.keys.Nodup) (k k' : L) :
    k' ∈ (d.erase k).keys ↔ k' ≠ k ∧ k' ∈ d.keys := by
  rw [keys_erase, hd.mem_erase_iff]

theorem mem_keys_set (d : Dict L V) (k k' : L) (v : V) :
    k' ∈ (d.set k v).keys ↔ k' = k ∨ k' ∈ d.keys := by
  rw [mem_keys_iff, get_set, mem_keys_iff]
  by_cases h : k' = k <;> simp [h]

theorem get_of_mem (d : Dict L V) (hd : d.keys.Nodup) (k : L) (v : V) (h : (k, v) ∈ d) :
    d.get k = some v := by
  induction d with
  | nil => simp at h
  | cons x d ih =>
    obtain ⟨a, b⟩ := x
    simp only [keys, List.map_cons, List.nodup_cons] at hd
    obtain ⟨ha, hd⟩ := hd
    rcases List.mem_cons.1 h with h | h
    · simp only [Prod.mk.injEq] at h
      simp [get, h.1, h.2]
    · have : a ≠ k := by
        rintro rfl
        exact ha (List.mem_map.2 ⟨_, h, rfl⟩)
      simp only [get, if_neg this]
      exact ih hd h

theorem mem_of_get (d : Dict L V) (k : L) (v : V) (h : d.get k = some v) : (k, v) ∈ d := by
  induction d with
  | nil => simp at h
  | cons x d ih =>
    obtain ⟨a, b⟩ := x
    by_cases h' : a = k
    · simp only [get, if_pos h', Option.some.injEq] at h
      simp [h, h']
    · simp only [get, if_neg h'] at h
      exact List.mem_cons_of_mem _ (ih h)

end Dict

theorem pyIndex_of_nonneg {n : ℕ} {i : Int} (h0 : 0 ≤ i) (h1 : i < n) :
    pyIndex n i = some i.toNat := by simp [pyIndex, h0, h1]

theorem pyIndex_natCast {n i : ℕ} : pyIndex n (i : Int) = if i < n then some i else none := by
  simp [pyIndex]

theorem pyIndex_lt {n : ℕ} {i : Int} {j : ℕ} (h : pyIndex n i = some j) : j < n := by
  unfold pyIndex at h
  split_ifs at h <;> simp only [Option.some.injEq] at h <;> omega

theorem pyGet_natCast {α : Type*} (l : List α) (i : ℕ) (x : α) :
    pyGet l (i : Int) = .ok x ↔ l[i]? = some x := by
  unfold pyGet
  rw [pyIndex_natCast]
  by_cases h : i < l.length
  · rw [if_pos h]
    simp [h]
  · rw [if_neg h]
    simp only [reduceCtorEq, false_iff]
    rw [List.getElem?_eq_none (by omega)]
    simp

end Flat
