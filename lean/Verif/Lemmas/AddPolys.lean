import Verif.Model.ThurstonVeech
import Verif.Lemmas.Build

/-!
# Adding polygons without labels
-/

namespace Flat
namespace MSurf
variable {K : Type} [Field K] [LinearOrder K] [IsStrictOrderedRing K]

omit [Field K] [LinearOrder K] [IsStrictOrderedRing K] in
theorem freshFrom_eq (d : Dict ℕ (Poly K)) {k : ℕ} (hk : ∀ i, i ∈ d.keys ↔ i < k) : ∀ (f n : ℕ), n ≤ k → k ≤ n + f → freshFrom d f n = k
  | 0, n, h1, h2 => by unfold freshFrom; omega
  | f + 1, n, h1, h2 => by
    unfold freshFrom
    by_cases hn : n < k
    · rw [if_pos (show (num n : ℕ) ∈ d.keys from (hk n).2 hn)]
      exact freshFrom_eq d hk f (n + 1) (by omega) (by omega)
    · rw [if_neg (show ¬ (num n : ℕ) ∈ d.keys from fun h => hn ((hk n).1 h))]
      omega

/-- The labels are the numbers up to `k`, and no polygon is glued. -/
structure Numbered (s : MSurf ℕ (Poly K)) (k : ℕ) : Prop where
  unlocked : s.mutable = true
  roots : s.roots = []
  keys : ∀ i, i ∈ s.polygons.keys ↔ i < k
  gkeys : ∀ i, i ∈ s.gluings.keys ↔ i < k
  next : s.nextLabel ≤ k
  len : k ≤ s.polygons.length
  opp : ∀ l e, s.opp l e = none

theorem wp_addPolygon_numbered {s : MSurf ℕ (Poly K)} {k : ℕ} (h : Numbered s k) (p : Poly K) :
    wp (addPolygon p none) (fun _ t => Numbered t (k + 1) ∧ ∀ i, t.polygons.get i = if i = k then some p else s.polygons.get i) (fun _ _ => False) s := by
  have hf : freshFrom s.polygons (s.polygons.length + 1) s.nextLabel = k := freshFrom_eq _ h.keys _ _ h.next (by have := h.len; omega)
  have hk : k ∉ s.polygons.keys := fun hh => by have := (h.keys k).1 hh; omega
  have hg : k ∉ s.gluings.keys := fun hh => by have := (h.gkeys k).1 hh; omega
  unfold addPolygon addPolygonBase
  rw [wp_bind, wp_bind, wp_checkMutable]
  refine ⟨fun _ => ?_, fun h' => by rw [h.unlocked] at h'; cases h'⟩
  unfold pickLabel
  dsimp only
  rw [wp_bind, wp_bind, wp_get, wp_bind, wp_set, wp_pure, hf]
  unfold insertPolygon
  rw [wp_bind, wp_get, wp_ite]
  refine ⟨fun h' => absurd h' hk, fun _ => ?_⟩
  rw [wp_bind, wp_set, wp_pure]
  unfold insertGluings
  rw [wp_bind, wp_get, wp_ite]
  refine ⟨fun h' => absurd h' hg, fun _ => ?_⟩
  rw [wp_bind, wp_set, wp_pure]
  refine ⟨⟨h.unlocked, ?_, ?_, ?_, ?_, ?_, ?_⟩, ?_⟩
  · simp [h.roots]
  · intro i
    change i ∈ (s.polygons.set k p).keys ↔ _
    rw [Dict.mem_keys_set, h.keys]
    omega
  · intro i
    change i ∈ (s.gluings.set k _).keys ↔ _
    rw [Dict.mem_keys_set, h.gkeys]
    omega
  · exact Nat.le_succ k
  · change k + 1 ≤ (s.polygons.set k p).length
    have h1 := congrArg List.length (Dict.keys_set s.polygons k p)
    have h2 := h.len
    rw [if_neg hk] at h1
    simp only [Dict.keys, List.length_append, List.length_map, List.length_singleton] at h1
    omega
  · intro l e
    unfold opp
    dsimp only
    rw [show (num k : ℕ) = k from rfl, Dict.get_set]
    by_cases hl : l = k
    · rw [if_pos hl]
      dsimp only
      cases hx : (List.replicate (nv p) (none : Option (ℕ × Int)))[e]? with
      | none => rfl
      | some c =>
        obtain ⟨_, hc⟩ := List.getElem?_eq_some_iff.1 hx
        rw [List.getElem_replicate] at hc
        rw [← hc]
        rfl
    · rw [if_neg hl]
      exact h.opp l e
  · intro i
    exact Dict.get_set _ _ _ _

theorem numbered_empty : Numbered (MSurf.empty : MSurf ℕ (Poly K)) 0 where
  unlocked := rfl
  roots := rfl
  keys i := by simp [MSurf.empty, Dict.keys]
  gkeys i := by simp [MSurf.empty, Dict.keys]
  next := le_rfl
  len := Nat.zero_le _
  opp l e := rfl

/-- The polygons get the next numbers as labels. -/
theorem wp_addPolys {s : MSurf ℕ (Poly K)} {k : ℕ} (hr : Reachable s) (h : Numbered s k) (ps : List (Poly K)) :
    wp (addPolys ps) (fun _ t => Reachable t ∧ Numbered t (k + ps.length) ∧ ∀ i, t.polygons.get i = if i < k then s.polygons.get i else ps[i - k]?)
      (fun _ _ => False) s := by
  induction ps generalizing s k with
  | nil =>
    refine ⟨hr, h, fun i => ?_⟩
    by_cases hi : i < k
    · rw [if_pos hi]
    · rw [if_neg hi, (Dict.get_eq_none_iff _ _).2 (fun hh => hi ((h.keys i).1 hh))]
      rfl
  | cons p ps ih =>
    unfold addPolys
    rw [wp_bind]
    have h1 := wp_reachable hr h.unlocked (.addPolygon p none) trivial (fun _ _ _ => by simp)
    simp only [Op.run] at h1
    rw [wp_bind] at h1
    refine wp_mono (wp_and h1 (wp_addPolygon_numbered h p)) ?_ (fun _ _ hh => hh.2)
    rintro _ t ⟨hrt, ht, hg⟩
    refine wp_mono (ih hrt ht) ?_ (fun _ _ hh => hh)
    rintro _ t' ⟨hr', hn', hg'⟩
    refine ⟨hr', by rw [List.length_cons, show k + (ps.length + 1) = k + 1 + ps.length by omega]; exact hn', fun i => ?_⟩
    rw [hg', hg]
    by_cases h1 : i < k
    · rw [if_pos (by omega), if_neg (by omega), if_pos h1]
    · by_cases h2 : i = k
      · subst h2
        rw [if_pos (by omega), if_pos rfl, if_neg h1, Nat.sub_self]
        rfl
      · rw [if_neg (by omega), if_neg h1, show i - k = (i - (k + 1)) + 1 by omega, List.getElem?_cons_succ]

end MSurf
end Flat
