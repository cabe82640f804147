import Verif.Model.Vertices
import Mathlib.Logic.Relation
import Mathlib.Data.List.Dedup

/-!
# The edges at a vertex: the closure of an edge under rotations
-/

namespace Flat
namespace RSurf

/-- One step of a rotation. -/
def Step {D : Type} (rot : D → Except Err (Option D)) (a b : D) : Prop := rot a = .ok (some b)

section
variable {D : Type} [DecidableEq D] {rot : D → Except Err (Option D)}

theorem collect_succ (fuel : ℕ) (acc : List D) (x : D) : collect rot (fuel + 1) acc x =
    (rot x).bind (fun o => match o with
      | none => .ok (if x ∈ acc then acc else x :: acc)
      | some y => if y ∈ (if x ∈ acc then acc else x :: acc) then .ok (if x ∈ acc then acc else x :: acc)
        else collect rot fuel (if x ∈ acc then acc else x :: acc) y) := by
  rw [collect]
  cases rot x with
  | error e => rfl
  | ok o =>
    cases o <;> rfl

theorem mem_insert' {acc : List D} {x y : D} : y ∈ (if x ∈ acc then acc else x :: acc) ↔ y = x ∨ y ∈ acc := by
  split_ifs with h
  · constructor
    · exact Or.inr
    · rintro (rfl | h') <;> assumption
  · exact List.mem_cons

/-- What `collect` returns: everything that was there, everything that can be reached; all that is new is closed under the
rotation, except that it stops at something that was there before. -/
theorem collect_spec (fuel : ℕ) : ∀ (acc : List D) (x : D) (r : List D), collect rot fuel acc x = .ok r →
    (∀ y ∈ acc, y ∈ r) ∧ x ∈ r ∧ (∀ y ∈ r, y ∈ acc ∨ Relation.ReflTransGen (Step rot) x y) ∧
    (∀ y z, y ∈ r → (y ∉ acc ∨ y = x) → Step rot y z → z ∈ r) := by
  induction fuel with
  | zero => intro acc x r h; cases h
  | succ n ih =>
    intro acc x r h
    rw [collect_succ] at h
    cases hx : rot x with
    | error e => rw [hx] at h; cases h
    | ok o =>
      rw [hx] at h
      cases o with
      | none =>
        injection h with h
        subst h
        refine ⟨fun y hy => mem_insert'.2 (.inr hy), mem_insert'.2 (.inl rfl), ?_, ?_⟩
        · intro y hy
          rcases mem_insert'.1 hy with rfl | hy
          · exact .inr .refl
          · exact .inl hy
        · intro y z hy hy' hs
          rcases mem_insert'.1 hy with rfl | hy
          · unfold Step at hs; rw [hx] at hs; cases hs
          · rcases hy' with hy' | rfl
            · exact absurd hy hy'
            · unfold Step at hs; rw [hx] at hs; cases hs
      | some w =>
        replace h : (if w ∈ (if x ∈ acc then acc else x :: acc) then Except.ok (if x ∈ acc then acc else x :: acc)
          else collect rot n (if x ∈ acc then acc else x :: acc) w) = .ok r := h
        have hstep : ∀ y z, y = x → Step rot y z → z = w := by
          rintro y z rfl hs
          unfold Step at hs; rw [hx] at hs; injection hs with hs; injection hs with hs; exact hs.symm
        have hmem : ∀ y, y ∈ (if x ∈ acc then acc else x :: acc) ↔ y = x ∨ y ∈ acc := fun y => mem_insert'
        generalize (if x ∈ acc then acc else x :: acc) = acc' at h hmem
        by_cases hw : w ∈ acc'
        · rw [if_pos hw] at h
          injection h with h
          subst h
          refine ⟨fun y hy => (hmem y).2 (.inr hy), (hmem x).2 (.inl rfl), ?_, ?_⟩
          · intro y hy
            rcases (hmem y).1 hy with rfl | hy
            · exact .inr .refl
            · exact .inl hy
          · intro y z hy hy' hs
            have hyx : y = x := by
              rcases hy' with hy' | hy'
              · exact ((hmem y).1 hy).resolve_right hy'
              · exact hy'
            rw [hstep y z hyx hs]
            exact hw
        · rw [if_neg hw] at h
          obtain ⟨h1, h2, h3, h4⟩ := ih _ _ _ h
          refine ⟨fun y hy => h1 y ((hmem y).2 (.inr hy)), h1 x ((hmem x).2 (.inl rfl)), ?_, ?_⟩
          · intro y hy
            rcases h3 y hy with h | h
            · rcases (hmem y).1 h with rfl | h
              · exact .inr .refl
              · exact .inl h
            · exact .inr (.head hx h)
          · intro y z hy hy' hs
            by_cases hyx : y = x
            · rw [hstep y z hyx hs]; exact h2
            · refine h4 y z hy (.inl ?_) hs
              rw [hmem]
              rcases hy' with hy' | hy'
              · exact fun h => h.elim hyx hy'
              · exact absurd hy' hyx

/-- The two calls of `collect_representatives` produce the equivalence class generated by the rotation. -/
theorem collect_both {rot rot' : D → Except Err (Option D)} {valid : D → Prop}
    (hv : ∀ a b, valid a → Step rot a b → valid b) (hv' : ∀ a b, valid a → Step rot' a b → valid b)
    (hinv : ∀ a b, valid a → valid b → (Step rot a b ↔ Step rot' b a)) {x : D} (hx : valid x) {n m : ℕ} {r r' : List D}
    (h : collect rot n [] x = .ok r) (h' : collect rot' m r x = .ok r') (y : D) :
    y ∈ r' ↔ Relation.EqvGen (fun a b => valid a ∧ valid b ∧ Step rot a b) x y := by
  obtain ⟨-, hxr, hr, hrc⟩ := collect_spec _ _ _ _ h
  obtain ⟨hsub, -, hr', hrc'⟩ := collect_spec _ _ _ _ h'
  have hreach : ∀ y, Relation.ReflTransGen (Step rot) x y → valid y ∧ Relation.EqvGen (fun a b => valid a ∧ valid b ∧ Step rot a b) x y := by
    intro y hy
    induction hy with
    | refl => exact ⟨hx, .refl _⟩
    | tail _ hs ih => exact ⟨hv _ _ ih.1 hs, .trans _ _ _ ih.2 (.rel _ _ ⟨ih.1, hv _ _ ih.1 hs, hs⟩)⟩
  have hreach' : ∀ y, Relation.ReflTransGen (Step rot') x y → valid y ∧ Relation.EqvGen (fun a b => valid a ∧ valid b ∧ Step rot a b) x y := by
    intro y hy
    induction hy with
    | refl => exact ⟨hx, .refl _⟩
    | tail _ hs ih =>
      have hvc := hv' _ _ ih.1 hs
      exact ⟨hvc, .trans _ _ _ ih.2 (.symm _ _ (.rel _ _ ⟨hvc, ih.1, (hinv _ _ hvc ih.1).2 hs⟩))⟩
  have hall : ∀ y ∈ r', valid y ∧ Relation.EqvGen (fun a b => valid a ∧ valid b ∧ Step rot a b) x y := by
    intro y hy
    rcases hr' y hy with h | h
    · rcases hr y h with h | h
      · cases h
      · exact hreach y h
    · exact hreach' y h
  constructor
  · exact fun h => (hall y h).2
  · have hfwd : ∀ a b, a ∈ r' → Step rot a b → b ∈ r' := by
      intro a b ha hs
      by_cases har : a ∈ r
      · exact hsub _ (hrc a b har (.inl (by simp)) hs)
      · rcases hr' a ha with h | h
        · exact absurd h har
        · have hva := (hreach' a h).1
          rcases Relation.ReflTransGen.cases_tail h with rfl | ⟨c, hc, hca⟩
          · exact absurd hxr har
          · have hvc := (hreach' c hc).1
            have hac := (hinv _ _ hva hvc).2 hca
            unfold Step at hac hs
            rw [hac] at hs
            injection hs with hs
            injection hs with hs
            subst hs
            have : ∀ c, Relation.ReflTransGen (Step rot') x c → c ∈ r' := by
              intro c hc
              induction hc with
              | refl => exact hsub _ hxr
              | @tail b c hb hs ih =>
                by_cases hbr : b ∈ r
                · by_cases hbx : b = x
                  · exact hrc' b c ih (.inr hbx) hs
                  · rcases hr b hbr with h | h
                    · cases h
                    · rcases Relation.ReflTransGen.cases_tail h with h | ⟨d, hd, hdb⟩
                      · exact absurd h hbx
                      · have := (hinv _ _ (hreach d hd).1 (hreach b h).1).1 hdb
                        unfold Step at this hs
                        rw [this] at hs
                        injection hs with hs
                        injection hs with hs
                        subst hs
                        refine hsub _ ?_
                        have : ∀ d, Relation.ReflTransGen (Step rot) x d → d ∈ r := by
                          intro d hd
                          induction hd with
                          | refl => exact hxr
                          | tail _ hs ih => exact hrc _ _ ih (.inl (by simp)) hs
                        exact this d hd
                · exact hrc' b c ih (.inl hbr) hs
            exact this c hc
    have hbwd : ∀ a b, a ∈ r' → Step rot' a b → b ∈ r' := by
      intro a b ha hs
      by_cases har : a ∈ r
      · by_cases hax : a = x
        · exact hrc' a b ha (.inr hax) hs
        · rcases hr a har with h | h
          · cases h
          · rcases Relation.ReflTransGen.cases_tail h with h | ⟨d, hd, hda⟩
            · exact absurd h hax
            · have := (hinv _ _ (hreach d hd).1 (hreach a h).1).1 hda
              unfold Step at this hs
              rw [this] at hs
              injection hs with hs
              injection hs with hs
              subst hs
              refine hsub _ ?_
              have : ∀ d, Relation.ReflTransGen (Step rot) x d → d ∈ r := by
                intro d hd
                induction hd with
                | refl => exact hxr
                | tail _ hs ih => exact hrc _ _ ih (.inl (by simp)) hs
              exact this d hd
      · exact hrc' a b ha (.inl har) hs
    have key : ∀ a b, Relation.EqvGen (fun a b => valid a ∧ valid b ∧ Step rot a b) a b → (a ∈ r' ↔ b ∈ r') := by
      intro a b hab
      induction hab with
      | rel a b h => exact ⟨fun ha => hfwd a b ha h.2.2, fun hb => hbwd b a hb ((hinv _ _ h.1 h.2.1).1 h.2.2)⟩
      | refl => rfl
      | symm _ _ _ ih => exact ih.symm
      | trans _ _ _ _ _ ih1 ih2 => exact ih1.trans ih2
    exact fun h => (key _ _ h).1 (hsub _ hxr)

theorem collect_nodup (fuel : ℕ) : ∀ (acc : List D) (x : D) (r : List D), acc.Nodup → collect rot fuel acc x = .ok r → r.Nodup := by
  induction fuel with
  | zero => intro acc x r _ h; cases h
  | succ n ih =>
    intro acc x r hn h
    have hn' : (if x ∈ acc then acc else x :: acc).Nodup := by
      split_ifs with hx
      · exact hn
      · exact List.nodup_cons.2 ⟨hx, hn⟩
    rw [collect_succ] at h
    cases hx : rot x with
    | error e => rw [hx] at h; cases h
    | ok o =>
      rw [hx] at h
      cases o with
      | none => injection h with h; rw [← h]; exact hn'
      | some w =>
        have h : (if w ∈ (if x ∈ acc then acc else x :: acc) then Except.ok (if x ∈ acc then acc else x :: acc)
          else collect rot n (if x ∈ acc then acc else x :: acc) w) = .ok r := h
        by_cases hw : w ∈ (if x ∈ acc then acc else x :: acc)
        · rw [if_pos hw] at h; injection h with h; rw [← h]; exact hn'
        · rw [if_neg hw] at h; exact ih _ _ _ hn' h

/-- With finitely many edges the loop ends. -/
theorem collect_ends {valid : D → Prop} {ds : List D} (hds : ∀ d, valid d → d ∈ ds)
    (hrot : ∀ a, valid a → ∃ o, rot a = .ok o ∧ ∀ b, o = some b → valid b) (fuel : ℕ) :
    ∀ (acc : List D) (x : D), acc.Nodup → (∀ y ∈ acc, valid y) → valid x →
      (ds.length < fuel + acc.length ∧ x ∉ acc ∨ ds.length + 1 < fuel + acc.length) → 0 < fuel → ∃ r, collect rot fuel acc x = .ok r := by
  induction fuel with
  | zero => intro acc x _ _ _ _ h; cases h
  | succ n ih =>
    intro acc x hn hacc hx hlen _
    rw [collect_succ]
    obtain ⟨o, ho, hb⟩ := hrot x hx
    rw [ho]
    cases o with
    | none => exact ⟨_, rfl⟩
    | some w =>
      have hn' : (if x ∈ acc then acc else x :: acc).Nodup := by
        split_ifs with hx
        · exact hn
        · exact List.nodup_cons.2 ⟨hx, hn⟩
      have hacc' : ∀ y ∈ (if x ∈ acc then acc else x :: acc), valid y := by
        intro y hy
        rcases mem_insert'.1 hy with rfl | hy
        · exact hx
        · exact hacc y hy
      change ∃ r, (if w ∈ (if x ∈ acc then acc else x :: acc) then Except.ok (if x ∈ acc then acc else x :: acc)
          else collect rot n (if x ∈ acc then acc else x :: acc) w) = .ok r
      by_cases hw : w ∈ (if x ∈ acc then acc else x :: acc)
      · rw [if_pos hw]; exact ⟨_, rfl⟩
      · rw [if_neg hw]
        have hle : (w :: (if x ∈ acc then acc else x :: acc)).length ≤ ds.length := by
          refine (List.Nodup.subperm (List.nodup_cons.2 ⟨hw, hn'⟩) ?_).length_le
          intro y hy
          rcases List.mem_cons.1 hy with rfl | hy
          · exact hds _ (hb _ rfl)
          · exact hds _ (hacc' y hy)
        have hl : ds.length < n + (if x ∈ acc then acc else x :: acc).length := by
          split_ifs with hxa
          · rcases hlen with h | h
            · exact absurd hxa h.2
            · omega
          · rcases hlen with h | h
            · simp only [List.length_cons]; omega
            · simp only [List.length_cons]; omega
        refine ih _ _ hn' hacc' (hb _ rfl) (.inl ⟨hl, hw⟩) ?_
        simp only [List.length_cons] at hle
        omega

end

end RSurf
end Flat
