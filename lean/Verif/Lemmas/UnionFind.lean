import Verif.Model.Topology
import Mathlib.Logic.Relation

/-!
# Union-find
-/

namespace Flat
namespace RSurf
variable {D : Type} [DecidableEq D]

/-- The root of `x` is `r`, at distance at most `j`. -/
inductive Reach (uf : D → D) : ℕ → D → D → Prop
  | root {j : ℕ} {r : D} : uf r = r → Reach uf j r r
  | step {j : ℕ} {x r : D} : Reach uf j (uf x) r → Reach uf (j + 1) x r

theorem Reach.is_root {uf : D → D} {j : ℕ} {x r : D} (h : Reach uf j x r) : uf r = r := by
  induction h with
  | root h => exact h
  | step _ ih => exact ih

theorem Reach.mono {uf : D → D} {j k : ℕ} {x r : D} (h : Reach uf j x r) (hk : j ≤ k) : Reach uf k x r := by
  induction h generalizing k with
  | root h => exact .root h
  | step _ ih =>
    obtain ⟨k, rfl⟩ := Nat.exists_eq_add_of_lt (Nat.lt_of_succ_le hk)
    exact .step (ih (by omega))

theorem Reach.of_root {uf : D → D} {j : ℕ} {x r : D} (h : Reach uf j x r) (hx : uf x = x) : r = x := by
  induction h with
  | root h => rfl
  | step _ ih =>
    rw [hx] at ih
    exact ih hx

theorem Reach.unique {uf : D → D} {j k : ℕ} {x r r' : D} (h : Reach uf j x r) (h' : Reach uf k x r') : r = r' := by
  induction h generalizing k r' with
  | root h => exact (h'.of_root h).symm
  | step h ih =>
    cases h' with
    | root hr => rw [hr] at h ih; exact ih (.root (j := 0) hr)
    | step h' => exact ih h'

/-- A dictionary in which some entries were replaced by their roots. -/
def Compressed (uf uf' : D → D) : Prop := ∀ z, uf' z = uf z ∨ ∃ j, Reach uf j z (uf' z)

theorem Compressed.refl (uf : D → D) : Compressed uf uf := fun _ => .inl rfl

theorem Compressed.reach {uf uf' : D → D} (h : Compressed uf uf') {j : ℕ} {x r : D} (hr : Reach uf j x r) : Reach uf' j x r := by
  have hroot : ∀ r, uf r = r → uf' r = r := by
    intro r hr
    rcases h r with h | ⟨j, h⟩
    · rw [h, hr]
    · exact h.of_root hr
  induction hr with
  | root hr => exact .root (hroot _ hr)
  | @step j x r hr ih =>
    rcases h x with h | ⟨k, h⟩
    · exact .step (by rw [h]; exact ih)
    · have : uf' x = r := h.unique (.step hr)
      refine .step ?_
      rw [this]
      exact .root (hroot _ hr.is_root)

/-- All edges have a root, at bounded distance. -/
def Forest (uf : D → D) (k : ℕ) : Prop := ∀ x, ∃ r, Reach uf k x r

theorem findRoot_spec {uf : D → D} {j : ℕ} {x r : D} (h : Reach uf j x r) {fuel : ℕ} (hf : j < fuel) :
    ∃ uf', findRoot fuel uf x = .ok (r, uf') ∧ Compressed uf uf' := by
  induction fuel generalizing j x with
  | zero => omega
  | succ n ih =>
    unfold findRoot
    by_cases hx : uf x = x
    · rw [if_pos hx]
      rw [h.of_root hx]
      exact ⟨uf, rfl, .refl _⟩
    · rw [if_neg hx]
      cases h with
      | root h => exact absurd h hx
      | @step j _ _ h =>
        obtain ⟨uf', h1, h2⟩ := ih h (by omega)
        simp only [bind, Except.bind, h1, pure, Except.pure]
        refine ⟨_, rfl, ?_⟩
        intro z
        by_cases hz : z = x
        · subst hz
          rw [Function.update_self]
          exact .inr ⟨_, .step h⟩
        · rw [Function.update_of_ne hz]
          exact h2 z

/-- Have the same root. -/
def SameRoot (uf : D → D) (x y : D) : Prop := ∃ j k r, Reach uf j x r ∧ Reach uf k y r

theorem SameRoot.refl {uf : D → D} {k : ℕ} (h : Forest uf k) (x : D) : SameRoot uf x x := by
  obtain ⟨r, hr⟩ := h x
  exact ⟨_, _, r, hr, hr⟩

theorem SameRoot.symm {uf : D → D} {x y : D} (h : SameRoot uf x y) : SameRoot uf y x := by
  obtain ⟨j, k, r, h1, h2⟩ := h
  exact ⟨k, j, r, h2, h1⟩

theorem SameRoot.trans {uf : D → D} {x y z : D} (h : SameRoot uf x y) (h' : SameRoot uf y z) : SameRoot uf x z := by
  obtain ⟨j, k, r, h1, h2⟩ := h
  obtain ⟨j', k', r', h3, h4⟩ := h'
  have := h2.unique h3
  subst this
  exact ⟨_, _, _, h1, h4⟩

theorem Compressed.sameRoot {uf uf' : D → D} (h : Compressed uf uf') {k : ℕ} (hf : Forest uf k) (x y : D) :
    SameRoot uf' x y ↔ SameRoot uf x y := by
  constructor
  · rintro ⟨j, m, r, h1, h2⟩
    obtain ⟨a, ha⟩ := hf x
    obtain ⟨b, hb⟩ := hf y
    have := (h.reach ha).unique h1
    have := (h.reach hb).unique h2
    subst_vars
    exact ⟨_, _, _, ha, hb⟩
  · rintro ⟨j, m, r, h1, h2⟩
    exact ⟨_, _, _, h.reach h1, h.reach h2⟩

theorem Compressed.forest {uf uf' : D → D} (h : Compressed uf uf') {k : ℕ} (hf : Forest uf k) : Forest uf' k := fun x => by
  obtain ⟨r, hr⟩ := hf x
  exact ⟨r, h.reach hr⟩

/-- Linking two roots. -/
theorem reach_link {uf : D → D} {a b : D} (ha : uf a = a) (hb : uf b = b) {j : ℕ} {x r : D} (h : Reach uf j x r) :
    Reach (Function.update uf a b) (j + 1) x (if r = a then b else r) := by
  have hb' : Function.update uf a b b = b := by
    by_cases hba : b = a
    · subst hba; rw [Function.update_self]
    · rw [Function.update_of_ne hba, hb]
  induction h with
  | @root j r hr =>
    by_cases hra : r = a
    · subst hra
      rw [if_pos rfl]
      refine .step ?_
      rw [Function.update_self]
      exact .root hb'
    · rw [if_neg hra]
      exact .root (by rw [Function.update_of_ne hra, hr])
  | @step j x r h ih =>
    by_cases hxa : x = a
    · subst hxa
      rw [ha] at h
      rw [h.of_root ha, if_pos rfl]
      refine .step ?_
      rw [Function.update_self]
      exact .root hb'
    · refine .step ?_
      rw [Function.update_of_ne hxa]
      exact ih

theorem sameRoot_link {uf : D → D} {a b : D} (ha : uf a = a) (hb : uf b = b) {k : ℕ} (hf : Forest uf k) (x y : D) :
    SameRoot (Function.update uf a b) x y ↔
      SameRoot uf x y ∨ (SameRoot uf x a ∧ SameRoot uf y b) ∨ (SameRoot uf x b ∧ SameRoot uf y a) := by
  obtain ⟨rx, hx⟩ := hf x
  obtain ⟨ry, hy⟩ := hf y
  have hra : Reach uf 0 a a := .root ha
  have hrb : Reach uf 0 b b := .root hb
  have key : ∀ {x r y s : D} {j m : ℕ}, Reach uf j x r → Reach uf m y s → (SameRoot uf x y ↔ r = s) := by
    intro x r y s j m h1 h2
    constructor
    · rintro ⟨_, _, t, h3, h4⟩
      rw [h1.unique h3, h2.unique h4]
    · rintro rfl; exact ⟨_, _, _, h1, h2⟩
  have key' : ∀ {x r y s : D} {j m : ℕ}, Reach (Function.update uf a b) j x r → Reach (Function.update uf a b) m y s →
      (SameRoot (Function.update uf a b) x y ↔ r = s) := by
    intro x r y s j m h1 h2
    constructor
    · rintro ⟨_, _, t, h3, h4⟩
      rw [h1.unique h3, h2.unique h4]
    · rintro rfl; exact ⟨_, _, _, h1, h2⟩
  rw [key' (reach_link ha hb hx) (reach_link ha hb hy), key hx hy, key hx hra, key hy hrb, key hx hrb, key hy hra]
  by_cases h1 : rx = a <;> by_cases h2 : ry = a <;> simp [h1, h2]
  · constructor
    · intro h; exact .inr h.symm
    · rintro (h | h)
      · exact absurd h.symm h2
      · exact h.symm

/-- The first loop of `euler_characteristic()` builds the equivalence relation generated by the pairs `d, cross d`. -/
theorem unionLoop_spec {cross : D → Except Err (Option D)} (fuel : ℕ) (es : List D) : (∀ d ∈ es, ∀ e, cross d ≠ .error e) →
    ∀ (uf : D → D) (k : ℕ), Forest uf k → k + es.length < fuel → ∃ uf', es.foldlM (unionStep cross fuel) uf = .ok uf' ∧
      Forest uf' (k + es.length) ∧ ∀ x y, SameRoot uf' x y ↔
        Relation.EqvGen (fun a b => SameRoot uf a b ∨ a ∈ es ∧ cross a = .ok (some b)) x y := by
  induction es with
  | nil =>
    intro _ uf k hf _
    refine ⟨uf, rfl, hf, fun x y => ⟨fun h => .rel _ _ (.inl h), fun h => ?_⟩⟩
    induction h with
    | rel x y h => rcases h with h | h
                   · exact h
                   · cases h.1
    | refl x => exact .refl hf x
    | symm _ _ _ ih => exact ih.symm
    | trans _ _ _ _ _ ih1 ih2 => exact ih1.trans ih2
  | cons d es ih =>
    intro hcross uf k hf hlen
    replace ih := ih (fun d hd => hcross d (List.mem_cons_of_mem _ hd))
    rw [List.length_cons] at hlen
    rw [List.foldlM_cons]
    cases hc : cross d with
    | error e => exact absurd hc (hcross d List.mem_cons_self e)
    | ok o =>
      cases o with
      | none =>
        have h1 : unionStep cross fuel uf d = .ok uf := by
          unfold unionStep; simp only [hc, bind, Except.bind, pure, Except.pure]
        obtain ⟨uf', h2, h3, h4⟩ := ih uf k hf (by omega)
        refine ⟨uf', by rw [h1]; exact h2, ?_, fun x y => ?_⟩
        · rw [List.length_cons]
          exact fun x => by obtain ⟨r, hr⟩ := h3 x; exact ⟨r, hr.mono (by omega)⟩
        · rw [h4]
          have : (fun a b => SameRoot uf a b ∨ a ∈ es ∧ cross a = .ok (some b)) = (fun a b => SameRoot uf a b ∨ a ∈ d :: es ∧ cross a = .ok (some b)) := by
            funext a b
            refine propext ⟨fun h => h.imp_right (fun h => ⟨List.mem_cons_of_mem _ h.1, h.2⟩), fun h => h.imp_right (fun h => ⟨?_, h.2⟩)⟩
            rcases List.mem_cons.1 h.1 with rfl | h'
            · rw [hc] at h; cases h.2
            · exact h'
          rw [this]
      | some c =>
        obtain ⟨b, hb⟩ := hf c
        obtain ⟨uf1, h1, hc1⟩ := findRoot_spec hb (fuel := fuel) (by omega)
        have hf1 := hc1.forest hf
        obtain ⟨a, ha⟩ := hf1 d
        obtain ⟨uf2, h2, hc2⟩ := findRoot_spec ha (fuel := fuel) (by omega)
        have hf2 := hc2.forest hf1
        have hroota : uf2 a = a := (hc2.reach ha).is_root
        have hrootb : uf2 b = b := (hc2.reach (hc1.reach hb)).is_root
        have hstep : unionStep cross fuel uf d = .ok (Function.update uf2 a b) := by
          unfold unionStep; simp only [hc, h1, h2, bind, Except.bind, pure, Except.pure]
        have hf3 : Forest (Function.update uf2 a b) (k + 1) := fun x => by
          obtain ⟨r, hr⟩ := hf2 x
          exact ⟨_, reach_link hroota hrootb hr⟩
        obtain ⟨uf', h5, h6, h7⟩ := ih _ (k + 1) hf3 (by omega)
        refine ⟨uf', by rw [hstep]; exact h5, ?_, fun x y => ?_⟩
        · rw [List.length_cons, show k + (es.length + 1) = k + 1 + es.length by omega]; exact h6
        · rw [h7]
          have hsr : ∀ x y, SameRoot (Function.update uf2 a b) x y ↔
              SameRoot uf x y ∨ (SameRoot uf x d ∧ SameRoot uf y c) ∨ (SameRoot uf x c ∧ SameRoot uf y d) := by
            intro x y
            rw [sameRoot_link hroota hrootb hf2]
            simp only [hc2.sameRoot hf1, hc1.sameRoot hf]
            have hda : SameRoot uf d a := by
              rw [← hc1.sameRoot hf]; exact ⟨_, 0, _, ha, .root ha.is_root⟩
            have hcb : SameRoot uf c b := ⟨_, 0, _, hb, .root hb.is_root⟩
            have e1 : ∀ x, SameRoot uf x a ↔ SameRoot uf x d := fun x => ⟨fun h => h.trans hda.symm, fun h => h.trans hda⟩
            have e2 : ∀ x, SameRoot uf x b ↔ SameRoot uf x c := fun x => ⟨fun h => h.trans hcb.symm, fun h => h.trans hcb⟩
            simp only [e1, e2]
          constructor
          · intro h
            induction h with
            | rel x y h =>
              rcases h with h | h
              · rcases (hsr x y).1 h with h | h | h
                · exact .rel _ _ (.inl h)
                · exact .trans _ _ _ (.rel _ _ (.inl h.1)) (.trans _ _ _ (.rel _ _ (.inr ⟨List.mem_cons_self, hc⟩)) (.rel _ _ (.inl h.2.symm)))
                · exact .trans _ _ _ (.rel _ _ (.inl h.1)) (.trans _ _ _ (.symm _ _ (.rel _ _ (.inr ⟨List.mem_cons_self, hc⟩))) (.rel _ _ (.inl h.2.symm)))
              · exact .rel _ _ (.inr ⟨List.mem_cons_of_mem _ h.1, h.2⟩)
            | refl x => exact .refl x
            | symm _ _ _ ih => exact .symm _ _ ih
            | trans _ _ _ _ _ ih1 ih2 => exact .trans _ _ _ ih1 ih2
          · intro h
            induction h with
            | rel x y h =>
              rcases h with h | ⟨hm, h⟩
              · exact .rel _ _ (.inl ((hsr x y).2 (.inl h)))
              · rcases List.mem_cons.1 hm with rfl | hm
                · rw [hc] at h
                  injection h with h; injection h with h; subst h
                  exact .rel _ _ (.inl ((hsr _ _).2 (.inr (.inl ⟨.refl hf _, .refl hf _⟩))))
                · exact .rel _ _ (.inr ⟨hm, h⟩)
            | refl x => exact .refl x
            | symm _ _ _ ih => exact .symm _ _ ih
            | trans _ _ _ _ _ ih1 ih2 => exact .trans _ _ _ ih1 ih2

/-- The set of the roots. -/
theorem rootsLoop_spec (fuel : ℕ) (es : List D) : ∀ (uf : D → D) (k : ℕ) (acc : Finset D), Forest uf k → k < fuel →
    ∃ rs uf', es.foldlM (rootsStep fuel) (acc, uf) = .ok (rs, uf') ∧
      ∀ r, r ∈ rs ↔ r ∈ acc ∨ ∃ d ∈ es, Reach uf k d r := by
  induction es with
  | nil => intro uf k acc _ _; exact ⟨acc, uf, rfl, by simp⟩
  | cons d es ih =>
    intro uf k acc hf hk
    obtain ⟨r, hr⟩ := hf d
    obtain ⟨uf1, h1, hc1⟩ := findRoot_spec hr hk
    obtain ⟨rs, uf', h2, h3⟩ := ih uf1 k (insert r acc) (hc1.forest hf) hk
    have h0 : rootsStep fuel (acc, uf) d = .ok (insert r acc, uf1) := by
      unfold rootsStep; simp only [h1, bind, Except.bind, pure, Except.pure]
    refine ⟨rs, uf', by rw [List.foldlM_cons, h0]; exact h2, fun s => ?_⟩
    rw [h3, Finset.mem_insert]
    constructor
    · rintro ((rfl | h) | ⟨e, he, h⟩)
      · exact .inr ⟨d, List.mem_cons_self, hr⟩
      · exact .inl h
      · obtain ⟨t, ht⟩ := hf e
        rw [h.unique (hc1.reach ht)]
        exact .inr ⟨e, List.mem_cons_of_mem _ he, ht⟩
    · rintro (h | ⟨e, he, h⟩)
      · exact .inl (.inr h)
      · rcases List.mem_cons.1 he with rfl | he
        · exact .inl (.inl (h.unique hr))
        · exact .inr ⟨e, he, hc1.reach h⟩

end RSurf
end Flat
