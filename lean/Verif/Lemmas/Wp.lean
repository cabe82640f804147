import Verif.Model.Surface

/-!
# Weakest preconditions for `EStateM`
-/

namespace Flat

variable {σ α β : Type}

/-- From `s`, the action `m` returns with `Q` or raises with `E`. -/
def wp (m : EStateM Err σ α) (Q : α → σ → Prop) (E : Err → σ → Prop) (s : σ) : Prop :=
  match m s with
  | .ok a s' => Q a s'
  | .error e s' => E e s'

theorem wp_bind (m : EStateM Err σ α) (f : α → EStateM Err σ β) (Q E) (s : σ) :
    wp (m >>= f) Q E s ↔ wp m (fun a => wp (f a) Q E) E s := by
  unfold wp
  simp only [bind, EStateM.bind]
  cases m s <;> simp

theorem wp_pure (a : α) (Q E) (s : σ) : wp (pure a : EStateM Err σ α) Q E s ↔ Q a s := Iff.rfl

theorem wp_throw (e : Err) (Q E) (s : σ) : wp (throw e : EStateM Err σ α) Q E s ↔ E e s := Iff.rfl

theorem wp_get (Q E) (s : σ) : wp (get : EStateM Err σ σ) Q E s ↔ Q s s := Iff.rfl

theorem wp_set (s' : σ) (Q E) (s : σ) : wp (set s' : EStateM Err σ PUnit) Q E s ↔ Q () s' := Iff.rfl

theorem wp_ite (c : Prop) [Decidable c] (m m' : EStateM Err σ α) (Q E) (s : σ) :
    wp (if c then m else m') Q E s ↔ (c → wp m Q E s) ∧ (¬ c → wp m' Q E s) := by
  split_ifs with h <;> simp [h]

theorem wp_mono {m : EStateM Err σ α} {Q Q' : α → σ → Prop} {E E' : Err → σ → Prop} {s : σ}
    (h : wp m Q E s) (hQ : ∀ a s', Q a s' → Q' a s') (hE : ∀ e s', E e s' → E' e s') :
    wp m Q' E' s := by
  unfold wp at *
  revert h
  cases m s
  · exact hQ _ _
  · exact hE _ _

theorem wp_and {m : EStateM Err σ α} {Q Q' : α → σ → Prop} {E E' : Err → σ → Prop} {s : σ}
    (h : wp m Q E s) (h' : wp m Q' E' s) :
    wp m (fun a s => Q a s ∧ Q' a s) (fun e s => E e s ∧ E' e s) s := by
  unfold wp at *
  revert h h'
  cases m s
  · exact fun h h' => ⟨h, h'⟩
  · exact fun h h' => ⟨h, h'⟩

theorem wp_map (m : EStateM Err σ α) (f : α → β) (Q E) (s : σ) :
    wp (f <$> m) Q E s ↔ wp m (fun a => Q (f a)) E s := by
  unfold wp
  simp only [Functor.map, EStateM.map]
  cases m s <;> simp

/-- The state after running an action, whether it returned or raised. -/
def stateOf : EStateM.Result Err σ α → σ
  | .ok _ s => s
  | .error _ s => s

theorem wp_stateOf (m : EStateM Err σ α) (I : σ → Prop) (s : σ) :
    wp m (fun _ => I) (fun _ => I) s ↔ I (stateOf (m s)) := by
  unfold wp stateOf
  cases m s <;> rfl

section
variable {L P : Type} [LinearOrder L] [NumVertices P]

theorem wp_liftE (x : Except Err α) (Q E) (s : MSurf L P) :
    wp (liftE x : Act L P α) Q E s ↔ (∀ a, x = .ok a → Q a s) ∧ (∀ e, x = .error e → E e s) := by
  cases x <;> simp [liftE, wp_pure, wp_throw]

theorem wp_checkMutable (Q E) (s : MSurf L P) :
    wp (MSurf.checkMutable : Act L P Unit) Q E s ↔
      (s.mutable = true → Q () s) ∧ (s.mutable = false → E .immutable s) := by
  unfold MSurf.checkMutable
  rw [wp_bind, wp_get, wp_ite, wp_pure, wp_throw]
  simp

end
end Flat
