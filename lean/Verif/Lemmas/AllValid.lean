import Verif.Lemmas.Triangles
import Verif.Lemmas.Composite

/-!
# The polygons of a surface stay polygons
-/

namespace Flat
namespace MSurf

section
variable {L P : Type} [LinearOrder L] [NumVertices P]

/-- All polygons of the surface have a property. -/
def AllPoly (V : P → Prop) (s : MSurf L P) : Prop := ∀ x ∈ s.polygons, V x.2

/-- The action keeps the property of polygons, whether it succeeds or not. -/
def Pres (V : P → Prop) {α : Type} (m : Act L P α) : Prop := ∀ s, AllPoly V s → wp m (fun _ => AllPoly V) (fun _ => AllPoly V) s

variable {V : P → Prop} {α β : Type}

theorem pres_bind {m : Act L P α} {f : α → Act L P β} (hm : Pres V m) (hf : ∀ a, Pres V (f a)) : Pres V (m >>= f) := by
  intro s hs
  rw [wp_bind]
  exact wp_mono (hm s hs) (fun a s' h => hf a s' h) (fun _ _ h => h)

theorem pres_pure (a : α) : Pres V (pure a : Act L P α) := fun _ hs => hs

theorem pres_throw (e : Err) : Pres V (throw e : Act L P α) := fun _ hs => hs

theorem pres_get {f : MSurf L P → Act L P β} (hf : ∀ s, AllPoly V s → Pres V (f s)) : Pres V (get >>= f) := by
  intro s hs
  rw [wp_bind, wp_get]
  exact hf s hs s hs

theorem pres_set {s' : MSurf L P} (h : AllPoly V s') : Pres V (set s' : Act L P PUnit) := fun _ _ => h

theorem pres_liftE {x : Except Err α} {f : α → Act L P β} (hf : ∀ a, x = .ok a → Pres V (f a)) : Pres V (liftE x >>= f) := by
  intro s hs
  rw [wp_bind, wp_liftE]
  exact ⟨fun a ha => hf a ha s hs, fun _ _ => hs⟩

theorem pres_ite {c : Prop} [Decidable c] {m m' : Act L P α} (h : c → Pres V m) (h' : ¬ c → Pres V m') : Pres V (if c then m else m') := by
  by_cases hc : c
  · rw [if_pos hc]; exact h hc
  · rw [if_neg hc]; exact h' hc

theorem pres_throw_bind {e : Err} {f : α → Act L P β} : Pres V ((throw e : Act L P α) >>= f) := by
  intro s hs
  rw [wp_bind, wp_throw]
  exact hs

theorem pres_guard {c : Prop} [Decidable c] {e : Err} {m : Act L P β} (h : ¬ c → Pres V m) :
    Pres V (if c then (throw e : Act L P PUnit) >>= (fun _ => m) else m) := pres_ite (fun _ => pres_throw_bind) h

theorem pres_checkMutable : Pres V (checkMutable : Act L P Unit) :=
  pres_get fun _ _ => pres_ite (fun _ => pres_pure _) (fun _ => pres_throw _)

theorem pres_setGluing (l : L) (e : Int) (v : Option (L × Int)) : Pres V (setGluing l e v : Act L P Unit) := by
  refine pres_get fun s hs => ?_
  cases s.gluings.get l with
  | none => exact pres_throw _
  | some g =>
    dsimp only
    cases pySet g e v with
    | error x => exact pres_throw _
    | ok g' => exact pres_set hs

theorem pres_splitRoots (l l' : L) : Pres V (splitRoots l l' : Act L P Unit) := by
  refine pres_get fun s hs => pres_ite (fun _ => ?_) (fun _ => pres_pure _)
  refine pres_liftE fun c _ => pres_ite (fun _ => ?_) (fun _ => pres_pure _)
  refine pres_liftE fun c' _ => pres_guard fun _ => ?_
  split
  · exact pres_throw _
  · exact pres_liftE fun m _ => pres_set hs

theorem pres_joinRoots (l l' : L) : Pres V (joinRoots l l' : Act L P Unit) := by
  refine pres_get fun s hs => pres_ite (fun _ => ?_) (fun _ => pres_pure _)
  refine pres_liftE fun c _ => pres_ite (fun _ => ?_) (fun _ => pres_pure _)
  refine pres_liftE fun c' _ => ?_
  split
  · exact pres_throw _
  · exact pres_set hs

theorem pres_unglue (l : L) (e : Int) : Pres V (unglue l e : Act L P Unit) := by
  refine pres_bind pres_checkMutable fun _ => pres_get fun s hs => pres_liftE fun c _ => ?_
  cases c with
  | none => exact pres_setGluing _ _ _
  | some c => exact pres_bind (pres_setGluing _ _ _) fun _ => pres_bind (pres_setGluing _ _ _) fun _ => pres_splitRoots _ _

theorem pres_glue (x y : L × Int) : Pres V (glue x y : Act L P Unit) :=
  pres_bind pres_checkMutable fun _ => pres_get fun _ _ => pres_guard fun _ => pres_guard fun _ =>
    pres_bind (pres_unglue _ _) fun _ => pres_bind (pres_unglue _ _) fun _ => pres_bind (pres_joinRoots _ _) fun _ =>
    pres_bind (pres_setGluing _ _ _) fun _ => pres_setGluing _ _ _

theorem pres_glueAll (l : L) (n : ℕ) (cs : List (L × Int)) : Pres V (glueAll l n cs : Act L P Unit) := by
  induction cs generalizing n with
  | nil => exact pres_pure _
  | cons c cs ih => exact pres_bind (pres_glue _ _) fun _ => ih _

theorem pres_unglueLoop (l : L) (es : List ℕ) : Pres V (unglueLoop l es : Act L P Unit) := by
  induction es with
  | nil => exact pres_pure _
  | cons e es ih =>
    refine pres_get fun s hs => pres_liftE fun c _ => ?_
    cases c with
    | none => exact ih
    | some c => exact pres_bind (pres_setGluing _ _ _) fun _ => ih

theorem pres_ungluePolygon (l : L) : Pres V (ungluePolygon l : Act L P Unit) := by
  refine pres_get fun s hs => ?_
  cases s.gluings.get l with
  | none => exact pres_throw _
  | some g =>
    exact pres_bind (pres_unglueLoop _ _) fun _ => pres_get fun s hs => pres_liftE fun p _ => pres_set hs

theorem mem_erase (d : Dict L P) (k : L) (x : L × P) (h : x ∈ d.erase k) : x ∈ d := by
  induction d with
  | nil => cases h
  | cons y d ih =>
    obtain ⟨k', v'⟩ := y
    rw [Dict.erase] at h
    split_ifs at h
    · exact List.mem_cons_of_mem _ h
    · rcases List.mem_cons.1 h with h | h
      · rw [h]; exact List.mem_cons_self
      · exact List.mem_cons_of_mem _ (ih h)

theorem mem_set (d : Dict L P) (k : L) (v : P) (x : L × P) (h : x ∈ d.set k v) : x.2 = v ∨ x ∈ d := by
  induction d with
  | nil =>
    rw [Dict.set, List.mem_singleton] at h
    rw [h]; exact .inl rfl
  | cons y d ih =>
    obtain ⟨k', v'⟩ := y
    rw [Dict.set] at h
    split_ifs at h
    · rcases List.mem_cons.1 h with h | h
      · rw [h]; exact .inl rfl
      · exact .inr (List.mem_cons_of_mem _ h)
    · rcases List.mem_cons.1 h with h | h
      · rw [h]; exact .inr List.mem_cons_self
      · exact (ih h).imp_right (List.mem_cons_of_mem _)

theorem pres_removePolygon (l : L) : Pres V (removePolygon l : Act L P Unit) :=
  pres_bind (pres_ungluePolygon l) fun _ => pres_get fun s hs => pres_bind (pres_set (s' := { s with gluings := s.gluings.erase l }) hs) fun _ =>
    pres_bind pres_checkMutable fun _ => pres_get fun s hs => pres_ite (fun _ => pres_throw _) fun _ =>
      pres_set (fun x hx => hs x (mem_erase _ _ _ hx))

theorem pres_addPolygon [LabelNum L] {p : P} (hp : V p) (l : Option L) : Pres V (addPolygon p l : Act L P L) := by
  refine pres_bind (pres_bind pres_checkMutable fun _ => pres_bind ?_ fun l => ?_) fun l => ?_
  · cases l with
    | some l => exact pres_pure _
    | none =>
      refine pres_get fun s hs => pres_bind (pres_set ?_) fun _ => pres_pure _
      exact hs
  · refine pres_get fun s hs => pres_ite (fun _ => pres_throw _) fun _ => pres_bind (pres_set ?_) fun _ => pres_pure _
    intro x hx
    rcases mem_set _ _ _ _ hx with h | h
    · rw [h]; exact hp
    · exact hs x h
  · refine pres_get fun s hs => pres_ite (fun _ => pres_throw _) fun _ => pres_bind (pres_set ?_) fun _ => pres_pure _
    exact hs

theorem pres_replacePolygon (l : L) {p : P} (hp : V p) : Pres V (replacePolygon l p : Act L P Unit) := by
  refine pres_get fun s hs => pres_liftE fun old _ => pres_ite (fun _ => pres_throw _) fun _ => pres_set ?_
  intro x hx
  rcases mem_set _ _ _ _ hx with h | h
  · rw [h]; exact hp
  · exact hs x h

theorem pres_setRoots (rs : List L) : Pres V (setRoots rs : Act L P Unit) := by
  intro s hs
  refine wp_mono (setRoots_frame rs s) ?_ ?_
  · rintro _ s' ⟨rfl, -⟩; exact hs
  · rintro _ s' ⟨rfl, -⟩; exact hs

end

section
variable {L K : Type} [LinearOrder L] [Field K] [LinearOrder K] [IsStrictOrderedRing K]

theorem ofVertices_valid {vs q : Poly K} (h : Poly.ofVertices vs = .ok q) : q.Valid := by
  obtain ⟨rfl, h⟩ := (Poly.ofVertices_iff _ _).1 h
  exact h

theorem ofEdges_valid {es : List (Vec K)} {q : Poly K} (h : Poly.ofEdges es = .ok q) : q.Valid := by
  obtain ⟨h1, h2, h3, -⟩ := Poly.ofEdges_ok h
  rw [← Poly.check_iff q (by omega), h1]
  unfold Poly.ofEdges at h
  split_ifs at h with h4
  dsimp only at h
  split_ifs at h with h5
  simp only [bind, Except.bind] at h
  cases hc : Poly.check (Poly.partialSums 0 es).dropLast with
  | error e => rw [hc] at h; cases h
  | ok u => rfl

theorem flipTriangle_valid {a b c : Vec K} {d : ℕ} {q : Poly K} (h : flipTriangle a b c d = .ok q) : q.Valid := by
  unfold flipTriangle at h
  cases hc : Poly.ofVertices ([a, b, c].drop (3 - d) ++ [a, b, c].take (3 - d)) with
  | error e => rw [hc] at h; cases h
  | ok r =>
    rw [hc] at h
    injection h with h
    rw [← h]
    exact (ofVertices_valid hc).translate _

theorem pres_glueOptions (l : L) (e : ℕ) (cs : List (Option (L × Int))) : Pres Poly.Valid (glueOptions l e cs : Act L (Poly K) Unit) := by
  induction cs generalizing e with
  | nil => exact pres_pure _
  | cons c cs ih =>
    cases c with
    | none => exact pres_throw _
    | some c => exact pres_bind (pres_glue _ _) fun _ => ih _

variable [LabelNum L]

/-- Joining polygons yields polygons. -/
theorem pres_joinPolygons (p1 : L) (e1 : ℕ) : Pres Poly.Valid (joinPolygons p1 e1 : Act L (Poly K) Unit) := by
  refine pres_get fun s hs => pres_liftE fun poly1 _ => pres_liftE fun c _ => pres_liftE fun poly2 _ => pres_guard fun _ =>
    pres_liftE fun t _ => pres_liftE fun q hq => pres_liftE fun gl _ => pres_liftE fun roots _ => ?_
  have rest : Pres Poly.Valid (do
      removePolygon c.1
      removePolygon p1
      let _ ← addPolygon q (some p1)
      glueAll p1 0 gl : Act L (Poly K) Unit) :=
    pres_bind (pres_removePolygon _) fun _ => pres_bind (pres_removePolygon _) fun _ => pres_bind (pres_addPolygon (ofEdges_valid hq) _) fun _ =>
      pres_glueAll _ _ _
  exact pres_ite (fun _ => pres_bind (pres_setRoots _) fun _ => rest) (fun _ => rest)

/-- Subdividing polygons yields polygons. -/
theorem pres_subdividePolygon (p : L) (v1 v2 : ℕ) (newLabel : Option L) :
    Pres Poly.Valid (subdividePolygon p v1 v2 newLabel : Act L (Poly K) Unit) := by
  exact pres_get fun s hs => pres_liftE fun poly _ => pres_guard fun _ => pres_guard fun _ => pres_liftE fun q1 hq1 => pres_liftE fun q2 hq2 =>
    pres_liftE fun o1 _ => pres_liftE fun o2 _ => pres_bind (pres_removePolygon _) fun _ => pres_bind (pres_addPolygon (ofEdges_valid hq1) _) fun _ =>
    pres_bind (pres_addPolygon (ofEdges_valid hq2) _) fun _ => pres_bind (pres_glue _ _) fun _ => pres_bind (pres_glueOptions _ _ _) fun _ =>
    pres_glueOptions _ _ _

omit [LabelNum L] in
theorem pres_glueToNew (l0 : L) (d0 : ℕ) (l1 : L) (d1 : ℕ) (x : L × Int) (c : Option (L × Int)) :
    Pres Poly.Valid (glueToNew l0 d0 l1 d1 x c : Act L (Poly K) Unit) := by
  cases c with
  | none => exact pres_throw _
  | some c => exact pres_liftE fun y _ => pres_glue _ _

omit [LabelNum L] in
/-- Flipping a diagonal yields polygons. -/
theorem pres_triangleFlip (l0 : L) (d0 : ℕ) : Pres Poly.Valid (triangleFlip l0 d0 : Act L (Poly K) Unit) := by
  exact pres_get fun s hs => pres_liftE fun c _ => pres_liftE fun P0 _ => pres_liftE fun P1 _ => pres_guard fun _ => pres_liftE fun cv _ =>
    pres_guard fun _ => pres_liftE fun T _ => pres_liftE fun P1' _ => pres_liftE fun g0 _ => pres_liftE fun g1 _ => pres_guard fun _ => pres_guard fun _ =>
    pres_liftE fun Q0 h0 => pres_liftE fun Q1 h1 => pres_bind (pres_replacePolygon _ (flipTriangle_valid h0)) fun _ =>
    pres_bind (pres_replacePolygon _ (flipTriangle_valid h1)) fun _ => pres_bind (pres_glue _ _) fun _ => pres_bind (pres_glueToNew _ _ _ _ _ _) fun _ =>
    pres_bind (pres_glueToNew _ _ _ _ _ _) fun _ => pres_bind (pres_glueToNew _ _ _ _ _ _) fun _ => pres_glueToNew _ _ _ _ _ _

end
end MSurf
end Flat
