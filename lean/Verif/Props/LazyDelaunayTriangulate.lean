import Verif.Lemmas.LazyDelaunayInv
import Mathlib.Tactic.FinCases

/-!
# C62: lazy Delaunay triangulations are consistent
-/

namespace Flat
namespace DTri
variable {L K : Type} [LinearOrder L] [Field K] [LinearOrder K] [IsStrictOrderedRing K] [LabelNum L]
open MSurf

/-- What `LazyDelaunayTriangulatedSurface` expects: a closed surface that is triangulated. -/
structure Input (S : MSurf L (Poly K)) (labels : List L) : Prop where
  reach : Reachable S
  isMut : S.mutable = true
  tri : Triangulated S
  closed : ∀ l P (e : ℕ), S.polygon l = .ok P → e < 3 → S.oppositeEdge l e ≠ .ok none
  roots : S.roots ≠ [] → S.rootsList = .ok S.roots
  labels : ∀ l, l ∈ labels ↔ ∃ P, S.polygon l = .ok P

/-- The second state is reached from the first one by accesses to polygons and gluings, in any order, including accesses that
raise. -/
inductive After (labels : List L) : DTri L K → DTri L K → Prop
  | refl (s) : After labels s s
  | polygon {s t} (pick fuel l) : After labels s t → After labels s (stateOf (DTri.polygon labels pick fuel l t))
  | oppositeEdge {s t} (pick fuel l) (e : ℕ) : After labels s t → After labels s (stateOf (DTri.oppositeEdge labels pick fuel l e t))

variable {S : MSurf L (Poly K)} {labels : List L}

theorem Input.inv (h : Input S labels) : DInv S (create S) := by
  have hg : Good S := ⟨h.reach.ginv, h.isMut, h.reach.rootsOK⟩
  refine ⟨⟨h.reach, h.isMut, h.tri, ?_, full_of_roots hg h.roots⟩, fun _ hl => absurd hl (by simp [create]), Replays.nil, fun _ => Iff.rfl⟩
  intro l P e hP he hn
  have h3 := (h.tri l P (polygon_ok.2 hP)).1
  refine h.closed l P e (polygon_ok.2 hP) he ?_
  rw [oppositeEdge_eq_opp h.reach.ginv.toShape ⟨P, hP, by have : nv P = P.length := rfl; omega⟩, ← hn]
  rfl

theorem Input.labelsOf (h : Input S labels) : LabelsOf S labels := fun l => by
  rw [h.labels]
  simp only [polygon_ok]

theorem polygon_spec (hlab : LabelsOf S labels) (pick : List (L × Circle K) → ℕ) (fuel : ℕ) (l : L) (s : DTri L K) (hs : DInv S s) :
    wp (DTri.polygon labels pick fuel l) (fun P t => DInv S t ∧ Later s t ∧ l ∈ t.certified ∧ t.surf.polygons.get l = some P)
      (fun e t => (e = .outOfFuel ∨ (e = .valueError ∧ l ∉ labels)) ∧ DInv S t ∧ Later s t) s := by
  unfold DTri.polygon
  by_cases h : l ∉ labels
  · rw [if_pos h]
    exact ⟨Or.inr ⟨rfl, h⟩, hs, Later.refl s⟩
  · rw [if_neg h, wp_bind]
    push Not at h
    refine wp_mono (certify_spec hlab pick fuel fuel l s ((hlab l).1 h) hs) ?_ ?_
    · rintro _ t ⟨⟨h1, h2⟩, h3⟩
      obtain ⟨P, c, hP, -⟩ := h1.empty l h3
      rw [wp_bind, wp_get]
      exact wp_liftX_ok (polygon_ok.2 hP) _ _ _ ⟨h1, h2, h3, hP⟩
    · rintro e t ⟨h1, h2, h3⟩
      exact ⟨Or.inl h1, h2, h3⟩

theorem oppositeLoop_spec (hlab : LabelsOf S labels) (pick : List (L × Circle K) → ℕ) (fuel : ℕ) (l : L) (e : ℕ) :
    ∀ (n : ℕ) (s : DTri L K), DInv S s → l ∈ s.certified →
    wp (DTri.oppositeLoop labels pick fuel l e n)
      (fun c t => DInv S t ∧ Later s t ∧ l ∈ t.certified ∧ c.1 ∈ t.certified ∧ e < 3 ∧ t.surf.opp l e = some c)
      (fun x t => (x = .outOfFuel ∨ ¬ e < 3) ∧ DInv S t ∧ Later s t) s := by
  intro n
  induction n with
  | zero =>
    intro s hs _
    exact ⟨Or.inl rfl, hs, Later.refl s⟩
  | succ n ih =>
    intro s hs hl
    unfold DTri.oppositeLoop
    obtain ⟨P, -, hP, -⟩ := hs.empty l hl
    rw [wp_bind, wp_get, wp_bind, wp_liftX]
    constructor
    · intro c hc
      have he : e < 3 := by
        by_contra h
        unfold MSurf.oppositeEdge! at hc
        rw [oppositeEdge_error hs.ready.reach.ginv.toShape (fun h' => h ((hs.ready.isEdge hP).1 h'))] at hc
        cases hc
      obtain ⟨l', e', P', ho, ho', hP', he', hop⟩ := hs.ready.partner hP he
      rw [hop] at hc
      injection hc with hc
      subst hc
      rw [wp_ite]
      constructor
      · intro h
        exact ⟨hs, Later.refl s, hl, h, he, ho⟩
      · intro h
        rw [wp_bind]
        refine wp_mono (certify_spec hlab pick fuel fuel l' s ((hs.keys l').1 ⟨P', hP'⟩) hs) ?_ ?_
        · rintro _ t ⟨⟨h1, h2⟩, h3⟩
          refine wp_mono (ih t h1 (h2.cert l hl)) ?_ ?_
          · rintro c u ⟨k1, k2, k3⟩
            exact ⟨k1, h2.trans k2, k3⟩
          · rintro c u ⟨k1, k2, k3⟩
            exact ⟨k1, k2, h2.trans k3⟩
        · rintro x t ⟨h1, h2, h3⟩
          exact ⟨Or.inl h1, h2, h3⟩
    · intro x hx
      refine ⟨Or.inr ?_, hs, Later.refl s⟩
      intro he
      obtain ⟨l', e', P', ho, ho', hP', he', hop⟩ := hs.ready.partner hP he
      rw [hop] at hx
      cases hx

theorem certifyLoop_invalid (pick : List (L × Circle K) → ℕ) (fuel : ℕ) (l : L) (n : ℕ) (s : DTri L K) (h : s.surf.polygons.get l = none) :
    wp (certifyLoop pick fuel l n) (fun _ _ => False) (fun _ t => t = s) s := by
  cases n with
  | zero => exact rfl
  | succ n =>
    unfold certifyLoop certifyWalk
    rw [wp_bind, wp_bind, wp_get, wp_bind, wp_liftX]
    constructor
    · intro P hP
      rw [polygon_ok, h] at hP
      cases hP
    · intro e _
      rfl

theorem oppositeEdge_spec (hlab : LabelsOf S labels) (pick : List (L × Circle K) → ℕ) (fuel : ℕ) (l : L) (e : ℕ) (s : DTri L K) (hs : DInv S s) :
    wp (DTri.oppositeEdge labels pick fuel l e)
      (fun c t => DInv S t ∧ Later s t ∧ l ∈ t.certified ∧ c.1 ∈ t.certified ∧ e < 3 ∧ t.surf.opp l e = some c)
      (fun x t => (x = .outOfFuel ∨ l ∉ labels ∨ ¬ e < 3) ∧ DInv S t ∧ Later s t) s := by
  unfold DTri.oppositeEdge
  rw [wp_bind]
  by_cases h : l ∈ labels
  · refine wp_mono (certify_spec hlab pick fuel fuel l s ((hlab l).1 h) hs) ?_ ?_
    · rintro _ t ⟨⟨h1, h2⟩, h3⟩
      refine wp_mono (oppositeLoop_spec hlab pick fuel l e fuel t h1 h3) ?_ ?_
      · rintro c u ⟨k1, k2, k3⟩
        exact ⟨k1, h2.trans k2, k3⟩
      · rintro x u ⟨k1, k2, k3⟩
        exact ⟨k1.imp id Or.inr, k2, h2.trans k3⟩
    · rintro x t ⟨h1, h2, h3⟩
      exact ⟨Or.inl h1, h2, h3⟩
  · cases fuel with
    | zero => exact ⟨Or.inl rfl, hs, Later.refl s⟩
    | succ fuel =>
      have none : ∀ t, DInv S t → t.surf.polygons.get l = none := by
        intro t ht
        cases hp : t.surf.polygons.get l with
        | none => rfl
        | some P => exact absurd ((hlab l).2 ((ht.keys l).1 ⟨P, hp⟩)) h
      unfold certify
      rw [wp_bind, wp_get, wp_ite]
      constructor
      · intro hc
        obtain ⟨P, c, hP, -⟩ := hs.empty l hc
        rw [none s hs] at hP
        cases hP
      · intro _
        rw [wp_bind]
        refine wp_mono (forLabels_spec (S := S)
          (fun l s h1 h2 => wp_mono (certify_spec hlab pick (fuel + 1) fuel l s h1 h2) (fun _ _ h => h.1) (fun _ _ h => h)) _ s ?_ hs) ?_ ?_
        · intro x hx
          exact (hlab x).1 ((List.takeWhile_sublist _).subset hx)
        · rintro _ t ⟨h1, h2⟩
          rw [wp_bind]
          refine wp_mono (certifyLoop_invalid pick (fuel + 1) l (fuel + 1) t (none t h1)) (fun _ _ h => h.elim) ?_
          rintro x u rfl
          exact ⟨Or.inr (Or.inl h), h1, h2⟩
        · rintro x t ⟨h1, h2, h3⟩
          exact ⟨Or.inl h1, h2, h3⟩

theorem After.inv (hlab : LabelsOf S labels) {s t : DTri L K} (h : After labels s t) (hs : DInv S s) : DInv S t ∧ Later s t := by
  induction h with
  | refl => exact ⟨hs, Later.refl s⟩
  | @polygon t pick fuel l _ ih =>
    obtain ⟨h1, h2⟩ := ih
    have := polygon_spec hlab pick fuel l t h1
    have key : wp (DTri.polygon labels pick fuel l) (fun _ u => DInv S u ∧ Later t u) (fun _ u => DInv S u ∧ Later t u) t :=
      wp_mono this (fun _ _ h => ⟨h.1, h.2.1⟩) (fun _ _ h => h.2)
    rw [wp_stateOf _ (fun u => DInv S u ∧ Later t u)] at key
    exact ⟨key.1, h2.trans key.2⟩
  | @oppositeEdge t pick fuel l e _ ih =>
    obtain ⟨h1, h2⟩ := ih
    have := oppositeEdge_spec hlab pick fuel l e t h1
    have key : wp (DTri.oppositeEdge labels pick fuel l e) (fun _ u => DInv S u ∧ Later t u) (fun _ u => DInv S u ∧ Later t u) t :=
      wp_mono this (fun _ _ h => ⟨h.1, h.2.1⟩) (fun _ _ h => h.2)
    rw [wp_stateOf _ (fun u => DInv S u ∧ Later t u)] at key
    exact ⟨key.1, h2.trans key.2⟩

/-- A certified label is certified at once. -/
theorem certify_certified (labels : List L) (pick : List (L × Circle K) → ℕ) (fuel depth : ℕ) {l : L} {s : DTri L K} (h : l ∈ s.certified) :
    certify labels pick fuel (depth + 1) l s = .ok () s := by
  unfold certify
  simp only [bind, EStateM.bind, get, getThe, MonadStateOf.get, EStateM.get, h, if_true, pure, EStateM.pure]

theorem polygon_again (hlab : LabelsOf S labels) {s : DTri L K} (hs : DInv S s) {l : L} (hl : l ∈ s.certified) {P : Poly K}
    (hP : s.surf.polygons.get l = some P) (pick : List (L × Circle K) → ℕ) (fuel : ℕ) :
    DTri.polygon labels pick (fuel + 1) l s = .ok P s := by
  have hin : ¬ l ∉ labels := fun h => h ((hlab l).2 ((hs.keys l).1 ⟨P, hP⟩))
  unfold DTri.polygon
  rw [if_neg hin]
  simp only [bind, EStateM.bind, certify_certified labels pick (fuel + 1) fuel hl, get, getThe, MonadStateOf.get, EStateM.get,
    polygon_ok.2 hP, liftX, pure, EStateM.pure]

theorem oppositeEdge_again {s : DTri L K} (hs : DInv S s) {l : L} (hl : l ∈ s.certified) {e : ℕ} (he : e < 3) {c : L × Int}
    (hc : c.1 ∈ s.certified) (ho : s.surf.opp l e = some c) (pick : List (L × Circle K) → ℕ) (fuel : ℕ) :
    DTri.oppositeEdge labels pick (fuel + 1) l e s = .ok c s := by
  obtain ⟨P, -, hP, -⟩ := hs.empty l hl
  obtain ⟨l', e', P', ho', -, -, -, hop⟩ := hs.ready.partner hP he
  rw [ho] at ho'
  injection ho' with ho'
  rw [← ho'] at hop
  unfold DTri.oppositeEdge
  simp only [bind, EStateM.bind, certify_certified labels pick (fuel + 1) fuel hl]
  unfold DTri.oppositeLoop
  simp only [bind, EStateM.bind, get, getThe, MonadStateOf.get, EStateM.get, hop, liftX, pure, EStateM.pure, hc, if_true]

/-- **C62**. A polygon that has been returned is final: whatever is accessed afterwards, it is returned again. -/
theorem C62_polygon_final (h : Input S labels) {s t u : DTri L K} (hs : After labels (create S) s) {pick : List (L × Circle K) → ℕ} {fuel : ℕ}
    {l : L} {P : Poly K} (hP : DTri.polygon labels pick fuel l s = .ok P t) (hu : After labels t u) (pick' : List (L × Circle K) → ℕ)
    (fuel' : ℕ) : DTri.polygon labels pick' (fuel' + 1) l u = .ok P u := by
  obtain ⟨i1, -⟩ := hs.inv h.labelsOf h.inv
  have spec := polygon_spec h.labelsOf pick fuel l s i1
  unfold wp at spec
  rw [hP] at spec
  obtain ⟨j1, -, j3, j4⟩ := spec
  obtain ⟨k1, k2⟩ := hu.inv h.labelsOf j1
  exact polygon_again h.labelsOf k1 (k2.cert l j3) (by rw [k2.poly l j3, j4]) pick' fuel'

/-- **C62**. A gluing that has been returned is final, and it is returned in the other direction, too. -/
theorem C62_opposite_edge_final (h : Input S labels) {s t u : DTri L K} (hs : After labels (create S) s) {pick : List (L × Circle K) → ℕ}
    {fuel : ℕ} {l : L} {e : ℕ} {c : L × Int} (hc : DTri.oppositeEdge labels pick fuel l e s = .ok c t) (hu : After labels t u)
    (pick' : List (L × Circle K) → ℕ) (fuel' : ℕ) :
    ∃ e' : ℕ, c.2 = e' ∧ e' < 3 ∧ DTri.oppositeEdge labels pick' (fuel' + 1) l e u = .ok c u ∧
      DTri.oppositeEdge labels pick' (fuel' + 1) c.1 e' u = .ok (l, (e : Int)) u := by
  obtain ⟨i1, -⟩ := hs.inv h.labelsOf h.inv
  have spec := oppositeEdge_spec h.labelsOf pick fuel l e s i1
  unfold wp at spec
  rw [hc] at spec
  obtain ⟨j1, -, j3, j4, j5, j6⟩ := spec
  obtain ⟨k1, k2⟩ := hu.inv h.labelsOf j1
  have ho := (k2.opp l c e j3 j4).2 j6
  obtain ⟨P, -, hP, -⟩ := k1.empty l (k2.cert l j3)
  obtain ⟨l', e', P', ho', ho'', -, he', -⟩ := k1.ready.partner hP j5
  rw [ho] at ho'
  injection ho' with ho'
  refine ⟨e', by rw [ho'], he', oppositeEdge_again k1 (k2.cert l j3) j5 (k2.cert _ j4) ho pick' fuel', ?_⟩
  refine oppositeEdge_again k1 (k2.cert _ j4) he' (k2.cert l j3) ?_ pick' fuel'
  rw [ho']
  exact ho''

/-- **C62**. The triangles that are returned are Delaunay triangles: the circumscribed circle of the triangle `P` with label `l`,
developed along the surface as seen now, has no vertices inside; in particular, when the edge `e` of `P` is glued to the edge `e'` of
a triangle `P'` that has been returned, then the third vertex of `P'`, placed next to `P` by `g`, is not inside of the circle. -/
theorem C62_delaunay (h : Input S labels) {s t u : DTri L K} (hs : After labels (create S) s) {pick : List (L × Circle K) → ℕ}
    {fuel : ℕ} {l : L} {e e' : ℕ} {l' : L} (hc : DTri.oppositeEdge labels pick fuel l e s = .ok (l', (e' : Int)) t) (hu : After labels t u)
    (pick' : List (L × Circle K) → ℕ) (fuel' : ℕ) :
    ∃ P P' c g, DTri.polygon labels pick' (fuel' + 1) l u = .ok P u ∧ DTri.polygon labels pick' (fuel' + 1) l' u = .ok P' u ∧
      P.length = 3 ∧ 0 < P.area ∧ P.circumscribedCircle = .ok c ∧ Disk.Pos g ∧ g.call (P'.vertex e') = P.vertex (e + 1) ∧
      g.call (P'.vertex (e' + 1)) = P.vertex e ∧ c.pointPosition (g.call (P'.vertex (e' + 2))) ≠ 1 ∧
      Disk.Empty u.surf.vert u.surf.GluedTo l c := by
  obtain ⟨i1, -⟩ := hs.inv h.labelsOf h.inv
  have spec := oppositeEdge_spec h.labelsOf pick fuel l e s i1
  unfold wp at spec
  rw [hc] at spec
  obtain ⟨j1, -, j3, j4, j5, j6⟩ := spec
  obtain ⟨k1, k2⟩ := hu.inv h.labelsOf j1
  have ho := (k2.opp l _ e j3 j4).2 j6
  obtain ⟨P, c, hP, hPc, hE⟩ := k1.empty l (k2.cert l j3)
  obtain ⟨P', -, hP', -⟩ := k1.empty l' (k2.cert _ j4)
  have t1 := k1.ready.tri l P (polygon_ok.2 hP)
  have t2 := k1.ready.tri l' P' (polygon_ok.2 hP')
  obtain ⟨g, -, g1, g2, g3, g4⟩ := glued_triangles k1.ready.reach.ginv hP hP' t1.1 t2.1 ho t1.2 t2.2
  have hg : Disk.Pos g := ⟨⟨g2.ne', Or.inl g1⟩, g1⟩
  refine ⟨P, P', c, g, polygon_again h.labelsOf k1 (k2.cert l j3) hP pick' fuel', polygon_again h.labelsOf k1 (k2.cert _ j4) hP' pick' fuel',
    t1.1, t1.2, hPc, hg, g3, g4, ?_, hE⟩
  rw [ne_eq, (Circle.C44_point_position _ _).1]
  have hS : Disk.Sees u.surf.vert u.surf.GluedTo l c l' (Circle.rmul g.inv c) :=
    Disk.Sees.step (x := (l, e)) (y := (l', e')) Disk.Sees.start (by rw [vert_eq hP, vert_eq hP]; exact crosses_edge t1.1 t1.2 hPc e) ho hg.inv
      (by dsimp only; rw [vert_eq hP, vert_eq hP', ← g4, hg.inv_call]) (by dsimp only; rw [vert_eq hP, vert_eq hP', ← g3, hg.inv_call])
  have := hE _ _ hS (e' + 2)
  rw [vert_eq hP', ← hg.in_iff, hg.rmul_inv] at this
  exact this

/-- **C62**. The only exception for a label and an edge of the surface is the bound on the number of steps of the model: no
assertion fails. -/
theorem C62_no_assertion (h : Input S labels) {s t : DTri L K} (hs : After labels (create S) s) {pick : List (L × Circle K) → ℕ}
    {fuel : ℕ} {l : L} {x : Err} :
    (DTri.polygon labels pick fuel l s = .error x t → x = .outOfFuel ∨ (x = .valueError ∧ ¬ ∃ P, S.polygon l = .ok P)) ∧
      ∀ e : ℕ, (∃ P, S.polygon l = .ok P) → e < 3 → DTri.oppositeEdge labels pick fuel l e s = .error x t → x = .outOfFuel := by
  obtain ⟨i1, -⟩ := hs.inv h.labelsOf h.inv
  constructor
  · intro hP
    have spec := polygon_spec h.labelsOf pick fuel l s i1
    unfold wp at spec
    rw [hP] at spec
    exact spec.1.imp id (fun k => ⟨k.1, fun k' => k.2 ((h.labels l).2 k')⟩)
  · intro e hl he hc
    have spec := oppositeEdge_spec h.labelsOf pick fuel l e s i1
    unfold wp at spec
    rw [hc] at spec
    rcases spec.1 with k | k | k
    · exact k
    · exact absurd ((h.labels l).2 hl) k
    · exact absurd he k

/-- **C62**. The triangulation is obtained from the original one by the recorded flips, each of which succeeds and is
recorded with the edge on the other side. -/
theorem C62_flips (h : Input S labels) {s : DTri L K} (hs : After labels (create S) s) : Replays S s.flips s.surf :=
  (hs.inv h.labelsOf h.inv).1.replay

/-- **C62**. When all polygons have been returned, the triangulation is a Delaunay triangulation. -/
theorem C62_all (h : Input S labels) {t : DTri L K}
    (hall : ∀ l ∈ labels, ∃ (s s' : DTri L K) (pick : List (L × Circle K) → ℕ) (fuel : ℕ) (P : Poly K), After labels (create S) s ∧
      DTri.polygon labels pick fuel l s = .ok P s' ∧ After labels s' t) (ht : After labels (create S) t) :
    t.surf.isDelaunayTriangulated = .ok true := by
  obtain ⟨i1, -⟩ := ht.inv h.labelsOf h.inv
  obtain ⟨b, hb, hb'⟩ := C29_is_delaunay_triangulated i1.ready.reach i1.ready.tri
  rw [hb, hb'.2]
  intro l e c hc
  obtain ⟨k, -, -, -, -, hk⟩ := oppositeEdge_some i1.ready.reach.ginv hc
  obtain ⟨P, hP, hlt⟩ := hk
  have he : e < 3 := by
    have := (i1.ready.tri l P (polygon_ok.2 hP)).1
    have hn : nv P = P.length := rfl
    omega
  obtain ⟨s, s', pick, fuel, Q, h1, h2, h3⟩ := hall l ((h.labelsOf l).2 ((i1.keys l).1 ⟨P, hP⟩))
  have spec := polygon_spec h.labelsOf pick fuel l s (h1.inv h.labelsOf h.inv).1
  unfold wp at spec
  rw [h2] at spec
  exact (i1.empty l ((h3.inv h.labelsOf spec.1).2.cert l spec.2.2.1)).noFlip i1.ready he

/-! ### The order of the accesses does not matter -/

theorem walkLoop_mono (pick : List (L × Circle K) → ℕ) (n : ℕ) : ∀ (todo done modified inside) (s t : DTri L K) (b : Bool),
    walkLoop pick n todo done modified inside s = .ok b t → walkLoop pick (n + 1) todo done modified inside s = .ok b t := by
  induction n with
  | zero =>
    intro todo done modified inside s t b h
    cases todo with
    | nil => exact h
    | cons x xs => cases h
  | succ n ih =>
    intro todo done modified inside s t b h
    cases todo with
    | nil => exact h
    | cons x xs =>
      unfold walkLoop at h ⊢
      dsimp only at h ⊢
      split_ifs at h ⊢ with hm
      · exact ih _ _ _ _ _ _ _ h
      · simp only [bind, EStateM.bind, get, getThe, MonadStateOf.get, EStateM.get] at h ⊢
        cases hp : liftX (s.surf.polygon (((x :: xs).getD (pick (x :: xs) % (x :: xs).length) x)).1) s with
        | error y u => rw [hp] at h; cases h
        | ok P u =>
          rw [hp] at h
          simp only at h ⊢
          split at h
          · rename_i r v hr
            exact ih _ _ _ _ _ _ _ h
          · cases h

theorem certifyWalk_mono (pick : List (L × Circle K) → ℕ) (n : ℕ) (l : L) (s t : DTri L K) (b : Bool)
    (h : certifyWalk pick n l s = .ok b t) : certifyWalk pick (n + 1) l s = .ok b t := by
  unfold certifyWalk at h ⊢
  simp only [bind, EStateM.bind, get, getThe, MonadStateOf.get, EStateM.get] at h ⊢
  cases hp : liftX (s.surf.polygon l) s with
  | error y u => rw [hp] at h; cases h
  | ok P u =>
    rw [hp] at h
    simp only at h ⊢
    cases hq : liftX (P.circumscribedCircle) u with
    | error y v => rw [hq] at h; cases h
    | ok c v =>
      rw [hq] at h
      exact walkLoop_mono pick n _ _ _ _ _ _ _ h

theorem certifyLoop_mono (pick : List (L × Circle K) → ℕ) (fuel : ℕ) (l : L) (n : ℕ) : ∀ (s t : DTri L K),
    certifyLoop pick fuel l n s = .ok () t → certifyLoop pick (fuel + 1) l n s = .ok () t ∧ certifyLoop pick fuel l (n + 1) s = .ok () t := by
  induction n with
  | zero => intro s t h; cases h
  | succ n ih =>
    intro s t h
    rw [certifyLoop] at h
    rw [certifyLoop, certifyLoop]
    simp only [bind, EStateM.bind] at h ⊢
    cases hw : certifyWalk pick fuel l s with
    | error y u => rw [hw] at h; cases h
    | ok b u =>
      rw [hw] at h
      rw [certifyWalk_mono pick fuel l s u b hw]
      cases b with
      | true => exact ⟨h, h⟩
      | false => exact ih u t h

theorem certifyLoop_le (pick : List (L × Circle K) → ℕ) (l : L) {m n : ℕ} (hmn : m ≤ n) {s t : DTri L K}
    (h : certifyLoop pick m l m s = .ok () t) : certifyLoop pick n l n s = .ok () t := by
  induction hmn with
  | refl => exact h
  | step _ ih => exact (certifyLoop_mono pick _ l _ s t ((certifyLoop_mono pick _ l _ s t ih).2)).1

/-- The states in which the polygons with some labels have been certified, one after the other, and nothing else has happened. -/
inductive Canon (S : MSurf L (Poly K)) (pick : List (L × Circle K) → ℕ) : List L → DTri L K → Prop
  | nil : Canon S pick [] (create S)
  | snoc {ls s t} (fuel l) : Canon S pick ls s → certifyLoop pick fuel l fuel s = .ok () t →
      Canon S pick (ls ++ [l]) { t with certified := l :: t.certified }

theorem Canon.unique {pick : List (L × Circle K) → ℕ} {ls : List L} {s : DTri L K} (hs : Canon S pick ls s) :
    ∀ {t : DTri L K}, Canon S pick ls t → s = t := by
  induction hs with
  | nil =>
    intro t ht
    generalize hl : ([] : List L) = ls at ht
    cases ht with
    | nil => rfl
    | snoc => simp at hl
  | @snoc ls s u fuel l _ h1 ih =>
    intro t ht
    generalize hl : ls ++ [l] = ls' at ht
    cases ht with
    | nil => simp at hl
    | @snoc ls' s' u' fuel' l' k1 k2 =>
      obtain ⟨rfl, hl'⟩ := List.append_inj' hl rfl
      obtain rfl : l = l' := by simpa using hl'
      obtain rfl := ih k1
      have e1 := certifyLoop_le pick l (le_max_left fuel fuel') h1
      rw [certifyLoop_le pick l (le_max_right fuel fuel') k2] at e1
      injection e1 with _ e1
      rw [e1]

theorem Canon.inv (hlab : LabelsOf S labels) (hS : DInv S (create S)) {pick : List (L × Circle K) → ℕ} {ls : List L} {s : DTri L K}
    (hs : Canon S pick ls s) (hsub : ∀ l ∈ ls, l ∈ labels) : DInv S s ∧ ∀ l, l ∈ s.certified ↔ l ∈ ls := by
  induction hs with
  | nil => exact ⟨hS, fun l => by simp [create]⟩
  | @snoc ls s u fuel l _ h1 ih =>
    obtain ⟨i1, i2⟩ := ih (fun x hx => hsub x (by simp [hx]))
    have hl := (hlab l).1 (hsub l (by simp))
    have spec := certifyLoop_spec pick fuel l hl fuel s i1
    unfold wp at spec
    rw [h1] at spec
    obtain ⟨k1, k2, k3⟩ := spec
    refine ⟨⟨k1.ready, ?_, k1.replay, k1.keys⟩, ?_⟩
    · intro x hx
      rcases List.mem_cons.1 hx with rfl | hx
      · exact k3
      · exact k1.empty x hx
    · intro x
      dsimp only
      rw [List.mem_cons, k2.2, i2, List.mem_append, List.mem_singleton, or_comm]

omit [Field K] [LinearOrder K] [IsStrictOrderedRing K] [LabelNum L] in
theorem takeWhile_ne (hnd : labels.Nodup) {k : ℕ} (hk : k < labels.length) : labels.takeWhile (fun x => x ≠ labels[k]) = labels.take k := by
  induction labels generalizing k with
  | nil => simp at hk
  | cons x xs ih =>
    rw [List.nodup_cons] at hnd
    cases k with
    | zero => simp
    | succ k =>
      have hk' : k < xs.length := by simpa using hk
      have hne : x ≠ xs[k] := fun h => hnd.1 (h ▸ List.getElem_mem hk')
      simp only [List.getElem_cons_succ, List.take_succ_cons]
      rw [List.takeWhile_cons_of_pos (by simpa using hne)]
      rw [ih hnd.2 hk']

omit [Field K] [LinearOrder K] [IsStrictOrderedRing K] [LabelNum L] in
theorem mem_take_iff (hnd : labels.Nodup) {k n : ℕ} (hk : k < labels.length) : labels[k] ∈ labels.take n ↔ k < n := by
  rw [List.mem_take_iff_getElem]
  constructor
  · rintro ⟨i, hi, h⟩
    have := (List.Nodup.getElem_inj_iff hnd).1 h
    omega
  · intro h
    exact ⟨k, by omega, rfl⟩

theorem forLabels_canon {pick : List (L × Circle K) → ℕ} {k : ℕ} {f : L → DAct L K Unit}
    (hf : ∀ (i : ℕ) (hi : i < labels.length) (n : ℕ) (s : DTri L K), Canon S pick (labels.take n) s →
      wp (f labels[i]) (fun _ t => Canon S pick (labels.take (max n (i + 1))) t) (fun _ _ => True) s) :
    ∀ (ls : List L), (∀ x ∈ ls, ∃ (i : ℕ) (hi : i < labels.length), i < k ∧ labels[i] = x) →
      ∀ (n : ℕ) (s : DTri L K), n ≤ k → Canon S pick (labels.take n) s →
      wp (forLabels f ls) (fun _ t => ∃ m, m ≤ k ∧ n ≤ m ∧ (∀ x ∈ ls, x ∈ labels.take m) ∧ Canon S pick (labels.take m) t)
        (fun _ _ => True) s := by
  intro ls
  induction ls with
  | nil =>
    intro _ n s hn hs
    unfold forLabels
    exact ⟨n, hn, le_refl n, by simp, hs⟩
  | cons x xs ih =>
    intro hls n s hn hs
    obtain ⟨i, hi, hik, rfl⟩ := hls x (by simp)
    unfold forLabels
    rw [wp_bind]
    refine wp_mono (hf i hi n s hs) ?_ (fun _ _ h => h)
    intro _ t ht
    refine wp_mono (ih (fun y hy => hls y (by simp [hy])) (max n (i + 1)) t (by omega) ht) ?_ (fun _ _ h => h)
    rintro _ u ⟨m, h1, h2, h3, h4⟩
    refine ⟨m, h1, by omega, ?_, h4⟩
    intro y hy
    rcases List.mem_cons.1 hy with rfl | hy
    · rw [List.mem_take_iff_getElem]
      exact ⟨i, by omega, rfl⟩
    · exact h3 y hy

theorem certify_canon (hlab : LabelsOf S labels) (hS : DInv S (create S)) (hnd : labels.Nodup) (pick : List (L × Circle K) → ℕ) (fuel : ℕ) :
    ∀ (depth k : ℕ) (hk : k < labels.length) (n : ℕ) (s : DTri L K), Canon S pick (labels.take n) s →
      wp (certify labels pick fuel depth labels[k]) (fun _ t => Canon S pick (labels.take (max n (k + 1))) t) (fun _ _ => True) s := by
  intro depth
  induction depth with
  | zero => intro k hk n s _; trivial
  | succ depth ih =>
    intro k hk n s hs
    obtain ⟨i1, i2⟩ := hs.inv hlab hS (fun l hl => List.mem_of_mem_take hl)
    unfold certify
    rw [wp_bind, wp_get, wp_ite]
    constructor
    · intro h
      rw [i2, mem_take_iff hnd hk] at h
      rw [wp_pure, max_eq_left (by omega)]
      exact hs
    · intro h
      rw [i2, mem_take_iff hnd hk] at h
      rw [wp_bind, takeWhile_ne hnd hk]
      refine wp_mono (forLabels_canon (S := S) (labels := labels) (pick := pick) (k := k) ih (labels.take k) ?_ n s (by omega) hs) ?_ (fun _ _ h => h)
      · intro x hx
        obtain ⟨i, hi, rfl⟩ := List.mem_take_iff_getElem.1 hx
        exact ⟨i, by omega, by omega, rfl⟩
      · rintro _ t ⟨m, h1, h2, h3, h4⟩
        have hm : m = k := by
          rcases Nat.eq_or_lt_of_le h1 with h5 | h5
          · exact h5
          · have := h3 (labels[m]'(by omega)) ((mem_take_iff hnd (by omega)).2 h5)
            rw [mem_take_iff hnd] at this
            omega
        subst hm
        rw [wp_bind]
        unfold wp
        cases hc : certifyLoop pick fuel labels[m] fuel t with
        | error x u => trivial
        | ok _ u =>
          have := Canon.snoc fuel labels[m] h4 hc
          rw [← List.take_succ_eq_append_getElem hk] at this
          rw [max_eq_right (by omega)]
          exact this

theorem certify_canon' (hlab : LabelsOf S labels) (hS : DInv S (create S)) (hnd : labels.Nodup) (pick : List (L × Circle K) → ℕ) (fuel : ℕ)
    {l : L} (hl : l ∈ labels) {n : ℕ} {s : DTri L K} (hs : Canon S pick (labels.take n) s) :
    wp (certify labels pick fuel fuel l) (fun _ t => ∃ m, Canon S pick (labels.take m) t) (fun _ _ => True) s := by
  obtain ⟨k, hk, rfl⟩ := List.getElem_of_mem hl
  exact wp_mono (certify_canon hlab hS hnd pick fuel fuel k hk n s hs) (fun _ _ h => ⟨_, h⟩) (fun _ _ h => h)

/-- The second state is reached from the first one by accesses to polygons and gluings, none of which runs out of steps; `pick`
says what `set.pop()` returns. -/
inductive Accessed (labels : List L) (pick : List (L × Circle K) → ℕ) : DTri L K → DTri L K → Prop
  | refl (s) : Accessed labels pick s s
  | polygon {s t u} (fuel l P) : Accessed labels pick s t → DTri.polygon labels pick fuel l t = .ok P u → Accessed labels pick s u
  | oppositeEdge {s t u} (fuel l) (e : ℕ) (c) : Accessed labels pick s t → DTri.oppositeEdge labels pick fuel l e t = .ok c u →
      Accessed labels pick s u

theorem Accessed.after {pick : List (L × Circle K) → ℕ} {s t : DTri L K} (h : Accessed labels pick s t) : After labels s t := by
  induction h with
  | refl => exact .refl _
  | polygon fuel l P _ h ih =>
    have := After.polygon pick fuel l ih
    rw [h] at this
    exact this
  | oppositeEdge fuel l e c _ h ih =>
    have := After.oppositeEdge pick fuel l e ih
    rw [h] at this
    exact this

theorem oppositeLoop_canon (hlab : LabelsOf S labels) (hS : DInv S (create S)) (hnd : labels.Nodup) (pick : List (L × Circle K) → ℕ) (fuel : ℕ)
    {l : L} {e : ℕ} (j : ℕ) : ∀ {n : ℕ} {s : DTri L K}, Canon S pick (labels.take n) s → l ∈ s.certified →
    wp (oppositeLoop labels pick fuel l e j) (fun _ t => ∃ m, Canon S pick (labels.take m) t) (fun _ _ => True) s := by
  induction j with
  | zero => intro n s _ _; trivial
  | succ j ih =>
    intro n s hs hl
    obtain ⟨i1, i2⟩ := hs.inv hlab hS (fun l hl => List.mem_of_mem_take hl)
    unfold oppositeLoop
    rw [wp_bind, wp_get, wp_bind, wp_liftX]
    refine ⟨?_, fun _ _ => trivial⟩
    intro c hc
    rw [wp_ite]
    refine ⟨fun _ => ⟨n, hs⟩, fun hnc => ?_⟩
    rw [wp_bind]
    have hcl : c.1 ∈ labels := by
      obtain ⟨P, -, hP, -⟩ := i1.empty l hl
      have he : e < 3 := by
        by_contra h
        unfold MSurf.oppositeEdge! at hc
        rw [oppositeEdge_error i1.ready.reach.ginv.toShape (fun h' => h ((i1.ready.isEdge hP).1 h'))] at hc
        cases hc
      obtain ⟨l', e', P', -, -, hP', -, hop⟩ := i1.ready.partner hP he
      rw [hop] at hc
      injection hc with hc
      subst hc
      exact (hlab l').2 ((i1.keys l').1 ⟨P', hP'⟩)
    have h1 := certify_canon' hlab hS hnd pick fuel hcl hs
    have h2 := certify_spec hlab pick fuel fuel c.1 s ((hlab c.1).1 hcl) i1
    refine wp_mono (wp_and h1 h2) ?_ (fun _ _ _ => trivial)
    rintro _ t ⟨⟨m, k1⟩, ⟨-, k2⟩, -⟩
    exact ih k1 (k2.cert l hl)

theorem polygon_canon (h : Input S labels) (hnd : labels.Nodup) (pick : List (L × Circle K) → ℕ) (fuel : ℕ) (l : L) {n : ℕ} {s : DTri L K}
    (hs : Canon S pick (labels.take n) s) :
    wp (DTri.polygon labels pick fuel l) (fun _ t => ∃ m, Canon S pick (labels.take m) t) (fun _ _ => True) s := by
  unfold DTri.polygon
  by_cases hl : l ∉ labels
  · rw [if_pos hl]
    trivial
  · rw [if_neg hl, wp_bind]
    push Not at hl
    refine wp_mono (certify_canon' h.labelsOf h.inv hnd pick fuel hl hs) ?_ (fun _ _ h => h)
    intro _ t ht
    rw [wp_bind, wp_get, wp_liftX]
    exact ⟨fun _ _ => ht, fun _ _ => trivial⟩

theorem oppositeEdge_canon (h : Input S labels) (hnd : labels.Nodup) (pick : List (L × Circle K) → ℕ) (fuel : ℕ) (l : L) (e : ℕ) {n : ℕ}
    {s : DTri L K} (hs : Canon S pick (labels.take n) s) (hl : l ∈ labels) :
    wp (DTri.oppositeEdge labels pick fuel l e) (fun _ t => ∃ m, Canon S pick (labels.take m) t) (fun _ _ => True) s := by
  obtain ⟨i1, -⟩ := hs.inv h.labelsOf h.inv (fun l hl => List.mem_of_mem_take hl)
  unfold DTri.oppositeEdge
  rw [wp_bind]
  refine wp_mono (wp_and (certify_canon' h.labelsOf h.inv hnd pick fuel hl hs)
    (certify_spec h.labelsOf pick fuel fuel l s ((h.labelsOf l).1 hl) i1)) ?_ (fun _ _ _ => trivial)
  rintro _ t ⟨⟨m, k1⟩, -, k2⟩
  exact oppositeLoop_canon h.labelsOf h.inv hnd pick fuel fuel k1 k2

theorem Accessed.canon (h : Input S labels) (hnd : labels.Nodup) {pick : List (L × Circle K) → ℕ} {r s : DTri L K}
    (hs : Accessed labels pick r s) (hr : r = create S) : ∃ n, Canon S pick (labels.take n) s := by
  induction hs with
  | refl => subst hr; exact ⟨0, by rw [List.take_zero]; exact .nil⟩
  | polygon fuel l P _ hp ih =>
    obtain ⟨n, hn⟩ := ih
    have := polygon_canon h hnd pick fuel l hn
    unfold wp at this
    rw [hp] at this
    exact this
  | oppositeEdge fuel l e c _ hp ih =>
    obtain ⟨n, hn⟩ := ih
    obtain ⟨i1, -⟩ := hn.inv h.labelsOf h.inv (fun l hl => List.mem_of_mem_take hl)
    have hl : l ∈ labels := by
      have := oppositeEdge_spec h.labelsOf pick fuel l e _ i1
      unfold wp at this
      rw [hp] at this
      obtain ⟨k1, -, k2, -⟩ := this
      obtain ⟨P, -, hP, -⟩ := k1.empty l k2
      exact (h.labelsOf l).2 ((k1.keys l).1 ⟨P, hP⟩)
    have := oppositeEdge_canon h hnd pick fuel l e hn hl
    unfold wp at this
    rw [hp] at this
    exact this

theorem Canon.split (h : Input S labels) {pick : List (L × Circle K) → ℕ} {ls : List L} {t : DTri L K} (ht : Canon S pick ls t) :
    (∀ l ∈ ls, l ∈ labels) → ∀ n, ∃ s, Canon S pick (ls.take n) s ∧ Later s t := by
  induction ht with
  | nil => intro _ n; exact ⟨create S, by rw [List.take_nil]; exact .nil, Later.refl _⟩
  | @snoc ls s u fuel l h0 h1 ih =>
    intro hls n
    have hsub : ∀ x ∈ ls, x ∈ labels := fun x hx => hls x (by simp [hx])
    rcases Nat.lt_or_ge ls.length n with hn | hn
    · rw [List.take_of_length_le (by simp; omega)]
      exact ⟨_, .snoc fuel l h0 h1, Later.refl _⟩
    · rw [List.take_append_of_le_length hn]
      obtain ⟨r, k1, k2⟩ := ih hsub n
      refine ⟨r, k1, k2.trans ?_⟩
      obtain ⟨i1, -⟩ := h0.inv h.labelsOf h.inv hsub
      have spec := certifyLoop_spec pick fuel l ((h.labelsOf l).1 (hls l (by simp))) fuel s i1
      unfold wp at spec
      rw [h1] at spec
      exact spec.2.1.1.trans ⟨fun x hx => by simp [hx], fun _ _ => rfl, fun _ _ _ _ _ => Iff.rfl⟩

theorem Canon.later (h : Input S labels) {pick : List (L × Circle K) → ℕ} {m n : ℕ} {s t : DTri L K} (hs : Canon S pick (labels.take m) s)
    (ht : Canon S pick (labels.take n) t) : Later s t ∨ Later t s := by
  have key : ∀ {m n : ℕ} {s t : DTri L K}, Canon S pick (labels.take m) s → Canon S pick (labels.take n) t → m ≤ n → Later s t := by
    intro m n s t hs ht hmn
    obtain ⟨r, h1, h2⟩ := ht.split h (fun l hl => List.mem_of_mem_take hl) m
    rw [List.take_take, min_eq_left hmn] at h1
    rwa [hs.unique h1]
  rcases le_total m n with hmn | hmn
  · exact Or.inl (key hs ht hmn)
  · exact Or.inr (key ht hs hmn)

/-- **C62**. The polygons do not depend on what was accessed before, in which order. -/
theorem C62_polygon_order (h : Input S labels) (hnd : labels.Nodup) {pick : List (L × Circle K) → ℕ} {s s' t t' : DTri L K}
    (hs : Accessed labels pick (create S) s) (ht : Accessed labels pick (create S) t) {fuel fuel' : ℕ} {l : L} {P Q : Poly K}
    (hP : DTri.polygon labels pick fuel l s = .ok P s') (hQ : DTri.polygon labels pick fuel' l t = .ok Q t') : P = Q := by
  obtain ⟨m, hm⟩ := (hs.polygon fuel l P hP).canon h hnd rfl
  obtain ⟨n, hn⟩ := (ht.polygon fuel' l Q hQ).canon h hnd rfl
  have e1 := polygon_spec h.labelsOf pick fuel l s (hs.after.inv h.labelsOf h.inv).1
  have e2 := polygon_spec h.labelsOf pick fuel' l t (ht.after.inv h.labelsOf h.inv).1
  unfold wp at e1 e2
  rw [hP] at e1
  rw [hQ] at e2
  obtain ⟨-, -, a1, a2⟩ := e1
  obtain ⟨-, -, b1, b2⟩ := e2
  rcases hm.later h hn with k | k
  · have := k.poly l a1
    rw [a2, b2] at this
    injection this with this
    exact this.symm
  · have := k.poly l b1
    rw [a2, b2] at this
    injection this

/-- **C62**. The gluings do not depend on what was accessed before, in which order. -/
theorem C62_opposite_edge_order (h : Input S labels) (hnd : labels.Nodup) {pick : List (L × Circle K) → ℕ} {s s' t t' : DTri L K}
    (hs : Accessed labels pick (create S) s) (ht : Accessed labels pick (create S) t) {fuel fuel' : ℕ} {l : L} {e : ℕ} {c d : L × Int}
    (hc : DTri.oppositeEdge labels pick fuel l e s = .ok c s') (hd : DTri.oppositeEdge labels pick fuel' l e t = .ok d t') : c = d := by
  obtain ⟨m, hm⟩ := (hs.oppositeEdge fuel l e c hc).canon h hnd rfl
  obtain ⟨n, hn⟩ := (ht.oppositeEdge fuel' l e d hd).canon h hnd rfl
  have e1 := oppositeEdge_spec h.labelsOf pick fuel l e s (hs.after.inv h.labelsOf h.inv).1
  have e2 := oppositeEdge_spec h.labelsOf pick fuel' l e t (ht.after.inv h.labelsOf h.inv).1
  unfold wp at e1 e2
  rw [hc] at e1
  rw [hd] at e2
  obtain ⟨-, -, a1, a2, -, a3⟩ := e1
  obtain ⟨-, -, b1, b2, -, b3⟩ := e2
  rcases hm.later h hn with k | k
  · have := (k.opp l c e a1 a2).2 a3
    rw [b3] at this
    injection this with this
    exact this.symm
  · have := (k.opp l d e b1 b2).2 b3
    rw [a3] at this
    injection this

/-! ### An example -/

/-- Two triangles that share the long diagonal of a parallelogram. -/
theorem exSkew_input : Input exSkew [0, 1] where
  reach := exSkew_reachable
  isMut := by decide +kernel
  tri := exSkew_triangulated
  closed := by
    intro l P e hP he
    have hl : (l, P) ∈ exSkew.polygons := Dict.mem_of_get _ _ _ (polygon_ok.1 hP)
    have : ∀ x ∈ exSkew.polygons, ∀ e < 3, exSkew.oppositeEdge x.1 ((e : ℕ) : Int) ≠ .ok none := by decide +kernel
    exact this (l, P) hl e he
  roots := by decide +kernel
  labels := by
    intro l
    constructor
    · intro hl
      fin_cases hl
      · exact ⟨[(0, 0), (1, 0), (3, 1)], by decide +kernel⟩
      · exact ⟨[(0, 0), (3, 1), (2, 1)], by decide +kernel⟩
    · rintro ⟨P, hP⟩
      have hl : (l, P) ∈ exSkew.polygons := Dict.mem_of_get _ _ _ (polygon_ok.1 hP)
      have : ∀ x ∈ exSkew.polygons, x.1 ∈ [0, 1] := by decide +kernel
      exact this (l, P) hl

/-- What the triangulation of the example returns when its second polygon is accessed first. -/
def exRun : DAct ℕ ℚ (Poly ℚ × Poly ℚ × (ℕ × Int) × List ((ℕ × ℕ) × (ℕ × Int))) := do
  let q ← DTri.polygon [0, 1] (fun _ => 0) 100 1
  let p ← DTri.polygon [0, 1] (fun _ => 0) 100 0
  let c ← DTri.oppositeEdge [0, 1] (fun _ => 0) 100 0 0
  let s ← get
  return (p, q, c, s.flips)

/-- Two flips are needed, and nothing runs out of steps. -/
example : (match (generalizing := false) exRun (create exSkew) with
      | .ok a _ => decide (a.1 = [(0, 0), (0, 1), (-1, 0)]) && decide (a.2.1 = [(0, 0), (-1, 0), (-1, -1)]) && decide (a.2.2.1 = (1, 1)) &&
        decide (a.2.2.2 = [((0, 2), 1, 0), ((0, 0), 1, 1)])
      | .error _ _ => false) = true := by decide +kernel

theorem exSkew_polygon : ∃ s, DTri.polygon [0, 1] (fun _ => 0) 100 1 (create exSkew) = .ok [(0, 0), (-1, 0), (-1, -1)] s := by
  have : (match (generalizing := false) DTri.polygon [0, 1] (fun _ => 0) 100 1 (create exSkew) with | .ok a _ => some a | .error _ _ => none) =
      some [(0, 0), (-1, 0), (-1, -1)] := by decide +kernel
  cases h : DTri.polygon [0, 1] (fun _ => 0) 100 1 (create exSkew) with
  | ok a s =>
    rw [h] at this
    injection this with this
    exact ⟨s, by rw [this]⟩
  | error x s => rw [h] at this; cases this

/-- The hypotheses of C62_polygon_final hold for the example. -/
example : ∃ s : DTri ℕ ℚ, ∀ u, After [0, 1] s u → ∀ pick, DTri.polygon [0, 1] pick 1 1 u = .ok ([(0, 0), (-1, 0), (-1, -1)] : List (ℚ × ℚ)) u := by
  obtain ⟨s, hs⟩ := exSkew_polygon
  exact ⟨s, fun u hu pick => C62_polygon_final exSkew_input (.refl _) hs hu pick 0⟩

end DTri
end Flat
