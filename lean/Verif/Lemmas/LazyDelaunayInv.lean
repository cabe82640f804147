import Verif.Model.LazyDelaunayTriangulate
import Verif.Lemmas.FlipDisk

/-!
# The invariant of lazy Delaunay triangulations
-/

namespace Flat
namespace DTri
variable {L K : Type} [LinearOrder L] [Field K] [LinearOrder K] [IsStrictOrderedRing K]
open MSurf

omit [LinearOrder L] [LinearOrder K] [IsStrictOrderedRing K] [Field K] in
theorem wp_liftX {α : Type} (x : Except Err α) (Q E) (s : DTri L K) :
    wp (liftX x : DAct L K α) Q E s ↔ (∀ a, x = .ok a → Q a s) ∧ (∀ e, x = .error e → E e s) := by
  cases x <;> simp [liftX, wp_pure, wp_throw]

omit [LinearOrder L] [LinearOrder K] [IsStrictOrderedRing K] [Field K] in
/-- A computation that succeeds. -/
theorem wp_liftX_ok {α : Type} {x : Except Err α} {a : α} (h : x = .ok a) (Q : α → DTri L K → Prop) (E) (s : DTri L K) (hQ : Q a s) :
    wp (liftX x : DAct L K α) Q E s := by
  rw [h]; exact hQ

/-- The flips lead from the first surface to the second one. -/
inductive Replays [LabelNum L] (S : MSurf L (Poly K)) : List ((L × ℕ) × (L × Int)) → MSurf L (Poly K) → Prop
  | nil : Replays S [] S
  | snoc {fs : List ((L × ℕ) × (L × Int))} {s t : MSurf L (Poly K)} {l : L} {e : ℕ} {c : L × Int} : Replays S fs s →
      s.oppositeEdge! l e = .ok c → triangleFlip l e s = .ok () t → Replays S (fs ++ [((l, e), c)]) t

/-- The triangle has a circumscribed circle without vertices inside. -/
def EmptyAt (s : MSurf L (Poly K)) (l : L) : Prop :=
  ∃ P c, s.polygons.get l = some P ∧ P.circumscribedCircle = .ok c ∧ Disk.Empty s.vert s.GluedTo l c

variable [LabelNum L]

/-- The invariant. -/
structure DInv (S : MSurf L (Poly K)) (s : DTri L K) : Prop where
  ready : Ready s.surf
  empty : ∀ l ∈ s.certified, EmptyAt s.surf l
  replay : Replays S s.flips s.surf
  keys : ∀ l, (∃ P, s.surf.polygons.get l = some P) ↔ ∃ P, S.polygons.get l = some P

/-- What stays when time passes. -/
structure Later (s t : DTri L K) : Prop where
  cert : ∀ l ∈ s.certified, l ∈ t.certified
  poly : ∀ l ∈ s.certified, t.surf.polygons.get l = s.surf.polygons.get l
  opp : ∀ l c (e : ℕ), l ∈ s.certified → c.1 ∈ s.certified → (t.surf.opp l e = some c ↔ s.surf.opp l e = some c)

omit [LabelNum L] [LinearOrder K] [IsStrictOrderedRing K] in
theorem Later.refl (s : DTri L K) : Later s s := ⟨fun _ h => h, fun _ _ => rfl, fun _ _ _ _ _ => Iff.rfl⟩

omit [LabelNum L] [LinearOrder K] [IsStrictOrderedRing K] in
theorem Later.trans {s t u : DTri L K} (h : Later s t) (k : Later t u) : Later s u :=
  ⟨fun l hl => k.cert l (h.cert l hl), fun l hl => (k.poly l (h.cert l hl)).trans (h.poly l hl),
    fun l c e hl hc => (k.opp l c e (h.cert l hl) (h.cert _ hc)).trans (h.opp l c e hl hc)⟩

omit [LabelNum L] in
/-- The points of a triangle are on its circumscribed circle. -/
theorem circumscribed_on {P : Poly K} (h : P.length = 3) (ha : 0 < P.area) {c : Circle K} (hc : P.circumscribedCircle = .ok c) (i : ℕ) :
    Circle.distSq (P.vertex i) c.center = c.radiusSq := by
  have hne : ccw (P.vertex 1 - P.vertex 0) (P.vertex 2 - P.vertex 0) ≠ 0 := by
    have := ccw_vertices_three h ha 0
    have e : ccw (P.vertex 1 - P.vertex 0) (P.vertex 2 - P.vertex 0) = ccw (P.vertex (0 + 1) - P.vertex 0) (P.vertex (0 + 2) - P.vertex (0 + 1)) := by
      simp only [ccw, Prod.fst_sub, Prod.snd_sub, zero_add]; ring
    rw [e]
    exact this.ne'
  apply (Circle.C44_circumscribed_circle P (by omega) hne c).1 hc
  rw [← Poly.vertex_mod, Poly.vertex_of_lt P (Nat.mod_lt i (by omega))]
  exact List.getElem_mem _

omit [LabelNum L] in
theorem circumscribed_exists {P : Poly K} (h : P.length = 3) (ha : 0 < P.area) : ∃ c, P.circumscribedCircle = .ok c := by
  have hne : ccw (P.vertex 1 - P.vertex 0) (P.vertex 2 - P.vertex 0) ≠ 0 := by
    have := ccw_vertices_three h ha 0
    have e : ccw (P.vertex 1 - P.vertex 0) (P.vertex 2 - P.vertex 0) = ccw (P.vertex (0 + 1) - P.vertex 0) (P.vertex (0 + 2) - P.vertex (0 + 1)) := by
      simp only [ccw, Prod.fst_sub, Prod.snd_sub, zero_add]; ring
    rw [e]
    exact this.ne'
  obtain ⟨m, hm⟩ := (Circle.C44_three_points_ok_iff _ _ _).2 hne
  refine ⟨m, ?_⟩
  unfold Poly.circumscribedCircle
  simp only [bind, Except.bind, hm, h]
  rfl

omit [LabelNum L] in
/-- The edges of a triangle are inside of its circumscribed circle. -/
theorem crosses_edge {P : Poly K} (h : P.length = 3) (ha : 0 < P.area) {c : Circle K} (hc : P.circumscribedCircle = .ok c) (i : ℕ) :
    Disk.Crosses c (P.vertex i) (P.vertex (i + 1)) := by
  have h1 := circumscribed_on h ha hc i
  have h2 := circumscribed_on h ha hc (i + 1)
  have hn := edge_ne_zero_of_area h ha i
  refine ⟨1 / 2, by norm_num, by norm_num, ?_⟩
  unfold Disk.In Circle.distSq at *
  have hpos : 0 < ((P.vertex (i + 1)).1 - (P.vertex i).1) ^ 2 + ((P.vertex (i + 1)).2 - (P.vertex i).2) ^ 2 := by
    have := normSq_pos' hn
    unfold normSq Poly.edge at this
    simp only [Prod.fst_sub, Prod.snd_sub] at this
    linarith
  simp only [Prod.fst_add, Prod.snd_add, Prod.smul_fst, Prod.smul_snd, Prod.fst_sub, Prod.snd_sub, smul_eq_mul]
  linarith

/-- The edges of a certified triangle need no flip. -/
theorem EmptyAt.noFlip {s : MSurf L (Poly K)} (hs : Ready s) {l : L} (hE : EmptyAt s l) {e : ℕ} (he : e < 3) :
    s.delaunayEdgeNeedsFlip l e = .ok false := by
  obtain ⟨P, c, hP, hc, hE⟩ := hE
  obtain ⟨l', e', P', ho, ho', hP', he', -⟩ := hs.partner hP he
  have t1 := hs.tri l P (polygon_ok.2 hP)
  have t2 := hs.tri l' P' (polygon_ok.2 hP')
  obtain ⟨g, c', b, b', k1, k2, k3, -, k4, -⟩ := C29_flip_iff_in_circle hs.reach (polygon_ok.2 hP) (polygon_ok.2 hP') t1.1 t2.1 t1.2 t2.2
    (by rw [oppositeEdge_eq_opp hs.reach.ginv.toShape ((hs.isEdge hP).2 he), ho])
  rw [hc] at k2
  injection k2 with k2
  subst k2
  rw [k3]
  congr 1
  rw [← Bool.not_eq_true, k4, (Circle.C44_point_position _ _).1]
  obtain ⟨g', k1', hs', hp', ga, gb⟩ := glued_triangles hs.reach.ginv hP hP' t1.1 t2.1 ho t1.2 t2.2
  rw [k1] at k1'
  injection k1' with k1'
  subst k1'
  have hg : Disk.Pos g := ⟨⟨hp'.ne', Or.inl hs'⟩, hs'⟩
  have hS : Disk.Sees s.vert s.GluedTo l c l' (Circle.rmul g.inv c) :=
    Disk.Sees.step (x := (l, e)) (y := (l', e')) Disk.Sees.start (by rw [vert_eq hP, vert_eq hP]; exact crosses_edge t1.1 t1.2 hc e) ho hg.inv
      (by dsimp only; rw [vert_eq hP, vert_eq hP', ← gb, hg.inv_call]) (by dsimp only; rw [vert_eq hP, vert_eq hP', ← ga, hg.inv_call])
  have := hE _ _ hS (e' + 2)
  rw [vert_eq hP', ← hg.in_iff, hg.rmul_inv] at this
  exact this

/-- What the walks do: they do not certify. -/
def Work (s t : DTri L K) : Prop := Later s t ∧ t.certified = s.certified

omit [LabelNum L] [LinearOrder K] [IsStrictOrderedRing K] in
theorem Work.refl (s : DTri L K) : Work s s := ⟨Later.refl s, rfl⟩

omit [LabelNum L] [LinearOrder K] [IsStrictOrderedRing K] in
theorem Work.trans {s t u : DTri L K} (h : Work s t) (k : Work t u) : Work s u := ⟨h.1.trans k.1, k.2.trans h.2⟩

theorem DInv.flip {S : MSurf L (Poly K)} {s : DTri L K} (hs : DInv S s) {l : L} {e : ℕ} {P : Poly K} (hP : s.surf.polygons.get l = some P)
    (he : e < 3) (hf : s.surf.delaunayEdgeNeedsFlip l e = .ok true) :
    wp (certifyFlip l e) (fun _ t => DInv S t ∧ Work s t) (fun _ _ => False) s := by
  obtain ⟨l', e', P', ho, ho', hP', he', hop⟩ := hs.ready.partner hP he
  have t1 := hs.ready.tri l P (polygon_ok.2 hP)
  have t2 := hs.ready.tri l' P' (polygon_ok.2 hP')
  have hoe : ∀ e : ℕ, e < 3 → s.surf.oppositeEdge l e ≠ .ok none ∧ s.surf.oppositeEdge l' e ≠ .ok none := by
    intro e he
    constructor
    · rw [oppositeEdge_eq_opp hs.ready.reach.ginv.toShape ((hs.ready.isEdge hP).2 he)]
      intro h; injection h with h; exact hs.ready.closed l P e hP he h
    · rw [oppositeEdge_eq_opp hs.ready.reach.ginv.toShape ((hs.ready.isEdge hP').2 he)]
      intro h; injection h with h; exact hs.ready.closed l' P' e hP' he h
  have n0 : l ∉ s.certified := by
    intro h
    rw [(hs.empty l h).noFlip hs.ready he] at hf
    cases hf
  have ho0 : s.surf.oppositeEdge l e = .ok (some (l', (e' : Int))) := by
    rw [oppositeEdge_eq_opp hs.ready.reach.ginv.toShape ((hs.ready.isEdge hP).2 he), ho]
  have n1 : l' ∉ s.certified := by
    intro h
    rw [C29_symmetric hs.ready.reach (polygon_ok.2 hP) (polygon_ok.2 hP') t1.1 t2.1 t1.2 t2.2 ho0, (hs.empty l' h).noFlip hs.ready he'] at hf
    cases hf
  have hconv := C29_flippable hs.ready.reach (polygon_ok.2 hP) (polygon_ok.2 hP') t1.1 t2.1 t1.2 t2.2 ho0 hf
  obtain ⟨t, ht⟩ : ∃ t, triangleFlip l e s.surf = .ok () t := by
    refine triangleFlip_ok hs.ready.good hs.ready.full l l' e e' P P' hP hP' t1.1 t2.1 ho ?_
      ((isConvexEdge_iff hs.ready.reach.ginv hP hP' t1.1 t2.1 ho).1 hconv) ?_
    · rintro rfl
      obtain rfl : P = P' := by rw [hP] at hP'; injection hP'
      exact needsFlip_fold hs.ready.reach.ginv hP t1.1 t1.2 ho hf
    · rintro ⟨x, k⟩ hx hk
      rcases hx with rfl | rfl
      · exact hs.ready.closed _ P k hP hk
      · exact hs.ready.closed _ P' k hP' hk
  obtain ⟨r1, l1, d1, r2, ⟨F⟩, r3, r4, r5⟩ := hs.ready.flip ht
  rw [ho] at r2
  injection r2 with r2
  rw [Prod.mk.injEq, Int.natCast_inj] at r2
  obtain ⟨rfl, rfl⟩ := r2
  unfold certifyFlip
  rw [wp_bind, wp_get]
  dsimp only
  rw [if_neg n0, wp_bind]
  refine wp_liftX_ok hop _ _ _ ?_
  dsimp only
  rw [if_neg n1, wp_bind, wp_set]
  unfold wp onSurf
  dsimp only
  rw [ht]
  dsimp only
  refine ⟨⟨r1, ?_, hs.replay.snoc hop ht, fun l => (r4 l).trans (hs.keys l)⟩, ⟨⟨fun _ h => h, ?_, ?_⟩, rfl⟩⟩
  · intro x hx
    obtain ⟨Px, cx, y1, y2, y3⟩ := hs.empty x hx
    have x0 : x ≠ l := fun h => n0 (h ▸ hx)
    have x1 : x ≠ l' := fun h => n1 (h ▸ hx)
    exact ⟨Px, cx, by rw [r3 x x0 x1, y1], y2, F.empty y3 x0 x1⟩
  · intro x hx
    exact r3 x (fun h => n0 (h ▸ hx)) (fun h => n1 (h ▸ hx))
  · intro x c e hx hc
    exact r5 x c e (fun h => n0 (h ▸ hx)) (fun h => n1 (h ▸ hx)) (fun h => n0 (h ▸ hc)) (fun h => n1 (h ▸ hc))

/-- When the circle crosses the edge, the circle on the other side is in the list. -/
def Checked (S : MSurf L (Poly K)) (l : L) (c : Circle K) (e : ℕ) (ys : List (L × Circle K)) : Prop :=
  Disk.Crosses c (S.vert l e) (S.vert l (e + 1)) → ∀ y g, S.GluedTo (l, e) y → Disk.Pos g → g.call (S.vert l e) = S.vert y.1 (y.2 + 1) →
    g.call (S.vert l (e + 1)) = S.vert y.1 y.2 → (y.1, Circle.rmul g c) ∈ ys

omit [LabelNum L] in
theorem Checked.mono {S : MSurf L (Poly K)} {l : L} {c : Circle K} {e : ℕ} {ys zs : List (L × Circle K)} (h : Checked S l c e ys)
    (hz : ∀ x ∈ ys, x ∈ zs) : Checked S l c e zs := fun h1 y g h2 h3 h4 h5 => hz _ (h h1 y g h2 h3 h4 h5)

omit [LabelNum L] [LinearOrder L] in
theorem segment_iff {c : Circle K} {p q : Vec K} (h : p ≠ q) : ∃ x, c.lineSegmentPosition p q = .ok x ∧ (x = 1 ↔ Disk.Crosses c p q) := by
  obtain ⟨x, h1, h2, -⟩ := Circle.C44_line_segment_position c p q h
  exact ⟨x, h1, h2⟩

/-- The transformation across an edge. -/
theorem Ready.transformation {s : MSurf L (Poly K)} (h : Ready s) {l l' : L} {e e' : ℕ} (ho : s.opp l e = some (l', (e' : Int))) :
    ∃ g, s.edgeTransformation l e = .ok g ∧ Disk.Pos g ∧ g.call (s.vert l e) = s.vert l' (e' + 1) ∧ g.call (s.vert l (e + 1)) = s.vert l' e' ∧
      ∀ g', Disk.Pos g' → g'.call (s.vert l e) = s.vert l' (e' + 1) → g'.call (s.vert l (e + 1)) = s.vert l' e' → g' = g := by
  have ho' := opp_back h.reach.ginv ho
  obtain ⟨P, hP, hlt⟩ := opp_isEdge h.reach.ginv.toShape ho
  obtain ⟨P', hP', -⟩ := opp_isEdge h.reach.ginv.toShape ho'
  have t1 := h.tri l P (polygon_ok.2 hP)
  have t2 := h.tri l' P' (polygon_ok.2 hP')
  obtain ⟨g, k1, k2, k3, k4, k5⟩ := glued_triangles h.reach.ginv hP' hP t2.1 t1.1 ho' t2.2 t1.2
  have hg : Disk.Pos g := ⟨⟨k3.ne', Or.inl k2⟩, k2⟩
  rw [← vert_eq hP, ← vert_eq hP'] at k4 k5
  refine ⟨g, k1, hg, k4, k5, fun g' h1 h2 h3 => h1.ext hg (p := s.vert l e) (q := s.vert l (e + 1)) ?_ (by rw [h2, k4]) (by rw [h3, k5])⟩
  have := normSq_pos' (edge_ne_zero_of_area t1.1 t1.2 e)
  unfold normSq Poly.edge at this
  simp only [Prod.fst_sub, Prod.snd_sub] at this
  rw [vert_eq hP, vert_eq hP]
  exact this.ne'

theorem walkEdges_spec {S : MSurf L (Poly K)} (l : L) (polygon : Poly K) (circle : Circle K) (done : List (L × Circle K))
    (hne : ∀ i, polygon.vertex i ≠ polygon.vertex (i + 1)) (hl : ∃ P, S.polygons.get l = some P) :
    ∀ (es : List ℕ) (todo : List (L × Circle K)) (modified : List L) (s : DTri L K), DInv S s → (∀ e ∈ es, e < 3) →
      wp (walkEdges l polygon circle done es todo modified)
        (fun r t => DInv S t ∧ Work s t ∧ (∀ x ∈ r.1, x ∈ todo ∨ ∃ P, S.polygons.get x.1 = some P) ∧ (∀ x ∈ todo, x ∈ r.1) ∧
          (r.2 = [] → modified = [] ∧ t = s ∧
            (s.surf.polygons.get l = some polygon → ∀ e ∈ es, Checked s.surf l circle e (done ++ r.1))))
        (fun _ _ => False) s := by
  intro es
  induction es with
  | nil =>
    intro todo modified s hs _
    unfold walkEdges
    rw [wp_pure]
    exact ⟨hs, Work.refl s, fun x hx => Or.inl hx, fun x hx => hx, fun h => ⟨h, rfl, fun _ e he => absurd he (by simp)⟩⟩
  | cons e es ih =>
    intro todo modified s hs hes
    have he : e < 3 := hes e (by simp)
    have hes' : ∀ x ∈ es, x < 3 := fun x hx => hes x (by simp [hx])
    obtain ⟨P, hP⟩ := (hs.keys l).2 hl
    obtain ⟨x, hx1, hx2⟩ := segment_iff (c := circle) (hne e)
    obtain ⟨l', e', P', ho, ho', hP', he', hop⟩ := hs.ready.partner hP he
    unfold walkEdges
    rw [wp_bind]
    refine wp_liftX_ok hx1 _ _ _ ?_
    dsimp only
    rw [wp_ite]
    constructor
    · intro hx
      rw [wp_bind, wp_get, wp_bind]
      refine wp_liftX_ok hop _ _ _ ?_
      rw [wp_bind]
      obtain ⟨b, -, -, hb, -, -⟩ := needsFlip_ok hs.ready.reach.ginv hs.ready.tri ho
      refine wp_liftX_ok hb _ _ _ ?_
      cases b with
      | true =>
        rw [if_pos rfl, wp_bind]
        refine wp_mono (hs.flip hP he hb) ?_ (fun _ _ h => h)
        rintro _ t ⟨ht, hlt⟩
        refine wp_mono (ih _ _ t ht hes') ?_ (fun _ _ h => h)
        rintro r u ⟨k1, k2, k3, k4, k5⟩
        refine ⟨k1, hlt.trans k2, k3, k4, fun h => ?_⟩
        have := (k5 h).1
        simp at this
      | false =>
        obtain ⟨g, g1, g2, g3, g4, g5⟩ := Ready.transformation hs.ready ho
        rw [if_neg (by simp), wp_bind]
        refine wp_liftX_ok g1 _ _ _ ?_
        dsimp only
        refine wp_mono (ih _ _ s hs hes') ?_ (fun _ _ h => h)
        rintro r u ⟨k1, k2, k3, k4, k5⟩
        have hin : (l', Circle.rmul g circle) ∈ done ++ r.1 := by
          rw [List.mem_append]
          by_cases h1 : (l', Circle.rmul g circle) ∈ done
          · exact Or.inl h1
          · right
            apply k4
            split_ifs with h2
            · exact h2.resolve_left h1
            · simp
        refine ⟨k1, k2, ?_, ?_, fun h => ?_⟩
        · intro y hy
          rcases k3 y hy with h | h
          · split_ifs at h with h2
            · exact Or.inl h
            · rw [List.mem_append, List.mem_singleton] at h
              rcases h with h | rfl
              · exact Or.inl h
              · exact Or.inr ((hs.keys l').1 ⟨P', hP'⟩)
          · exact Or.inr h
        · intro y hy
          apply k4
          split_ifs
          · exact hy
          · simp [hy]
        · obtain ⟨m1, m2, m3⟩ := k5 h
          refine ⟨m1, m2, fun hp e'' he'' => ?_⟩
          rw [List.mem_cons] at he''
          rcases he'' with rfl | he''
          · intro _ y g' y1 y2 y3 y4
            have : y = (l', e') := by
              unfold GluedTo at y1
              rw [ho] at y1
              injection y1 with y1
              rw [Prod.mk.injEq, Int.natCast_inj] at y1
              exact Prod.ext y1.1.symm y1.2.symm
            subst this
            rw [g5 g' y2 y3 y4]
            exact hin
          · exact m3 hp e'' he''
    · intro hx
      refine wp_mono (ih todo modified s hs hes') ?_ (fun _ _ h => h)
      rintro r t ⟨k1, k2, k3, k4, k5⟩
      refine ⟨k1, k2, k3, k4, fun h => ⟨(k5 h).1, (k5 h).2.1, fun hp e'' he'' => ?_⟩⟩
      rw [List.mem_cons] at he''
      rcases he'' with rfl | he''
      · intro hX
        rw [vert_eq hp, vert_eq hp] at hX
        exact absurd (hx2.2 hX) hx
      · exact (k5 h).2.2 hp e'' he''

/-- All circles of the list have been looked at. -/
def AllChecked (S : MSurf L (Poly K)) (done ys : List (L × Circle K)) : Prop :=
  ∀ x ∈ done, (∀ i, ¬ Disk.In x.2 (S.vert x.1 i)) ∧ ∀ e < 3, Checked S x.1 x.2 e ys

theorem walkLoop_spec {S : MSurf L (Poly K)} (pick : List (L × Circle K) → ℕ) (s0 : DTri L K) (hs0 : DInv S s0) (x0 : L × Circle K) :
    ∀ (fuel : ℕ) (todo done : List (L × Circle K)) (modified : List L) (inside : Bool) (s : DTri L K), DInv S s →
      (∀ x ∈ todo, ∃ P, S.polygons.get x.1 = some P) → x0 ∈ done ++ todo →
      (modified = [] → inside = false → s = s0 ∧ AllChecked s0.surf done (done ++ todo)) →
      wp (walkLoop pick fuel todo done modified inside)
        (fun b t => DInv S t ∧ Work s t ∧ (b = true → t = s0 ∧ ∃ done', x0 ∈ done' ∧ AllChecked s0.surf done' done'))
        (fun e t => e = .outOfFuel ∧ DInv S t ∧ Work s t) s := by
  intro fuel
  induction fuel with
  | zero =>
    intro todo done modified inside s hs htodo hx0 hI
    cases todo with
    | nil =>
      unfold walkLoop
      rw [wp_pure]
      refine ⟨hs, Work.refl s, fun h => ?_⟩
      rw [Bool.and_eq_true, Bool.not_eq_true', List.isEmpty_iff] at h
      obtain ⟨k1, k2⟩ := hI h.2 h.1
      rw [List.append_nil] at k2 hx0
      exact ⟨k1, done, hx0, k2⟩
    | cons x xs =>
      unfold walkLoop
      rw [wp_throw]
      exact ⟨rfl, hs, Work.refl s⟩
  | succ fuel ih =>
    intro todo done modified inside s hs htodo hx0 hI
    cases todo with
    | nil =>
      unfold walkLoop
      rw [wp_pure]
      refine ⟨hs, Work.refl s, fun h => ?_⟩
      rw [Bool.and_eq_true, Bool.not_eq_true', List.isEmpty_iff] at h
      obtain ⟨k1, k2⟩ := hI h.2 h.1
      rw [List.append_nil] at k2 hx0
      exact ⟨k1, done, hx0, k2⟩
    | cons x xs =>
      unfold walkLoop
      dsimp only
      set item := (x :: xs).getD (pick (x :: xs) % (x :: xs).length) x with hitem
      have hmem : item ∈ x :: xs := by
        have hlt : pick (x :: xs) % (x :: xs).length < (x :: xs).length := Nat.mod_lt _ (by simp)
        rw [hitem, List.getD_eq_getElem?_getD, List.getElem?_eq_getElem hlt, Option.getD_some]
        exact List.getElem_mem _
      clear_value item
      set todo := (x :: xs).erase item with htd
      have hsplit : ∀ y ∈ x :: xs, y = item ∨ y ∈ todo := by
        intro y hy
        by_cases h : y = item
        · exact Or.inl h
        · exact Or.inr ((List.mem_erase_of_ne h).2 hy)
      have hx0' : x0 ∈ item :: done ++ todo := by
        rw [List.mem_append] at hx0
        rcases hx0 with h | h
        · simp [h]
        · rcases hsplit _ h with rfl | h
          · simp
          · simp [h]
      have hsub : ∀ y ∈ done ++ (x :: xs), y ∈ item :: done ++ todo := by
        intro y hy
        rw [List.mem_append] at hy
        rcases hy with h | h
        · simp [h]
        · rcases hsplit _ h with rfl | h
          · simp
          · simp [h]
      have htodo' : ∀ y ∈ todo, ∃ P, S.polygons.get y.1 = some P := fun y hy => htodo y (List.mem_of_mem_erase hy)
      rw [wp_ite]
      constructor
      · intro hmod
        refine ih todo (item :: done) modified inside s hs htodo' hx0' ?_
        intro h
        rw [h] at hmod
        simp at hmod
      · intro hmod
        obtain ⟨P, hP⟩ := (hs.keys item.1).2 (htodo item hmem)
        have t1 := hs.ready.tri item.1 P (polygon_ok.2 hP)
        rw [wp_bind, wp_get, wp_bind]
        refine wp_liftX_ok (polygon_ok.2 hP) _ _ _ ?_
        rw [wp_bind]
        refine wp_mono (walkEdges_spec item.1 P item.2 (item :: done) ?_ (htodo item hmem) (List.range 3) todo modified s hs (by simp)) ?_
          (fun _ _ h => h.elim)
        · intro i h
          apply edge_ne_zero_of_area t1.1 t1.2 i
          unfold Poly.edge
          rw [h, sub_self]
        · rintro ⟨todo', modified'⟩ t ⟨k1, k2, k3, k4, k5⟩
          dsimp only at k3 k4 k5
          dsimp only
          refine wp_mono (ih todo' (item :: done) modified' _ t k1 ?_ ?_ ?_) ?_ ?_
          · intro y hy
            rcases k3 y hy with h | h
            · exact htodo' y h
            · exact h
          · rw [List.mem_append] at hx0' ⊢
            exact hx0'.imp id (k4 _)
          · intro h1 h2
            rw [Bool.or_eq_false_iff] at h2
            obtain ⟨m1, m2, m3⟩ := k5 h1
            obtain ⟨n1, n2⟩ := hI m1 h2.1
            subst n1 m2
            refine ⟨rfl, ?_⟩
            intro y hy
            rw [List.mem_cons] at hy
            rcases hy with rfl | hy
            · refine ⟨?_, fun e he => m3 hP e (List.mem_range.2 he)⟩
              intro i hi
              have h3 := h2.2
              rw [List.any_eq_false] at h3
              have h4 := h3 (i % 3) (List.mem_range.2 (Nat.mod_lt _ (by norm_num)))
              rw [decide_eq_true_eq, (Circle.C44_point_position _ _).1] at h4
              apply h4
              rw [vert_eq hP, ← Poly.vertex_mod, t1.1] at hi
              exact hi
            · obtain ⟨o1, o2⟩ := n2 y hy
              refine ⟨o1, fun e he => (o2 e he).mono ?_⟩
              intro w hw
              have := hsub w hw
              rw [List.mem_append] at this ⊢
              exact this.imp id (k4 _)
          · rintro b u ⟨m1, m2, m3⟩
            exact ⟨m1, k2.trans m2, m3⟩
          · rintro e u ⟨m1, m2, m3⟩
            exact ⟨m1, m2, k2.trans m3⟩

/-- A circle all of whose continuations have been looked at is empty. -/
theorem empty_of_checked {s : MSurf L (Poly K)} (hs : Ready s) {done : List (L × Circle K)} (hd : AllChecked s done done) {l : L} {c : Circle K}
    (h : (l, c) ∈ done) : Disk.Empty s.vert s.GluedTo l c := by
  have key : ∀ x d, Disk.Sees s.vert s.GluedTo l c x d → (x, d) ∈ done := by
    intro x d hS
    induction hS with
    | start => exact h
    | @step c' x y g _ hX hG hg e1 e2 ih =>
      obtain ⟨P, hP, hlt⟩ := opp_isEdge hs.reach.ginv.toShape hG
      exact (hd _ ih).2 x.2 ((hs.isEdge hP).1 ⟨P, hP, hlt⟩) hX y g hG hg e1 e2
  intro x d hS i
  exact (hd _ (key x d hS)).1 i

theorem certifyWalk_spec {S : MSurf L (Poly K)} (pick : List (L × Circle K) → ℕ) (fuel : ℕ) (l : L) (hl : ∃ P, S.polygons.get l = some P)
    (s : DTri L K) (hs : DInv S s) :
    wp (certifyWalk pick fuel l) (fun b t => DInv S t ∧ Work s t ∧ (b = true → t = s ∧ EmptyAt s.surf l))
      (fun e t => e = .outOfFuel ∧ DInv S t ∧ Work s t) s := by
  obtain ⟨P, hP⟩ := (hs.keys l).2 hl
  have t1 := hs.ready.tri l P (polygon_ok.2 hP)
  obtain ⟨c, hc⟩ := circumscribed_exists t1.1 t1.2
  unfold certifyWalk
  rw [wp_bind, wp_get, wp_bind]
  refine wp_liftX_ok (polygon_ok.2 hP) _ _ _ ?_
  rw [wp_bind]
  refine wp_liftX_ok hc _ _ _ ?_
  refine wp_mono (walkLoop_spec pick s hs (l, c) fuel [(l, c)] [] [] false s hs ?_ (by simp) ?_) ?_ (fun _ _ h => h)
  · intro x hx
    rw [List.mem_singleton] at hx
    subst hx
    exact hl
  · intro _ _
    exact ⟨rfl, fun x hx => absurd hx (by simp)⟩
  · rintro b t ⟨h1, h2, h3⟩
    refine ⟨h1, h2, fun hb => ?_⟩
    obtain ⟨h4, done, h5, h6⟩ := h3 hb
    exact ⟨h4, P, c, hP, hc, empty_of_checked hs.ready h6 h5⟩

theorem certifyLoop_spec {S : MSurf L (Poly K)} (pick : List (L × Circle K) → ℕ) (fuel : ℕ) (l : L) (hl : ∃ P, S.polygons.get l = some P) :
    ∀ (n : ℕ) (s : DTri L K), DInv S s →
      wp (certifyLoop pick fuel l n) (fun _ t => DInv S t ∧ Work s t ∧ EmptyAt t.surf l)
        (fun e t => e = .outOfFuel ∧ DInv S t ∧ Work s t) s := by
  intro n
  induction n with
  | zero =>
    intro s hs
    unfold certifyLoop
    rw [wp_throw]
    exact ⟨rfl, hs, Work.refl s⟩
  | succ n ih =>
    intro s hs
    unfold certifyLoop
    rw [wp_bind]
    refine wp_mono (certifyWalk_spec pick fuel l hl s hs) ?_ (fun _ _ h => h)
    rintro b t ⟨h1, h2, h3⟩
    cases b with
    | true =>
      rw [if_pos rfl, wp_pure]
      obtain ⟨rfl, h4⟩ := h3 rfl
      exact ⟨h1, h2, h4⟩
    | false =>
      rw [if_neg (by simp)]
      refine wp_mono (ih t h1) ?_ ?_
      · rintro _ u ⟨k1, k2, k3⟩
        exact ⟨k1, h2.trans k2, k3⟩
      · rintro e u ⟨k1, k2, k3⟩
        exact ⟨k1, k2, h2.trans k3⟩

theorem forLabels_spec {S : MSurf L (Poly K)} {f : L → DAct L K Unit}
    (hf : ∀ (l : L) (s : DTri L K), (∃ P, S.polygons.get l = some P) → DInv S s →
      wp (f l) (fun _ t => DInv S t ∧ Later s t) (fun e t => e = .outOfFuel ∧ DInv S t ∧ Later s t) s) :
    ∀ (ls : List L) (s : DTri L K), (∀ l ∈ ls, ∃ P, S.polygons.get l = some P) → DInv S s →
      wp (forLabels f ls) (fun _ t => DInv S t ∧ Later s t) (fun e t => e = .outOfFuel ∧ DInv S t ∧ Later s t) s := by
  intro ls
  induction ls with
  | nil =>
    intro s _ hs
    unfold forLabels
    rw [wp_pure]
    exact ⟨hs, Later.refl s⟩
  | cons l ls ih =>
    intro s hls hs
    unfold forLabels
    rw [wp_bind]
    refine wp_mono (hf l s (hls l (by simp)) hs) ?_ (fun _ _ h => h)
    rintro _ t ⟨h1, h2⟩
    refine wp_mono (ih t (fun x hx => hls x (by simp [hx])) h1) ?_ ?_
    · rintro _ u ⟨k1, k2⟩
      exact ⟨k1, h2.trans k2⟩
    · rintro e u ⟨k1, k2, k3⟩
      exact ⟨k1, k2, h2.trans k3⟩

/-- The labels are those of the surface. -/
def LabelsOf (S : MSurf L (Poly K)) (labels : List L) : Prop := ∀ l, l ∈ labels ↔ ∃ P, S.polygons.get l = some P

theorem certify_spec {S : MSurf L (Poly K)} {labels : List L} (hlab : LabelsOf S labels) (pick : List (L × Circle K) → ℕ) (fuel : ℕ) :
    ∀ (depth : ℕ) (l : L) (s : DTri L K), (∃ P, S.polygons.get l = some P) → DInv S s →
      wp (certify labels pick fuel depth l) (fun _ t => (DInv S t ∧ Later s t) ∧ l ∈ t.certified)
        (fun e t => e = .outOfFuel ∧ DInv S t ∧ Later s t) s := by
  intro depth
  induction depth with
  | zero =>
    intro l s _ hs
    unfold certify
    rw [wp_throw]
    exact ⟨rfl, hs, Later.refl s⟩
  | succ depth ih =>
    intro l s hl hs
    unfold certify
    rw [wp_bind, wp_get, wp_ite]
    constructor
    · intro h
      rw [wp_pure]
      exact ⟨⟨hs, Later.refl s⟩, h⟩
    · intro _
      rw [wp_bind]
      refine wp_mono (forLabels_spec (fun l s h1 h2 => wp_mono (ih l s h1 h2) (fun _ _ h => h.1) (fun _ _ h => h)) _ s ?_ hs) ?_ (fun _ _ h => h)
      · intro x hx
        exact (hlab x).1 ((List.takeWhile_sublist _).subset hx)
      · rintro _ t ⟨h1, h2⟩
        rw [wp_bind]
        refine wp_mono (certifyLoop_spec pick fuel l hl fuel t h1) ?_ ?_
        · rintro _ u ⟨k1, k2, k3⟩
          rw [wp_bind, wp_get, wp_set]
          refine ⟨⟨⟨k1.ready, ?_, k1.replay, k1.keys⟩, (h2.trans k2.1).trans ⟨fun x hx => by simp [hx], fun _ _ => rfl, fun _ _ _ _ _ => Iff.rfl⟩⟩,
            by simp⟩
          intro x hx
          rw [List.mem_cons] at hx
          rcases hx with rfl | hx
          · exact k3
          · exact k1.empty x hx
        · rintro e u ⟨k1, k2, k3⟩
          exact ⟨k1, k2, h2.trans k3.1⟩

end DTri
end Flat
