import Verif.Lemmas.CellLoop
import Verif.Lemmas.Concyclic
import Verif.Props.Lazy
import Verif.Props.Delaunay

/-!
# The triangles of a Delaunay cell
-/

namespace Flat
variable {L K : Type} [DecidableEq L] [Field K] [LinearOrder K] [IsStrictOrderedRing K]

namespace Poly

/-- The cotangent of the angle opposite to a side of a triangle. -/
def cotan (p : Poly K) (e : ℕ) : K :=
  dot (p.vertex e - p.vertex (e + 2)) (p.vertex (e + 1) - p.vertex (e + 2)) / ccw (p.vertex e - p.vertex (e + 2)) (p.vertex (e + 1) - p.vertex (e + 2))

theorem vertex_three {p : Poly K} (h : p.length = 3) {i j : ℕ} (hij : i % 3 = j % 3) : p.vertex i = p.vertex j := by
  rw [← vertex_mod p i, ← vertex_mod p j, h, hij]

theorem apex_ccw {p : Poly K} (h : p.length = 3) (ha : 0 < p.area) (e : ℕ) :
    0 < ccw (p.vertex e - p.vertex (e + 2)) (p.vertex (e + 1) - p.vertex (e + 2)) := by
  have := MSurf.ccw_vertices_three h ha e
  simp only [ccw, Prod.fst_sub, Prod.snd_sub] at this ⊢
  linarith

theorem cotan_congr {p : Poly K} (h : p.length = 3) {i j : ℕ} (hij : i % 3 = j % 3) : p.cotan i = p.cotan j := by
  unfold cotan
  rw [vertex_three h hij, vertex_three h (show (i + 1) % 3 = (j + 1) % 3 by omega), vertex_three h (show (i + 2) % 3 = (j + 2) % 3 by omega)]

theorem cotan_next {p : Poly K} (h : p.length = 3) (ha : 0 < p.area) (e : ℕ) : 0 < p.cotan e + p.cotan (e + 1) := by
  have h1 := apex_ccw h ha e
  have h2 := apex_ccw h ha (e + 1)
  have hne := MSurf.edge_ne_zero_of_area h ha (e + 2)
  unfold cotan
  have e3 : p.vertex (e + 1 + 2) = p.vertex e := vertex_three h (by omega)
  have e2 : p.vertex (e + 1 + 1) = p.vertex (e + 2) := rfl
  have ee : p.edge (e + 2) = p.vertex e - p.vertex (e + 2) := by
    unfold edge
    rw [← vertex_three h (show (e + 2 + 1) % 3 = e % 3 by omega)]
  rw [ee] at hne
  rw [e3, e2] at h2 ⊢
  generalize p.vertex e = a at *
  generalize p.vertex (e + 1) = b at *
  generalize p.vertex (e + 2) = c at *
  have hd : ccw (b - a) (c - a) = ccw (a - c) (b - c) := by
    simp only [ccw, Prod.fst_sub, Prod.snd_sub]; ring
  rw [hd, ← add_div]
  refine div_pos ?_ h1
  have : dot (a - c) (b - c) + dot (b - a) (c - a) = dot (a - c) (a - c) := by
    simp only [dot, Prod.fst_sub, Prod.snd_sub]; ring
  rw [this]
  exact dot_self_pos hne

theorem cotan_pos {p : Poly K} (h : p.length = 3) (ha : 0 < p.area) {i j : ℕ} (hi : i < 3) (hj : j < 3) (hij : i ≠ j) :
    0 < p.cotan i + p.cotan j := by
  rcases CellGeom.others i j hi hj hij.symm with e | e
  · rw [e, cotan_congr h (show (i + 1) % 3 % 3 = (i + 1) % 3 by omega)]
    exact cotan_next h ha i
  · rw [e, cotan_congr h (show (i + 2) % 3 % 3 = (i + 2) % 3 by omega), cotan_congr h (show i % 3 = (i + 2 + 1) % 3 by omega), add_comm]
    exact cotan_next h ha (i + 2)

end Poly

namespace RSurf

/-- A polygon. -/
def triAt (S : RSurf L K) (l : L) : Poly K :=
  match S.polygon l with
  | .ok p => p
  | .error _ => []

/-- A gluing. -/
def oppAt (S : RSurf L K) (h : L × ℕ) : L × ℕ :=
  match S.opp h.1 h.2 with
  | .ok (some c) => c
  | _ => h

/-- The angles opposite to an edge add up to `π`. -/
def Join (S : RSurf L K) (h : L × ℕ) : Prop := (S.triAt h.1).cotan h.2 + (S.triAt (S.oppAt h).1).cotan (S.oppAt h).2 = 0

/-- An edge of a triangle. -/
def IsEdge3 (valid : L → Prop) (h : L × ℕ) : Prop := valid h.1 ∧ h.2 < 3

variable {S : RSurf L K} {valid : L → Prop}

omit [DecidableEq L] in
theorem triAt_spec (hS : S.Closed valid) {l : L} (hl : valid l) : S.polygon l = .ok (S.triAt l) ∧ (S.triAt l).Valid := by
  obtain ⟨p, h1, h2⟩ := hS.poly l hl
  unfold triAt
  rw [h1]
  exact ⟨rfl, h2⟩

omit [DecidableEq L] in
theorem oppAt_spec (hS : S.Closed valid) (h3 : ∀ l p, valid l → S.polygon l = .ok p → p.length = 3) {h : L × ℕ} (hh : IsEdge3 valid h) :
    S.opp h.1 h.2 = .ok (some (S.oppAt h)) ∧ IsEdge3 valid (S.oppAt h) ∧ S.oppAt (S.oppAt h) = h := by
  obtain ⟨hl, he⟩ := hh
  obtain ⟨hp, -⟩ := triAt_spec hS hl
  obtain ⟨l', e', p', h1, h2, h4, h5, h6⟩ := hS.glue h.1 _ h.2 hl hp (by rw [h3 _ _ hl hp]; exact he)
  have e : S.oppAt h = (l', e') := by
    unfold oppAt
    rw [h1]
  rw [e]
  refine ⟨h1, ⟨h2, ?_⟩, ?_⟩
  · have := h3 l' p' h2 h4
    rw [this] at h5
    exact h5
  · unfold oppAt
    simp only [h6]

theorem needsJoin_spec (hS : S.Closed valid) (h3 : ∀ l p, valid l → S.polygon l = .ok p → p.length = 3) {h : L × ℕ} (hh : IsEdge3 valid h) :
    ∃ b, S.needsJoin h.1 h.2 = .ok b ∧ (b = true ↔ S.Join h) := by
  obtain ⟨ho, ho2, -⟩ := oppAt_spec hS h3 hh
  obtain ⟨hp1, hv1⟩ := triAt_spec hS hh.1
  obtain ⟨hp2, hv2⟩ := triAt_spec hS ho2.1
  have l1 := h3 _ _ hh.1 hp1
  have l2 := h3 _ _ ho2.1 hp2
  unfold Join
  set p1 := S.triAt h.1 with hP1
  set p2 := S.triAt (S.oppAt h).1 with hP2
  set c := S.oppAt h with hc
  have a1 := Poly.apex_ccw l1 hv1.area_pos h.2
  have a2 := Poly.apex_ccw l2 hv2.area_pos c.2
  have n1 : -p1.edge (h.2 + 1) = p1.vertex (h.2 + 1) - p1.vertex (h.2 + 2) := by
    unfold Poly.edge
    rw [neg_sub]
  have n2 : -p2.edge (c.2 + 1) = p2.vertex (c.2 + 1) - p2.vertex (c.2 + 2) := by
    unfold Poly.edge
    rw [neg_sub]
  have u1 : p1.vertex h.2 - p1.vertex (h.2 + 2) ≠ 0 := Poly.ne_zero_of_ccw a1
  have u2 : p2.vertex c.2 - p2.vertex (c.2 + 2) ≠ 0 := Poly.ne_zero_of_ccw a2
  obtain ⟨m, m', e1, e2, -, e3⟩ := MSurf.needs_sign _ (p1.vertex (h.2 + 1) - p1.vertex (h.2 + 2)) _ (p2.vertex (c.2 + 1) - p2.vertex (c.2 + 2)) u1 u2
  refine ⟨decide ((m.mul m').c = 0), ?_, ?_⟩
  · simp only [needsJoin, opp!_ok ho, hp1, hp2, n1, n2, e1, e2, bind, Except.bind, pure, Except.pure]
  · rw [decide_eq_true_iff, e3]
    unfold Poly.cotan
    rw [div_add_div _ _ (ne_of_gt a1) (ne_of_gt a2), div_eq_zero_iff]
    constructor
    · intro hx
      left
      linarith
    · rintro (hx | hx)
      · linarith
      · exact absurd hx (ne_of_gt (mul_pos a1 a2))

theorem cellGeom (hS : S.Closed valid) (h3 : ∀ l p, valid l → S.polygon l = .ok p → p.length = 3)
    (hns : ∀ l, valid l → ∀ e < 3, S.opp l e = .ok (some (l, e)) → S.needsJoin l e = .ok false) :
    CellGeom S.oppAt (IsEdge3 valid) S.Join (fun h => (S.triAt h.1).cotan h.2) := by
  refine ⟨fun h hh => (oppAt_spec hS h3 hh).2.1, fun h hh => (oppAt_spec hS h3 hh).2.2, fun h hh hj => ?_, fun h hh hj => ?_, ?_, ?_⟩
  · unfold Join at hj ⊢
    rw [(oppAt_spec hS h3 hh).2.2]
    linarith
  · unfold Join at hj
    linarith
  · intro a b ha hb hab hne
    obtain ⟨hp, hv⟩ := triAt_spec hS ha.1
    rw [← hab]
    exact Poly.cotan_pos (h3 _ _ ha.1 hp) hv.area_pos ha.2 hb.2 (fun e => hne (Prod.ext hab e))
  · intro h hh hj he
    obtain ⟨ho, -, -⟩ := oppAt_spec hS h3 hh
    rw [he] at ho
    obtain ⟨b, hb, hb2⟩ := needsJoin_spec hS h3 hh
    have := hns h.1 hh.1 h.2 hh.2 ho
    rw [hb2.2 hj] at hb
    rw [hb] at this
    cases this

theorem cellAgrees (hS : S.Closed valid) (h3 : ∀ l p, valid l → S.polygon l = .ok p → p.length = 3) :
    CellGeom.Agrees S S.oppAt (IsEdge3 valid) S.Join := by
  refine ⟨fun h hh => hh.2, fun h i hh hi => ⟨hh.1, hi⟩, fun h hh => opp!_ok (oppAt_spec hS h3 hh).1, fun h hh hj => ?_, fun h hh hj => ?_⟩
  · obtain ⟨b, hb, hb2⟩ := needsJoin_spec hS h3 hh
    rw [hb2.2 hj] at hb
    exact hb
  · obtain ⟨b, hb, hb2⟩ := needsJoin_spec hS h3 hh
    cases b with
    | true => exact absurd (hb2.1 rfl) hj
    | false => exact hb

end RSurf
end Flat
