import Verif.Props.Trajectory

/-!
# C67: the coding of straight line trajectories
-/

namespace Flat
variable {L K : Type} [Field K] [LinearOrder K] [IsStrictOrderedRing K]

namespace RSurf
open Poly
variable {S : RSurf L K} {valid : L → Prop}

/-- **C67.** A segment that does not end at a vertex ends inside of an edge, and the segment that follows starts inside of the opposite
edge. -/
theorem C67_crosses (hS : S.Closed valid) {a b : Seg L K} (ha : S.IsSeg valid a) (h : S.Follows a b) :
    ∃ e e', a.stop.position = .edgeInterior e ∧ b.start.position = .edgeInterior e' ∧ S.opp a.start.label e = .ok (some (b.start.label, e')) := by
  have hB := hS.bordered
  obtain ⟨e, p, hp, -, hpos, hc, hlab, -⟩ := isSeg_start hB (isSeg_invert hB ha) h.1
  obtain ⟨f, p', e', h1, -, ho, -, hpos', -⟩ := cross hS (C67_ends hB ha).2 hp hpos hc
  have h1 : S.tvInvert a.stop = .ok f := h1
  rw [h.2] at h1
  injection h1 with h1
  subst h1
  have hlab : a.start.label = a.stop.label := hlab
  refine ⟨e, e', hpos, hpos', ?_⟩
  rw [hlab]
  exact ho

/-- The opposite edges have the same length. -/
def Isometric (S : RSurf L K) (valid : L → Prop) : Prop := S.GluedBy valid fun u v => dot u u = dot v v

theorem follows_norm (hS : S.Closed valid) (hi : S.Isometric valid) {a b : Seg L K} (ha : S.IsSeg valid a) (h : S.Follows a b) :
    dot b.start.vector b.start.vector = dot a.start.vector a.start.vector := by
  have hB := hS.bordered
  obtain ⟨e, p, hp, -, hpos, hc, -, hvec⟩ := isSeg_start hB (isSeg_invert hB ha) h.1
  obtain ⟨f, p', e', h1, -, -, -, -, -, -, hgl⟩ := cross hS (C67_ends hB ha).2 hp hpos hc
  have h1 : S.tvInvert a.stop = .ok f := h1
  rw [h.2] at h1
  injection h1 with h1
  subst h1
  have hvec : a.start.vector = -a.stop.vector := hvec
  obtain ⟨q, q', k, k', g, g0, g1, g2, g3, g4, g5, g6, g7, g8, g9, g10, g11, -⟩ := hgl
  have hv := hB.valid_of_polygon g0 g1
  have hn := hi _ _ _ _ _ _ g0 g1 g2 g3 g4
  have hd := derivative_edge g6 g7 g8
  have h2 := Similarity.dot_derivative g6 (q.edge k) (q.edge k)
  rw [hd] at h2
  have h3 : dot (-q'.edge k') (-q'.edge k') = dot (q'.edge k') (q'.edge k') := by unfold dot; simp
  rw [h3, ← hn] at h2
  have h4 : g.a * g.a + g.b * g.b = 1 := by
    have hp : 0 < dot (q.edge k) (q.edge k) := normSq_pos' (hv.edge_ne k)
    have : (g.a * g.a + g.b * g.b - 1) * dot (q.edge k) (q.edge k) = 0 := by linarith
    rcases mul_eq_zero.1 this with h | h
    · linarith
    · exact absurd h hp.ne'
  have h5 : b.start.vector = g.derivative.mulVec (-a.stop.vector) := by rw [← Similarity.call_add g6]; exact g11
  rw [h5, Similarity.dot_derivative g6, h4, one_mul, hvec]

theorem chain_norm (hS : S.Closed valid) (hi : S.Isometric valid) {l : List (Seg L K)} (hseg : ∀ s ∈ l, S.IsSeg valid s) (hc : l.IsChain S.Follows)
    {a b : Seg L K} (ha : l.head? = some a) (hb : l.getLast? = some b) : dot b.start.vector b.start.vector = dot a.start.vector a.start.vector := by
  induction l generalizing a with
  | nil => cases ha
  | cons x l ih =>
    injection ha with ha
    subst ha
    cases l with
    | nil => simp at hb; rw [hb]
    | cons y l =>
      rw [List.isChain_cons_cons] at hc
      rw [List.getLast?_cons_cons] at hb
      rw [ih (fun s hs => hseg s (List.mem_cons_of_mem _ hs)) hc.2 rfl hb]
      exact follows_norm hS hi (hseg x List.mem_cons_self) hc.1

variable [DecidableEq L]

/-- **C67.** If opposite edges have the same length then a closed trajectory returns to its start with the same vector. -/
theorem C67_closed_isometric (hS : S.Closed valid) (hi : S.Isometric valid) {x : Traj L K} (hx : S.IsTraj valid x) {first : Seg L K}
    (h1 : x.segments.head? = some first) : x.isClosed = true ↔ x.forward = some first.start := by
  have hB := hS.bordered
  have hf : S.IsSeg valid first := hx.seg _ (List.mem_of_head? h1)
  constructor
  · intro hc
    cases hfw : x.forward with
    | none => unfold Traj.isClosed at hc; rw [hfw] at hc; cases hc
    | some f =>
      obtain ⟨s, f', -, h2, -, h3, -, ⟨last, h4, h5, -⟩, -⟩ := flowForward_step hS hx hfw
      rw [closed_iff x hfw h1, ← h2] at hc
      obtain ⟨c, c0, hsc⟩ := (differs_iff hB h3 hf).1 hc
      have hl : S.IsSeg valid last := hx.seg _ (List.mem_of_getLast? h4)
      have e1 := follows_norm hS hi hl h5
      rw [chain_norm hS hi hx.seg hx.chain h1 h4, hsc] at e1
      have e2 : dot (s.scale c).start.vector (s.scale c).start.vector = c * c * dot s.start.vector s.start.vector := by
        show dot (c • s.start.vector) (c • s.start.vector) = _
        unfold dot; simp; ring
      rw [e2] at e1
      obtain ⟨_, _, _, _, hpts⟩ := isTangent_data hB (C67_ends hB h3).1
      have hp : 0 < dot s.start.vector s.start.vector := normSq_pos' hpts.1
      have : (c - 1) * ((c + 1) * dot s.start.vector s.start.vector) = 0 := by linear_combination -e1
      have h6 : c = 1 := by
        rcases mul_eq_zero.1 this with h | h
        · linarith
        · have := mul_pos (show 0 < c + 1 by linarith) hp
          linarith
      rw [← h2, hsc, h6]
      congr 1
      show s.start = s.start.scale 1
      unfold TVec.scale
      rw [one_smul]
  · intro hfw
    rw [closed_iff x hfw h1, (differsByScaling_iff hB (C67_ends hB hf).1 (C67_ends hB hf).1)]
    exact ⟨1, one_pos, by unfold TVec.scale; rw [one_smul]⟩

omit [DecidableEq L] in
/-- The letters of segments that do not end at a vertex. -/
theorem letters {l : List (Seg L K)} (h : ∀ s ∈ l, ∃ e, s.stop.position = .edgeInterior e) :
    ∃ ex : List ℕ, List.Forall₂ (fun s e => s.stop.position = .edgeInterior e) l ex ∧
      l.mapM segLetter = (.ok (List.zip (l.map fun s => s.start.label) ex) : Except Err _) := by
  induction l with
  | nil => exact ⟨[], .nil, rfl⟩
  | cons s l ih =>
    obtain ⟨ex, h1, h2⟩ := ih fun s hs => h s (List.mem_cons_of_mem _ hs)
    obtain ⟨e, he⟩ := h s List.mem_cons_self
    refine ⟨e :: ex, .cons he h1, ?_⟩
    have : segLetter s = (.ok (s.start.label, e) : Except Err _) := by
      unfold segLetter Poly.Position.getEdge
      rw [he]
      rfl
    rw [List.mapM_cons, this, h2]
    rfl

omit [DecidableEq L] in
theorem dropLast_stop (hS : S.Closed valid) {l : List (Seg L K)} (hseg : ∀ s ∈ l, S.IsSeg valid s) (hc : l.IsChain S.Follows) :
    ∀ s ∈ l.dropLast, ∃ e, s.stop.position = .edgeInterior e := by
  intro s hs
  obtain ⟨i, hi, rfl⟩ := List.getElem_of_mem hs
  have hi' := hi
  rw [List.length_dropLast] at hi'
  rw [List.getElem_dropLast]
  obtain ⟨e, -, h, -⟩ := C67_crosses hS (hseg _ (List.getElem_mem (by omega))) (List.isChain_iff_getElem.1 hc i (by omega))
  exact ⟨e, h⟩

theorem lastLetter_ok (hS : S.Closed valid) {s : Seg L K} (h : S.IsSeg valid s) (start : TVec L K) :
    (s.stop.singular = true → S.lastLetter start s = .ok []) ∧
    (∀ e f, s.stop.position = .edgeInterior e → S.tvInvert s.stop = .ok f →
      S.lastLetter start s = .ok (if f.label = start.label ∧ f.point = start.point ∧ f.vector = start.vector then [] else [(s.start.label, e)])) := by
  constructor
  · intro hs
    obtain ⟨i, hi⟩ := singular_iff.1 hs
    unfold lastLetter
    rw [hi]
    rfl
  · intro e f he hf
    unfold lastLetter
    rw [he]
    simp only [hf, bind, Except.bind, pure, Except.pure]
    split_ifs <;> rfl

/-- **C67.** The coding of a trajectory: the edge from which it starts, if it does not start at a vertex; the edges over which it crosses
from one of its segments to the next; and the edge on which it ends, unless it ends at a vertex or returns to its start. -/
theorem C67_coding (hS : S.Closed valid) {x : Traj L K} (hx : S.IsTraj valid x) {first last : Seg L K} (h1 : x.segments.head? = some first)
    (h2 : x.segments.getLast? = some last) :
    ∃ ex : List ℕ, List.Forall₂ (fun s e => s.stop.position = .edgeInterior e) x.segments.dropLast ex ∧
      ∃ a b, S.coding x = .ok (a ++ List.zip (x.segments.dropLast.map fun s => s.start.label) ex ++ b) ∧
        ((∃ i, first.start.position = .vertex i) ∧ a = [] ∨ ∃ e, first.start.position = .edgeInterior e ∧ a = [(first.start.label, e)]) ∧
        ((∃ i, last.stop.position = .vertex i) ∧ b = [] ∨
          (∃ e, last.stop.position = .edgeInterior e) ∧ x.forward = some first.start ∧ b = [] ∨
          ∃ e, last.stop.position = .edgeInterior e ∧ x.forward ≠ some first.start ∧ b = [(last.start.label, e)]) := by
  have hB := hS.bordered
  have hf : S.IsSeg valid first := hx.seg _ (List.mem_of_head? h1)
  have hl : S.IsSeg valid last := hx.seg _ (List.mem_of_getLast? h2)
  obtain ⟨ex, k1, k2⟩ := letters (dropLast_stop hS hx.seg hx.chain)
  refine ⟨ex, k1, ?_⟩
  obtain ⟨s, rest, hsr⟩ : ∃ s rest, x.segments = s :: rest := by
    cases hsg : x.segments with
    | nil => rw [hsg] at h1; cases h1
    | cons s rest => exact ⟨s, rest, rfl⟩
  have e1 : s = first := by rw [hsr] at h1; injection h1
  subst e1
  have e2 : (s :: rest).getLast (by simp) = last := by
    rw [hsr, List.getLast?_eq_getLast_of_ne_nil (by simp)] at h2
    injection h2
  have hcod : ∀ b, S.lastLetter s.start last = .ok b →
      S.coding x = .ok (firstLetter s ++ List.zip (x.segments.dropLast.map fun s => s.start.label) ex ++ b) := by
    intro b hb
    unfold coding
    rw [hsr]
    rw [hsr] at k2
    simp only [k2, e2, hb, bind, Except.bind, pure, Except.pure]
  have hfirst : (∃ i, s.start.position = .vertex i) ∧ firstLetter s = [] ∨ ∃ e, s.start.position = .edgeInterior e ∧ firstLetter s = [(s.start.label, e)] := by
    cases hn : s.start.singular with
    | true =>
      obtain ⟨i, hi⟩ := singular_iff.1 hn
      exact .inl ⟨⟨i, hi⟩, by unfold firstLetter; rw [hi]⟩
    | false =>
      obtain ⟨e, -, -, -, he, -⟩ := isSeg_start hB hf hn
      exact .inr ⟨e, he, by unfold firstLetter; rw [he]⟩
  obtain ⟨a, ha, hset⟩ := hx.forward
  rw [h2] at ha; injection ha with ha; subst ha
  rcases isSeg_setup hS hl with ⟨m1, m2⟩ | ⟨s', m1, m2, m3, m4, m5, m6, m7⟩
  · exact ⟨_, [], hcod _ ((lastLetter_ok hS hl s.start).1 m1), hfirst, .inl ⟨singular_iff.1 m1, rfl⟩⟩
  · rw [hset] at m2
    injection m2 with m2
    obtain ⟨e, -, -, -, he, -⟩ := isSeg_start hB (isSeg_invert hB hl) m1
    have hll := (lastLetter_ok hS hl s.start).2 e s'.start he m3.2
    by_cases hc : s'.start.label = s.start.label ∧ s'.start.point = s.start.point ∧ s'.start.vector = s.start.vector
    · rw [if_pos hc] at hll
      refine ⟨_, _, hcod _ hll, hfirst, .inr (.inl ⟨⟨e, he⟩, ?_, rfl⟩)⟩
      rw [m2]
      obtain ⟨p, hp, -, q1, -⟩ := isTangent_data hB (C67_ends hB m5).1
      obtain ⟨p', hp', -, q2, -⟩ := isTangent_data hB (C67_ends hB hf).1
      rw [← hc.1, hp] at hp'
      injection hp' with hp'
      subst hp'
      congr 1
      exact TVec.ext hc.1 hc.2.1 hc.2.2 (by rw [q1, q2, hc.2.1])
    · rw [if_neg hc] at hll
      refine ⟨_, _, hcod _ hll, hfirst, .inr (.inr ⟨e, he, ?_, rfl⟩)⟩
      rw [m2]
      intro h
      injection h with h
      exact hc ⟨by rw [h], by rw [h], by rw [h]⟩

/-- **C67.** If opposite edges have the same length then the cylinder of a closed trajectory is created from the label of the polygon in
which the trajectory starts and the edges over which it leaves the polygons, one for each of its segments.  Trajectories that are not
closed are rejected. -/
theorem C67_cylinder (hS : S.Closed valid) (hi : S.Isometric valid) {x : Traj L K} (hx : S.IsTraj valid x) {first : Seg L K}
    (h1 : x.segments.head? = some first) :
    (x.isClosed = false → S.cylinderWord x = .error .valueError) ∧
    (x.isClosed = true → ∃ ex : List ℕ, List.Forall₂ (fun s e => s.stop.position = .edgeInterior e) x.segments ex ∧
      S.cylinderWord x = .ok (first.start.label, ex)) := by
  have hB := hS.bordered
  constructor
  · intro h
    unfold cylinderWord
    rw [h]
    rfl
  · intro hc
    have hf : S.IsSeg valid first := hx.seg _ (List.mem_of_head? h1)
    have hfw := (C67_closed_isometric hS hi hx h1).1 hc
    obtain ⟨s, f', -, h2, -, h3, h4, ⟨last, h5, h6, -⟩, -⟩ := flowForward_step hS hx hfw
    have hs := isSeg_ext hB h3 hf h2
    subst hs
    have hl : S.IsSeg valid last := hx.seg _ (List.mem_of_getLast? h5)
    obtain ⟨ex, k1, a, b, k2, k3, k4⟩ := C67_coding hS hx h1 h5
    obtain ⟨e, e', m1, m2, m3⟩ := C67_crosses hS hl h6
    have ha : a = [(s.start.label, e')] := by
      rcases k3 with ⟨⟨i, hi⟩, -⟩ | ⟨k, hk, rfl⟩
      · rw [m2] at hi; cases hi
      · rw [m2] at hk; injection hk with hk; rw [hk]
    have hb : b = [] := by
      rcases k4 with ⟨-, h⟩ | ⟨-, -, h⟩ | ⟨-, -, h, -⟩
      · exact h
      · exact h
      · exact absurd hfw h
    subst ha hb
    have hsplit : x.segments = x.segments.dropLast ++ [last] := by
      obtain ⟨l, hl⟩ := List.getLast?_eq_some_iff.1 h5
      rw [hl]; simp
    refine ⟨ex ++ [e], ?_, ?_⟩
    · rw [hsplit]
      exact List.rel_append k1 (.cons m1 .nil)
    · obtain ⟨p, hp, hv, -⟩ := isTangent_data hB (C67_ends hB hl).1
      have he : e < p.length := by
        obtain ⟨k, q, hq, hlt, hk, -, hlab, -⟩ := isSeg_start hB (isSeg_invert hB hl) h6.1
        have hk : last.stop.position = .edgeInterior k := hk
        rw [m1] at hk; injection hk with hk; subst hk
        have hlab : last.start.label = last.stop.label := hlab
        have hq : S.polygon last.stop.label = .ok q := hq
        rw [← hlab, hp] at hq; injection hq with hq; subst hq
        exact hlt
      obtain ⟨-, -, -, -, hback⟩ := hB.back (C67_ends hB hl).1.1 hp he m3
      unfold cylinderWord
      simp only [hc, k2, bind, Except.bind, pure, Except.pure, Bool.not_true]
      rw [List.append_nil]
      simp only [List.singleton_append, opp!_ok hback]
      rw [List.map_snd_zip (by rw [List.length_map, k1.length_eq])]
      rfl

/-! ### Examples -/

/-- An L-shaped polygon whose opposite edges are glued. -/
def exLSurf : RSurf ℕ ℚ where
  polygon l := if l = 0 then .ok exL else .error .keyError
  opp l e := if l = 0 ∧ e < 8 then .ok (some (0, [5, 3, 7, 1, 6, 0, 4, 2].getD e 0)) else .error .keyError

theorem exLSurf_closed : exLSurf.Closed (fun l => l = 0) := by
  refine ⟨?_, ?_⟩
  · rintro l rfl
    exact ⟨exL, rfl, exL_valid⟩
  · rintro l p e rfl hp he
    injection hp with hp
    subst hp
    have he : e < 8 := he
    interval_cases e
    · exact ⟨0, 5, exL, by decide +kernel, rfl, rfl, by decide, by decide +kernel⟩
    · exact ⟨0, 3, exL, by decide +kernel, rfl, rfl, by decide, by decide +kernel⟩
    · exact ⟨0, 7, exL, by decide +kernel, rfl, rfl, by decide, by decide +kernel⟩
    · exact ⟨0, 1, exL, by decide +kernel, rfl, rfl, by decide, by decide +kernel⟩
    · exact ⟨0, 6, exL, by decide +kernel, rfl, rfl, by decide, by decide +kernel⟩
    · exact ⟨0, 0, exL, by decide +kernel, rfl, rfl, by decide, by decide +kernel⟩
    · exact ⟨0, 4, exL, by decide +kernel, rfl, rfl, by decide, by decide +kernel⟩
    · exact ⟨0, 2, exL, by decide +kernel, rfl, rfl, by decide, by decide +kernel⟩

/-- A tangent vector at an interior point, and one at the reflex vertex. -/
theorem exLSurf_tangent : exLSurf.IsTangent (fun l => l = 0) ⟨0, (1 / 2, 1 / 4), (1, 1), .interior⟩ ∧
    exLSurf.IsTangent (fun l => l = 0) ⟨0, (1, 1), (-2, 1), .vertex 4⟩ := ⟨⟨rfl, by decide +kernel⟩, rfl, by decide +kernel⟩

theorem exLSurf_isometric : exLSurf.Isometric (fun l => l = 0) := by
  rintro l e l' e' p p' rfl hp he ho hp'
  injection hp with hp
  subst hp
  have he : e < 8 := he
  have hl : l' = 0 := by
    unfold exLSurf at ho
    dsimp only at ho
    rw [if_pos ⟨rfl, he⟩] at ho
    injection ho with ho
    injection ho with ho
    injection ho with h1 h2
    exact h1.symm
  subst hl
  injection hp' with hp'
  subst hp'
  have : ∀ e < 8, ∀ k, exLSurf.opp 0 e = .ok (some (0, k)) → k = [5, 3, 7, 1, 6, 0, 4, 2].getD e 0 := by
    intro e he k hk
    unfold exLSurf at hk
    dsimp only at hk
    rw [if_pos ⟨rfl, he⟩] at hk
    injection hk with hk
    injection hk with hk
    injection hk with h1 h2
    exact h2.symm
  rw [this e he e' ho]
  clear ho this
  revert e
  decide +kernel

/-- The trajectory from the first of these tangent vectors is closed after four segments; its coding and its cylinder. -/
def exClosed : Except Err (Traj ℕ ℚ) := do exLSurf.flowSteps 10 (← exLSurf.trajectory ⟨0, (1 / 2, 1 / 4), (1, 1), .interior⟩)

example : exClosed.toOption.map (fun y => y.segments.map (fun s => (s.start.point, s.stop.point))) =
      some [((1 / 4, 0), (5 / 4, 1)), ((5 / 4, 0), (2, 3 / 4)), ((0, 3 / 4), (1, 7 / 4)), ((0, 7 / 4), (1 / 4, 2))] ∧
    exClosed.toOption.map Traj.isClosed = some true ∧
    (exClosed >>= exLSurf.coding).toOption = some [(0, 0), (0, 3), (0, 2), (0, 4)] ∧
    (exClosed >>= exLSurf.cylinderWord).toOption = some (0, [3, 2, 4, 5]) := by decide +kernel

/-- The trajectory of `C67_cylinder` exists. -/
example : ∃ x, exLSurf.IsTraj (fun l => l = 0) x ∧ x.isClosed = true := by
  obtain ⟨x, s, h1, -, -, h2⟩ := C67_trajectory exLSurf_closed exLSurf_tangent.1
  obtain ⟨y, l, h3, h4, -⟩ := C67_flow_forward exLSurf_closed 10 h2
  refine ⟨y, h4, ?_⟩
  have : (exLSurf.trajectory ⟨0, (1 / 2, 1 / 4), (1, 1), .interior⟩ >>= exLSurf.flowForward 10).toOption.map Traj.isClosed = some true := by decide +kernel
  rw [h1] at this
  simp only [bind, Except.bind, h3] at this
  injection this

/-- From the reflex vertex to a vertex: a saddle connection with two segments. -/
def exSaddle : Except Err (Traj ℕ ℚ) := do exLSurf.flowSteps 10 (← exLSurf.trajectory ⟨0, (1, 1), (-2, 1), .vertex 4⟩)

example : exSaddle.toOption.map (fun y => y.segments.map (fun s => (s.start.point, s.stop.point))) =
      some [((1, 1), (0, 3 / 2)), ((1, 3 / 2), (0, 2))] ∧
    exSaddle.toOption.map (fun y => (y.isSaddleConnection, y.isClosed)) = some (true, false) ∧
    (exSaddle >>= exLSurf.coding).toOption = some [(0, 6)] := by decide +kernel

/-- **C67.** `previous()` fails for segments that end at a vertex, though there is a segment before them. -/
theorem C67_previous_violation : ∃ s s' : Seg ℕ ℚ, exLSurf.IsSeg (fun l => l = 0) s ∧ exLSurf.segNext s = .ok s' ∧ s'.start.singular = false ∧
    exLSurf.segPrevious s' = .error .valueError := by
  have ht : exLSurf.IsTangent (fun l => l = 0) ⟨0, (1, 1), (-2, 1), .vertex 4⟩ := exLSurf_tangent.2
  obtain ⟨s, h1, h2, -⟩ := C67_segment exLSurf_closed ht
  have h3 : exLSurf.segment ⟨0, (1, 1), (-2, 1), .vertex 4⟩ = .ok ⟨⟨0, (1, 1), (-2, 1), .vertex 4⟩, ⟨0, (0, 3 / 2), (2, -1), .edgeInterior 6⟩⟩ := by decide +kernel
  rw [h1] at h3
  injection h3 with h3
  rw [h3] at h2
  refine ⟨_, ⟨⟨0, (1, 3 / 2), (-2, 1), .edgeInterior 4⟩, ⟨0, (0, 2), (2, -1), .vertex 6⟩⟩, h2, ?_, ?_, ?_⟩ <;> decide +kernel

/-- `C67_previous_partial` applies to segments that do not end at a vertex. -/
example : ∃ s s' : Seg ℕ ℚ, exLSurf.IsSeg (fun l => l = 0) s ∧ exLSurf.segNext s = .ok s' ∧ s'.stop.singular = false := by
  obtain ⟨s, h1, h2, -⟩ := C67_segment exLSurf_closed exLSurf_tangent.1
  have h3 : exLSurf.segment ⟨0, (1 / 2, 1 / 4), (1, 1), .interior⟩ = .ok ⟨⟨0, (1 / 4, 0), (1, 1), .edgeInterior 0⟩, ⟨0, (5 / 4, 1), (-1, -1), .edgeInterior 3⟩⟩ := by decide +kernel
  rw [h1] at h3
  injection h3 with h3
  rw [h3] at h2
  refine ⟨_, ⟨⟨0, (5 / 4, 0), (1, 1), .edgeInterior 1⟩, ⟨0, (2, 3 / 4), (-1, -1), .edgeInterior 2⟩⟩, h2, ?_, ?_⟩ <;> decide +kernel

/-- A segment along an edge ends on the opposite edge. -/
example : exLSurf.segment ⟨0, (1 / 2, 0), (3, 0), .edgeInterior 0⟩ = .ok ⟨⟨0, (0, 0), (3, 0), .vertex 0⟩, ⟨0, (1, 2), (-3, 0), .vertex 5⟩⟩ := by decide +kernel

end RSurf
end Flat
