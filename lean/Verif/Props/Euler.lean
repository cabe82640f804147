import Verif.Lemmas.UnionFind
import Verif.Lemmas.Orbits
import Verif.Props.SurfacePoint
import Mathlib.Algebra.BigOperators.Fin
import Mathlib.Algebra.Order.BigOperators.Group.Finset

/-!
# C32: Euler characteristic and genus
-/

namespace Flat
namespace RSurf
variable {L K : Type} [Field K] [LinearOrder K] [IsStrictOrderedRing K] {S : RSurf L K} {valid : L → Prop}

theorem edgesAt_ok {l : L} {p : Poly K} (hp : S.polygon l = .ok p) : S.edgesAt l = .ok ((List.range p.length).map (fun e => (l, e))) := by
  unfold edgesAt
  simp only [hp, bind, Except.bind, pure, Except.pure]

/-- The edges of a finite surface. -/
theorem edges_spec (hS : S.Bordered valid) (ls : List L) (hls : ls.Nodup) (hval : ∀ l ∈ ls, valid l) :
    ∃ es, S.edges ls = .ok es ∧ es.Nodup ∧ ∀ d : L × ℕ, d ∈ es ↔ d.1 ∈ ls ∧ S.IsDart valid d := by
  suffices h : ∃ ess : List (List (L × ℕ)), ls.mapM S.edgesAt = .ok ess ∧ ess.flatten.Nodup ∧
      ∀ d : L × ℕ, d ∈ ess.flatten ↔ d.1 ∈ ls ∧ S.IsDart valid d by
    obtain ⟨ess, h1, h2⟩ := h
    exact ⟨ess.flatten, by unfold edges; simp only [h1, bind, Except.bind, pure, Except.pure], h2⟩
  induction ls with
  | nil => exact ⟨[], rfl, by simp, by simp⟩
  | cons l ls ih =>
    obtain ⟨hl, hls'⟩ := List.nodup_cons.1 hls
    obtain ⟨ess, h1, h2, h3⟩ := ih hls' (fun l hl => hval l (List.mem_cons_of_mem _ hl))
    obtain ⟨p, hp, hv⟩ := hS.poly l (hval l List.mem_cons_self)
    refine ⟨(List.range p.length).map (fun e => (l, e)) :: ess,
      (mapM_ok_iff _ _ _).2 (.cons (edgesAt_ok hp) ((mapM_ok_iff _ _ _).1 h1)), ?_, ?_⟩
    · rw [List.flatten_cons, List.nodup_append]
      refine ⟨List.nodup_range.map (fun a b h => congrArg Prod.snd h), h2, ?_⟩
      rintro a ha b hb rfl
      obtain ⟨e, -, rfl⟩ := List.mem_map.1 ha
      exact hl ((h3 _).1 hb).1
    · intro d
      rw [List.flatten_cons, List.mem_append, h3]
      constructor
      · rintro (h | h)
        · obtain ⟨e, he, rfl⟩ := List.mem_map.1 h
          exact ⟨List.mem_cons_self, hval l List.mem_cons_self, p, hp, List.mem_range.1 he⟩
        · exact ⟨List.mem_cons_of_mem _ h.1, h.2⟩
      · rintro ⟨h, h'⟩
        rcases List.mem_cons.1 h with h | h
        · left
          obtain ⟨-, q, hq, he⟩ := h'
          rw [h, hp] at hq; injection hq with hq; subst hq
          exact List.mem_map.2 ⟨d.2, List.mem_range.2 he, by rw [← h]⟩
        · exact .inr ⟨h, h'⟩

/-- The vertices of the surface: edges that start at the same vertex. -/
def vertexSetoid (S : RSurf L K) (valid : L → Prop) : Setoid {d // S.IsDart valid d} where
  r a b := S.SameVertex valid a.1 b.1
  iseqv := ⟨fun _ => .refl _, fun h => .symm _ _ h, fun h h' => .trans _ _ _ h h'⟩

theorem Bordered.opp_ok (hS : S.Bordered valid) {d : L × ℕ} (hd : S.IsDart valid d) :
    S.opp d.1 d.2 = .ok none ∨ ∃ c, S.opp d.1 d.2 = .ok (some c) ∧ S.IsDart valid c ∧ S.opp c.1 c.2 = .ok (some d) := by
  obtain ⟨hl, p, hp, he⟩ := hd
  rcases hS.glue d.1 p d.2 hl hp he with h | ⟨l', e', p', h, hl', hp', he', hb⟩
  · exact .inl h
  · exact .inr ⟨(l', e'), h, ⟨hl', p', hp', he'⟩, hb⟩

theorem Bordered.opp_symm (hS : S.Bordered valid) {d c : L × ℕ} (hd : S.IsDart valid d) (h : S.opp d.1 d.2 = .ok (some c)) :
    S.IsDart valid c ∧ S.opp c.1 c.2 = .ok (some d) := by
  rcases hS.opp_ok hd with h' | ⟨c', h', h''⟩
  · rw [h'] at h; cases h
  · rw [h'] at h; injection h with h; injection h with h; subst h; exact h''

/-- The edges of the surface: edges of polygons up to gluing. -/
def edgeSetoid (hS : S.Bordered valid) : Setoid {d // S.IsDart valid d} where
  r a b := a = b ∨ S.opp a.1.1 a.1.2 = .ok (some b.1)
  iseqv := ⟨fun _ => .inl rfl, by
    rintro a b (rfl | h)
    · exact .inl rfl
    · exact .inr (hS.opp_symm a.2 h).2, by
    rintro a b c (rfl | h) (rfl | h')
    · exact .inl rfl
    · exact .inr h'
    · exact .inr h
    · left
      have := (hS.opp_symm a.2 h).2
      rw [h'] at this
      injection this with this; injection this with this
      exact (Subtype.ext this).symm⟩

/-- The number of edges that are glued to themselves. -/
noncomputable def selfGlued (S : RSurf L K) (valid : L → Prop) : ℕ := Nat.card {d // S.IsDart valid d ∧ S.opp d.1 d.2 = .ok (some d)}

theorem reach_id {D : Type} [DecidableEq D] {j : ℕ} {x r : D} (h : Reach (id : D → D) j x r) : x = r := (h.of_root rfl).symm

section
variable [DecidableEq L]

/-- The relation built by the union-find structure. -/
theorem union_sameVertex (hS : S.Bordered valid) {es : List (L × ℕ)} (hes : ∀ d, d ∈ es ↔ S.IsDart valid d) (x y : L × ℕ) :
    Relation.EqvGen (fun a b => SameRoot (id : L × ℕ → L × ℕ) a b ∨ a ∈ es ∧ S.rotateCcw a = .ok (some b)) x y ↔ S.SameVertex valid x y := by
  constructor
  · intro h
    induction h with
    | rel a b h =>
      rcases h with ⟨_, _, r, h1, h2⟩ | ⟨ha, h⟩
      · rw [reach_id h1, reach_id h2]; exact .refl _
      · have ha := (hes a).1 ha
        have hb := hS.ccw_valid ha h
        exact .symm _ _ (.rel _ _ ⟨hb, ha, (hS.cw_ccw hb ha).2 h⟩)
    | refl => exact .refl _
    | symm _ _ _ ih => exact .symm _ _ ih
    | trans _ _ _ _ _ ih1 ih2 => exact .trans _ _ _ ih1 ih2
  · intro h
    induction h with
    | rel a b h => exact .symm _ _ (.rel _ _ (.inr ⟨(hes b).2 h.2.1, (hS.cw_ccw h.1 h.2.1).1 h.2.2⟩))
    | refl => exact .refl _
    | symm _ _ _ ih => exact .symm _ _ ih
    | trans _ _ _ _ _ ih1 ih2 => exact .trans _ _ _ ih1 ih2

/-- The number of vertices. -/
theorem vertices_count (hS : S.Bordered valid) {es : List (L × ℕ)} (hes : ∀ d, d ∈ es ↔ S.IsDart valid d) {fuel : ℕ}
    (hf : es.length < fuel) : ∃ uf rs uf', es.foldlM (unionStep S.rotateCcw fuel) id = .ok uf ∧
      es.foldlM (rootsStep fuel) (∅, uf) = .ok (rs, uf') ∧ rs.card = Nat.card (Quotient (S.vertexSetoid valid)) := by
  obtain ⟨uf, h1, h2, h3⟩ := unionLoop_spec (cross := S.rotateCcw) fuel es (fun d hd e he => by
    obtain ⟨o, ho, -⟩ := hS.rotateCcw_ok ((hes d).1 hd)
    rw [ho] at he; cases he) id 0 (fun x => ⟨x, .root rfl⟩) (by omega)
  obtain ⟨rs, uf', h4, h5⟩ := rootsLoop_spec fuel es uf (0 + es.length) ∅ h2 (by omega)
  refine ⟨uf, rs, uf', h1, h4, ?_⟩
  choose F hF using h2
  refine (card_quotient _ (fun d : {d // S.IsDart valid d} => F d.1) ?_ rs ?_).symm
  · intro x y
    change S.SameVertex valid x.1 y.1 ↔ _
    rw [← union_sameVertex hS hes, ← h3]
    constructor
    · rintro ⟨j, k, r, hx, hy⟩
      rw [(hF x.1).unique hx, (hF y.1).unique hy]
    · intro h
      exact ⟨_, _, _, hF x.1, by rw [h]; exact hF y.1⟩
  · intro r
    rw [h5]
    constructor
    · rintro (h | ⟨d, hd, h⟩)
      · simp at h
      · exact ⟨⟨d, (hes d).1 hd⟩, (hF d).unique h⟩
    · rintro ⟨d, rfl⟩
      exact .inr ⟨d.1, (hes _).2 d.2, hF d.1⟩

/-- How an edge of a polygon contributes to the number of edges. -/
def weight (S : RSurf L K) (d : L × ℕ) : ℚ :=
  match S.opp d.1 d.2 with
  | .ok (some c) => if c = d then 1 else 1 / 2
  | _ => 1

/-- How an edge of a polygon contributes to the number of vertices. -/
def selfWeight (S : RSurf L K) (d : L × ℕ) : ℤ := if S.opp d.1 d.2 = .ok (some d) then 1 else 0

theorem countLoop (hS : S.Bordered valid) (es : List (L × ℕ)) (hes : ∀ d ∈ es, S.IsDart valid d) : ∀ (E : ℚ) (V : ℤ),
    es.foldlM (countStep (fun d => S.opp d.1 d.2)) (E, V) = .ok (E + (es.map S.weight).sum, V + (es.map S.selfWeight).sum) := by
  induction es with
  | nil => intro E V; simp [pure, Except.pure]
  | cons d es ih =>
    intro E V
    have hstep : countStep (fun d => S.opp d.1 d.2) (E, V) d = .ok (E + S.weight d, V + S.selfWeight d) := by
      unfold countStep weight selfWeight
      rcases hS.opp_ok (hes d List.mem_cons_self) with h | ⟨c, h, -⟩
      · simp [h, bind, Except.bind, pure, Except.pure]
      · simp only [h, bind, Except.bind, pure, Except.pure]
        by_cases hc : c = d
        · simp [hc]
        · simp [hc]
    rw [List.foldlM_cons, hstep]
    change es.foldlM _ _ = _
    rw [ih (fun d hd => hes d (List.mem_cons_of_mem _ hd))]
    simp [add_assoc]

/-- The edges of polygons that make up an edge of the surface. -/
def edgeClass (S : RSurf L K) (d : L × ℕ) : Finset (L × ℕ) :=
  match S.opp d.1 d.2 with
  | .ok (some c) => {d, c}
  | _ => {d}

theorem edgeClass_eq_iff (hS : S.Bordered valid) {a b : L × ℕ} (ha : S.IsDart valid a) (hb : S.IsDart valid b) :
    S.edgeClass a = S.edgeClass b ↔ a = b ∨ S.opp a.1 a.2 = .ok (some b) := by
  have hmem : ∀ a, a ∈ S.edgeClass a := by intro a; unfold edgeClass; split <;> simp
  constructor
  · intro h
    have h1 : b ∈ S.edgeClass a := h ▸ hmem b
    unfold edgeClass at h1
    rcases hS.opp_ok ha with h | ⟨c, h, -⟩
    · rw [h] at h1; exact .inl (Finset.mem_singleton.1 h1).symm
    · rw [h] at h1
      rcases Finset.mem_insert.1 h1 with h1 | h1
      · exact .inl h1.symm
      · rw [Finset.mem_singleton.1 h1]; exact .inr h
  · rintro (rfl | h)
    · rfl
    · have := (hS.opp_symm ha h).2
      unfold edgeClass
      rw [h, this]
      exact Finset.pair_comm _ _

/-- The number of edges. -/
theorem edges_count (hS : S.Bordered valid) {es : List (L × ℕ)} (hn : es.Nodup) (hes : ∀ d, d ∈ es ↔ S.IsDart valid d) :
    (es.map S.weight).sum = Nat.card (Quotient (edgeSetoid hS)) := by
  have hc : Nat.card (Quotient (edgeSetoid hS)) = (es.toFinset.image S.edgeClass).card := by
    refine card_quotient _ (fun d => S.edgeClass d.1) ?_ _ ?_
    · intro x y
      rw [edgeClass_eq_iff hS x.2 y.2, ← Subtype.ext_iff]
      rfl
    · intro b
      rw [Finset.mem_image]
      constructor
      · rintro ⟨d, hd, rfl⟩
        exact ⟨⟨d, (hes d).1 (List.mem_toFinset.1 hd)⟩, rfl⟩
      · rintro ⟨d, rfl⟩
        exact ⟨d.1, List.mem_toFinset.2 ((hes _).2 d.2), rfl⟩
  rw [hc, ← List.sum_toFinset _ hn, ← Finset.sum_fiberwise_of_maps_to (g := S.edgeClass) (t := es.toFinset.image S.edgeClass)
    (fun d hd => Finset.mem_image_of_mem _ hd), Finset.card_eq_sum_ones]
  push_cast
  refine Finset.sum_congr rfl ?_
  intro c hc
  obtain ⟨d, hd, rfl⟩ := Finset.mem_image.1 hc
  have hd' := (hes d).1 (List.mem_toFinset.1 hd)
  have hfib : es.toFinset.filter (fun i => S.edgeClass i = S.edgeClass d) = S.edgeClass d := by
    ext i
    rw [Finset.mem_filter, List.mem_toFinset, hes]
    constructor
    · rintro ⟨hi, h⟩
      rw [← h]; unfold edgeClass; split <;> simp
    · intro h
      have hi : S.IsDart valid i ∧ (d = i ∨ S.opp d.1 d.2 = .ok (some i)) := by
        unfold edgeClass at h
        rcases hS.opp_ok hd' with h' | ⟨c, h', hc, -⟩
        · rw [h'] at h
          rw [Finset.mem_singleton.1 h]; exact ⟨hd', .inl rfl⟩
        · rw [h'] at h
          rcases Finset.mem_insert.1 h with h | h
          · rw [h]; exact ⟨hd', .inl rfl⟩
          · rw [Finset.mem_singleton.1 h]; exact ⟨hc, .inr h'⟩
      exact ⟨hi.1, ((edgeClass_eq_iff hS hd' hi.1).2 hi.2).symm⟩
  rw [hfib]
  unfold edgeClass
  rcases hS.opp_ok hd' with h | ⟨c, h, hc, hb⟩
  · rw [h]; simp [weight, h]
  · rw [h]
    dsimp only
    by_cases hcd : c = d
    · subst hcd
      simp [weight, h]
    · rw [Finset.sum_pair (Ne.symm hcd)]
      simp [weight, h, hb, hcd, Ne.symm hcd]
      norm_num

theorem self_count {es : List (L × ℕ)} (hn : es.Nodup) (hes : ∀ d, d ∈ es ↔ S.IsDart valid d) :
    (es.map S.selfWeight).sum = S.selfGlued valid := by
  rw [← List.sum_toFinset _ hn]
  unfold selfWeight
  rw [Finset.sum_boole]
  unfold selfGlued
  rw [Nat.subtype_card (es.toFinset.filter (fun d => S.opp d.1 d.2 = .ok (some d))) (by simp [hes])]

/-- **C32.** `euler_characteristic()` of a finite surface, possibly with boundary: vertices (classes of edges that start at the same
vertex, and the midpoints of edges that are glued to themselves) minus edges (up to gluing) plus polygons. -/
theorem C32_euler_characteristic (hS : S.Bordered valid) {ls : List L} (hn : ls.Nodup) (hls : ∀ l, l ∈ ls ↔ valid l) {es : List (L × ℕ)}
    (he : S.edges ls = .ok es) {fuel : ℕ} (hf : es.length < fuel) :
    S.eulerCharacteristic fuel ls = .ok ((Nat.card (Quotient (S.vertexSetoid valid)) + S.selfGlued valid : ℤ) -
      Nat.card (Quotient (edgeSetoid hS)) + ls.length) := by
  obtain ⟨es', he', hnd, hmem⟩ := edges_spec hS ls hn (fun l hl => (hls l).1 hl)
  rw [he] at he'; injection he' with he'; subst he'
  have hes : ∀ d, d ∈ es ↔ S.IsDart valid d := fun d => by
    rw [hmem]
    exact ⟨fun h => h.2, fun h => ⟨(hls _).2 h.1, h⟩⟩
  obtain ⟨uf, rs, uf', h1, h2, h3⟩ := vertices_count hS hes hf
  unfold eulerCharacteristic
  simp only [he, bind, Except.bind, h1, h2, countLoop hS es (fun d hd => (hes d).1 hd), edges_count hS hnd hes, self_count hnd hes, zero_add,
    h3, Rat.den_natCast, ne_eq, not_true_eq_false, if_false, Rat.num_natCast, pure, Except.pure]

/-- The edges of a finite surface are finitely many. -/
theorem dart_finite {es : List (L × ℕ)} (hes : ∀ d, d ∈ es ↔ S.IsDart valid d) : Finite {d // S.IsDart valid d} :=
  Set.Finite.subset (List.finite_toSet es) (fun d hd => (hes d).2 hd)

end

section

/-- The number of vertices of a polygon. -/
def sides (S : RSurf L K) (l : L) : ℕ :=
  match S.polygon l with
  | .ok p => p.length
  | .error _ => 0

theorem sides_eq {l : L} {p : Poly K} (hp : S.polygon l = .ok p) : S.sides l = p.length := by unfold sides; rw [hp]

theorem isDart_iff (hS : S.Bordered valid) (d : L × ℕ) : S.IsDart valid d ↔ valid d.1 ∧ d.2 < S.sides d.1 := by
  constructor
  · rintro ⟨hl, p, hp, he⟩; exact ⟨hl, by rw [sides_eq hp]; exact he⟩
  · rintro ⟨hl, he⟩
    obtain ⟨p, hp, -⟩ := hS.poly _ hl
    exact ⟨hl, p, hp, by rw [sides_eq hp] at he; exact he⟩

/-- The next edge of a polygon. -/
def nextPerm (hS : S.Bordered valid) : Equiv.Perm {d // S.IsDart valid d} where
  toFun d := ⟨(d.1.1, (d.1.2 + 1) % S.sides d.1.1), by
    have h := (isDart_iff hS _).1 d.2
    exact (isDart_iff hS _).2 ⟨h.1, Nat.mod_lt _ (by omega)⟩⟩
  invFun d := ⟨(d.1.1, (d.1.2 + (S.sides d.1.1 - 1)) % S.sides d.1.1), by
    have h := (isDart_iff hS _).1 d.2
    exact (isDart_iff hS _).2 ⟨h.1, Nat.mod_lt _ (by omega)⟩⟩
  left_inv d := by
    have h := (isDart_iff hS _).1 d.2
    exact Subtype.ext (Prod.ext rfl (prev_succ h.2))
  right_inv d := by
    have h := (isDart_iff hS _).1 d.2
    exact Subtype.ext (Prod.ext rfl (succ_prev h.2))

theorem Closed.opp_exists (hS : S.Closed valid) (d : {d // S.IsDart valid d}) : ∃ c : {d // S.IsDart valid d},
    S.opp d.1.1 d.1.2 = .ok (some c.1) ∧ S.opp c.1.1 c.1.2 = .ok (some d.1) := by
  obtain ⟨hl, p, hp, he⟩ := d.2
  obtain ⟨l', e', p', h, hl', hp', he', hb⟩ := hS.glue d.1.1 p d.1.2 hl hp he
  exact ⟨⟨(l', e'), hl', p', hp', he'⟩, h, hb⟩

/-- The opposite edge. -/
noncomputable def oppPerm (hS : S.Closed valid) : Equiv.Perm {d // S.IsDart valid d} :=
  Function.Involutive.toPerm (fun d => (hS.opp_exists d).choose) (fun d => by
    have h1 := (hS.opp_exists d).choose_spec.2
    have h2 := (hS.opp_exists (hS.opp_exists d).choose).choose_spec.1
    have h3 := h1.symm.trans h2
    injection h3 with h3; injection h3 with h3
    exact (Subtype.ext h3).symm)

theorem oppPerm_spec (hS : S.Closed valid) (d : {d // S.IsDart valid d}) : S.opp d.1.1 d.1.2 = .ok (some (oppPerm hS d).1) :=
  (hS.opp_exists d).choose_spec.1

theorem oppPerm_eq_iff (hS : S.Closed valid) (d c : {d // S.IsDart valid d}) : oppPerm hS d = c ↔ S.opp d.1.1 d.1.2 = .ok (some c.1) := by
  rw [oppPerm_spec hS]
  constructor
  · rintro rfl; rfl
  · intro h; injection h with h; injection h with h; exact Subtype.ext h

theorem oppPerm_invol (hS : S.Closed valid) (d : {d // S.IsDart valid d}) : oppPerm hS (oppPerm hS d) = d := by
  rw [oppPerm_eq_iff]
  exact (hS.bordered.opp_symm d.2 (oppPerm_spec hS d)).2

/-- Rotation about a vertex. -/
theorem step_perm (hS : S.Closed valid) (a b : {d // S.IsDart valid d}) :
    Step S.rotateCw a.1 b.1 ↔ (nextPerm hS.bordered * oppPerm hS) a = b := by
  rw [step_cw_iff, Equiv.Perm.mul_apply]
  have h := oppPerm_spec hS a
  obtain ⟨hl, p, hp, he⟩ := (oppPerm hS a).2
  constructor
  · rintro ⟨c, q, hc, hq, hb⟩
    rw [h] at hc; injection hc with hc; injection hc with hc; subst hc
    refine Subtype.ext ?_
    rw [hb]
    change (_, (_ + 1) % S.sides _) = _
    rw [sides_eq hq]
  · rintro rfl
    refine ⟨_, p, h, hp, ?_⟩
    change (_, (_ + 1) % S.sides _) = _
    rw [sides_eq hp]

theorem sameVertex_perm (hS : S.Closed valid) (a b : {d // S.IsDart valid d}) :
    S.SameVertex valid a.1 b.1 ↔ (nextPerm hS.bordered * oppPerm hS).SameCycle a b := by
  constructor
  · suffices h : ∀ x y, S.SameVertex valid x y → ∀ (hx : S.IsDart valid x) (hy : S.IsDart valid y),
        (nextPerm hS.bordered * oppPerm hS).SameCycle ⟨x, hx⟩ ⟨y, hy⟩ from fun h' => h _ _ h' a.2 b.2
    intro x y h
    induction h with
    | rel x y h =>
      intro hx hy
      have := (step_perm hS ⟨x, hx⟩ ⟨y, hy⟩).1 h.2.2
      exact ⟨1, by rw [zpow_one]; exact this⟩
    | refl x => intro _ _; exact Equiv.Perm.SameCycle.refl _ _
    | symm x y _ ih => intro hx hy; exact (ih hy hx).symm
    | trans x y z h1 _ ih1 ih2 =>
      intro hx hz
      have hy := (sameVertex_valid h1).1 hx
      exact (ih1 hx hy).trans (ih2 hy hz)
  · rintro ⟨i, hi⟩
    have hstep : ∀ a : {d // S.IsDart valid d}, S.SameVertex valid a.1 ((nextPerm hS.bordered * oppPerm hS) a).1 := fun a =>
      .rel _ _ ⟨a.2, Subtype.prop _, (step_perm hS _ _).2 rfl⟩
    have hnat : ∀ (n : ℕ) (a : {d // S.IsDart valid d}), S.SameVertex valid a.1 (((nextPerm hS.bordered * oppPerm hS) ^ n) a).1 := by
      intro n
      induction n with
      | zero => intro a; exact .refl _
      | succ n ih =>
        intro a
        rw [pow_succ, Equiv.Perm.mul_apply]
        exact .trans _ _ _ (hstep a) (ih _)
    obtain ⟨n, rfl | rfl⟩ := i.eq_nat_or_neg
    · rw [← hi, zpow_natCast]; exact hnat n a
    · have : ((nextPerm hS.bordered * oppPerm hS) ^ n) b = a := by
        rw [← hi, zpow_neg, zpow_natCast]; simp
      rw [← this]
      exact .symm _ _ (hnat n b)

theorem sameEdge_perm (hS : S.Closed valid) (a b : {d // S.IsDart valid d}) :
    (a = b ∨ S.opp a.1.1 a.1.2 = .ok (some b.1)) ↔ (oppPerm hS).SameCycle a b := by
  rw [← oppPerm_eq_iff hS]
  constructor
  · rintro (rfl | h)
    · exact Equiv.Perm.SameCycle.refl _ _
    · exact ⟨1, by rw [zpow_one]; exact h⟩
  · rintro ⟨i, hi⟩
    have h2 : (oppPerm hS) ^ 2 = 1 := by
      ext d : 1
      rw [pow_two, Equiv.Perm.mul_apply, oppPerm_invol]; rfl
    rcases Int.even_or_odd' i with ⟨k, rfl | rfl⟩
    · rw [zpow_mul, zpow_ofNat, h2, one_zpow] at hi
      exact .inl hi
    · rw [zpow_add, zpow_mul, zpow_ofNat, h2, one_zpow, one_mul, zpow_one] at hi
      exact .inr hi

theorem nextPerm_pow (hS : S.Bordered valid) (n : ℕ) (d : {d // S.IsDart valid d}) :
    ((nextPerm hS ^ n) d).1 = (d.1.1, (d.1.2 + n) % S.sides d.1.1) := by
  have h := (isDart_iff hS _).1 d.2
  induction n with
  | zero => simp [Nat.mod_eq_of_lt h.2]
  | succ n ih =>
    rw [pow_succ', Equiv.Perm.mul_apply]
    change (((nextPerm hS ^ n) d).1.1, (((nextPerm hS ^ n) d).1.2 + 1) % S.sides ((nextPerm hS ^ n) d).1.1) = _
    rw [ih]
    refine Prod.ext rfl ?_
    change ((d.1.2 + n) % S.sides d.1.1 + 1) % S.sides d.1.1 = _
    rw [Nat.mod_add_mod, add_assoc]

theorem samePolygon_perm (hS : S.Bordered valid) (a b : {d // S.IsDart valid d}) :
    (nextPerm hS).SameCycle a b ↔ a.1.1 = b.1.1 := by
  constructor
  · rintro ⟨i, hi⟩
    have hnat : ∀ (n : ℕ) (a : {d // S.IsDart valid d}), ((nextPerm hS ^ n) a).1.1 = a.1.1 := fun n a => by rw [nextPerm_pow]
    obtain ⟨n, rfl | rfl⟩ := i.eq_nat_or_neg
    · rw [← hi, zpow_natCast, hnat]
    · have : ((nextPerm hS) ^ n) b = a := by
        rw [← hi, zpow_neg, zpow_natCast]; simp
      rw [← this, hnat]
  · intro h
    have ha := (isDart_iff hS _).1 a.2
    have hb := (isDart_iff hS _).1 b.2
    refine ⟨((b.1.2 + (S.sides a.1.1 - a.1.2) : ℕ) : ℤ), ?_⟩
    rw [zpow_natCast]
    refine Subtype.ext ?_
    rw [nextPerm_pow]
    refine Prod.ext h ?_
    rw [← h] at hb
    change (a.1.2 + (b.1.2 + (S.sides a.1.1 - a.1.2))) % S.sides a.1.1 = b.1.2
    rw [show a.1.2 + (b.1.2 + (S.sides a.1.1 - a.1.2)) = b.1.2 + S.sides a.1.1 by omega, Nat.add_mod_right, Nat.mod_eq_of_lt hb.2]

variable [DecidableEq L]

/-- **C32.** The Euler characteristic of a closed surface is even, so the genus is an integer. -/
theorem C32_even (hS : S.Closed valid) {ls : List L} (hn : ls.Nodup) (hls : ∀ l, l ∈ ls ↔ valid l) {es : List (L × ℕ)}
    (he : S.edges ls = .ok es) {fuel : ℕ} (hf : es.length < fuel) :
    ∃ χ g : ℤ, S.eulerCharacteristic fuel ls = .ok χ ∧ χ = 2 - 2 * g ∧ S.genus fuel ls = .ok g := by
  obtain ⟨es', he', hnd, hmem⟩ := edges_spec hS.bordered ls hn (fun l hl => (hls l).1 hl)
  rw [he] at he'; injection he' with he'; subst he'
  have hes : ∀ d, d ∈ es ↔ S.IsDart valid d := fun d => by
    rw [hmem]
    exact ⟨fun h => h.2, fun h => ⟨(hls _).2 h.1, h⟩⟩
  have hχ := C32_euler_characteristic hS.bordered hn hls he hf
  haveI := dart_finite hes
  haveI := Fintype.ofFinite {d // S.IsDart valid d}
  have h1 := orbits_mul (nextPerm hS.bordered) (oppPerm hS)
  have hV : Nat.card (Quotient (S.vertexSetoid valid)) =
      Nat.card (Quotient (Equiv.Perm.SameCycle.setoid (nextPerm hS.bordered * oppPerm hS))) := by
    congr 2
    exact Setoid.ext (fun a b => sameVertex_perm hS a b)
  have hE : Nat.card (Quotient (edgeSetoid hS.bordered)) = Nat.card (Quotient (Equiv.Perm.SameCycle.setoid (oppPerm hS))) := by
    congr 2
    exact Setoid.ext (fun a b => sameEdge_perm hS a b)
  have hF : Nat.card (Quotient (Equiv.Perm.SameCycle.setoid (nextPerm hS.bordered))) = ls.length := by
    rw [card_quotient _ (fun d => d.1.1) (fun a b => samePolygon_perm hS.bordered a b) ls.toFinset, List.toFinset_card_of_nodup hn]
    intro l
    rw [List.mem_toFinset, hls]
    constructor
    · intro hl
      obtain ⟨p, hp, hv⟩ := hS.poly l hl
      have := hv.len3
      exact ⟨⟨(l, 0), hl, p, hp, by dsimp only; omega⟩, rfl⟩
    · rintro ⟨d, rfl⟩
      exact d.2.1
  have hfix : (Fintype.card {d // S.IsDart valid d} + S.selfGlued valid) = 2 * Nat.card (Quotient (edgeSetoid hS.bordered)) := by
    have h2 := edges_count hS.bordered hnd hes
    have h3 := self_count hnd hes
    have h4 : Fintype.card {d // S.IsDart valid d} = es.length := by
      rw [← Nat.card_eq_fintype_card, Nat.subtype_card es.toFinset (by simp [hes]), List.toFinset_card_of_nodup hnd]
    have h5 : ∀ xs : List (L × ℕ), (∀ d ∈ xs, S.IsDart valid d) →
        2 * (xs.map S.weight).sum = xs.length + ((xs.map S.selfWeight).sum : ℚ) := by
      intro xs
      induction xs with
      | nil => simp
      | cons d xs ih =>
        intro h
        have hd := h d List.mem_cons_self
        have := ih (fun d hd => h d (List.mem_cons_of_mem _ hd))
        simp only [List.map_cons, List.sum_cons, mul_add, this, List.length_cons]
        have hw : 2 * S.weight d = 1 + (S.selfWeight d : ℚ) := by
          unfold weight selfWeight
          rw [oppPerm_spec hS ⟨d, hd⟩]
          dsimp only
          by_cases hc : (oppPerm hS ⟨d, hd⟩).1 = d
          · rw [if_pos hc, if_pos (by rw [hc])]; norm_num
          · rw [if_neg hc, if_neg (by intro h; injection h with h; injection h with h; exact hc h)]; norm_num
        rw [hw]
        push_cast
        ring
    have h6 := h5 es (fun d hd => (hes d).1 hd)
    rw [h2, h3] at h6
    rw [h4]
    have : ((2 * Nat.card (Quotient (edgeSetoid hS.bordered)) : ℕ) : ℚ) = ((es.length + S.selfGlued valid : ℕ) : ℚ) := by
      push_cast
      exact h6
    exact_mod_cast this.symm
  rw [hV] at hχ
  rw [hF, ← hE] at h1
  obtain ⟨g, hg⟩ : ∃ g : ℤ, ((Nat.card (Quotient (Equiv.Perm.SameCycle.setoid (nextPerm hS.bordered * oppPerm hS))) : ℤ) + S.selfGlued valid) -
      Nat.card (Quotient (edgeSetoid hS.bordered)) + ls.length = 2 - 2 * g := by
    refine ⟨1 - (((Nat.card (Quotient (Equiv.Perm.SameCycle.setoid (nextPerm hS.bordered * oppPerm hS))) : ℤ) + S.selfGlued valid) -
      Nat.card (Quotient (edgeSetoid hS.bordered)) + ls.length) / 2, ?_⟩
    omega
  refine ⟨_, g, hχ, hg, ?_⟩
  unfold genus
  simp only [hχ, bind, Except.bind, pure, Except.pure]
  rw [hg]
  congr 1
  push_cast
  ring

end

/-- The torus has genus 1. -/
example : exTorus2.eulerCharacteristic 9 [false, true] = .ok 0 ∧ exTorus2.genus 9 [false, true] = .ok 1 := by decide +kernel

/-- A disk. -/
example : exFold.eulerCharacteristic 9 [()] = .ok 1 := by decide +kernel

end RSurf
end Flat
