import Verif.Props.Euler
import Mathlib.Algebra.Module.Pi
import Mathlib.Algebra.BigOperators.GroupWithZero.Action

/-!
# C39: the chain complex of a surface
-/

namespace Flat
namespace RSurf
variable {L K : Type} [Field K] [LinearOrder K] [IsStrictOrderedRing K] {S : RSurf L K} {valid : L → Prop}

/-- The opposite edge; arbitrary where there is none. -/
def oppF (S : RSurf L K) (d : L × ℕ) : L × ℕ :=
  match S.opp d.1 d.2 with
  | .ok (some c) => c
  | _ => d

theorem Closed.opp_oppF (hS : S.Closed valid) {d : L × ℕ} (hd : S.IsDart valid d) : S.opp d.1 d.2 = .ok (some (S.oppF d)) := by
  unfold oppF
  rw [oppPerm_spec hS ⟨d, hd⟩]

theorem Closed.opp!_oppF (hS : S.Closed valid) {d : L × ℕ} (hd : S.IsDart valid d) : S.opp! d.1 d.2 = .ok (S.oppF d) :=
  opp!_ok (hS.opp_oppF hd)

theorem Closed.oppF_dart (hS : S.Closed valid) {d : L × ℕ} (hd : S.IsDart valid d) : S.IsDart valid (S.oppF d) :=
  (hS.bordered.opp_symm hd (hS.opp_oppF hd)).1

theorem Closed.oppF_oppF (hS : S.Closed valid) {d : L × ℕ} (hd : S.IsDart valid d) : S.oppF (S.oppF d) = d := by
  have h := (hS.bordered.opp_symm hd (hS.opp_oppF hd)).2
  rw [hS.opp_oppF (hS.oppF_dart hd)] at h
  injection h with h
  injection h

/-- The next edge of the polygon. -/
def nextF (S : RSurf L K) (d : L × ℕ) : L × ℕ := (d.1, (d.2 + 1) % S.sides d.1)

/-- The other edge at the end of an edge starts where the next edge starts. -/
theorem Closed.sameVertex_next (hS : S.Closed valid) {d : L × ℕ} (hd : S.IsDart valid d) : S.SameVertex valid (S.oppF d) (S.nextF d) := by
  obtain ⟨hl, p, hp, he⟩ := id hd
  have ho := hS.oppF_dart hd
  have h : Step S.rotateCw (S.oppF d) (S.nextF d) := by
    rw [step_cw_iff]
    refine ⟨d, p, ?_, hp, ?_⟩
    · rw [hS.opp_oppF ho, hS.oppF_oppF hd]
    · unfold nextF; rw [sides_eq hp]
  exact .rel _ _ ⟨ho, hS.bordered.cw_valid ho h, h⟩

section
variable [DecidableEq L]

/-- The chosen edges: of each pair of glued edges at least one, and not both unless they agree. -/
theorem pickEdges_spec (hS : S.Closed valid) (ds : List (L × ℕ)) : ∀ acc : List (L × ℕ), acc.Nodup → (∀ d ∈ acc, S.IsDart valid d) →
    (∀ d ∈ ds, S.IsDart valid d) → (∀ d ∈ acc, S.oppF d ∈ acc → S.oppF d = d) →
    ∃ r, S.pickEdges acc ds = .ok r ∧ r.Nodup ∧ (∀ d ∈ r, S.IsDart valid d) ∧ (∀ d ∈ acc, d ∈ r) ∧
      (∀ d ∈ ds, d ∈ r ∨ S.oppF d ∈ r) ∧ (∀ d ∈ r, S.oppF d ∈ r → S.oppF d = d) := by
  induction ds with
  | nil => exact fun acc hn ha _ ho => ⟨acc, rfl, hn, ha, fun _ h => h, by simp, ho⟩
  | cons d ds ih =>
    intro acc hn ha hd ho
    have hdd := hd d List.mem_cons_self
    have h0 : S.pickEdges acc (d :: ds) = S.pickEdges (if S.oppF d ∈ acc then acc else if d ∈ acc then acc else acc ++ [d]) ds := by
      rw [pickEdges, hS.opp_oppF hdd]
      rfl
    rw [h0]
    split_ifs with h1 h2
    · obtain ⟨r, k1, k2, k3, k4, k5, k6⟩ := ih acc hn ha (fun d h => hd d (List.mem_cons_of_mem _ h)) ho
      refine ⟨r, k1, k2, k3, k4, ?_, k6⟩
      intro e he
      rcases List.mem_cons.1 he with rfl | he
      · exact .inr (k4 _ h1)
      · exact k5 e he
    · obtain ⟨r, k1, k2, k3, k4, k5, k6⟩ := ih acc hn ha (fun d h => hd d (List.mem_cons_of_mem _ h)) ho
      refine ⟨r, k1, k2, k3, k4, ?_, k6⟩
      intro e he
      rcases List.mem_cons.1 he with rfl | he
      · exact .inl (k4 _ h2)
      · exact k5 e he
    · obtain ⟨r, k1, k2, k3, k4, k5, k6⟩ := ih (acc ++ [d]) (by
          rw [List.nodup_append]
          exact ⟨hn, by simp, by rintro a ha b hb rfl; rw [List.mem_singleton.1 hb] at ha; exact h2 ha⟩)
        (by intro e he; rcases List.mem_append.1 he with he | he
            · exact ha e he
            · rw [List.mem_singleton.1 he]; exact hdd)
        (fun d h => hd d (List.mem_cons_of_mem _ h)) (by
          intro e he hoe
          rcases List.mem_append.1 he with he | he
          · rcases List.mem_append.1 hoe with hoe | hoe
            · exact ho e he hoe
            · rw [List.mem_singleton] at hoe
              have := hS.oppF_oppF (ha e he)
              rw [hoe] at this
              rw [this] at h1
              exact absurd he h1
          · rw [List.mem_singleton] at he
            subst he
            rcases List.mem_append.1 hoe with hoe | hoe
            · exact absurd hoe h1
            · exact List.mem_singleton.1 hoe)
      refine ⟨r, k1, k2, k3, fun e he => k4 e (List.mem_append_left _ he), ?_, k6⟩
      intro e he
      rcases List.mem_cons.1 he with rfl | he
      · exact .inl (k4 _ (by simp))
      · exact k5 e he

/-- The simplices of degree 1: of each edge of the surface exactly one of the edges of polygons it consists of. -/
theorem simplices1_spec (hS : S.Closed valid) {ls : List L} (hn : ls.Nodup) (hls : ∀ l, l ∈ ls ↔ valid l) :
    ∃ sx, S.simplices1 ls = .ok sx ∧ sx.Nodup ∧ (∀ d ∈ sx, S.IsDart valid d) ∧
      (∀ d, S.IsDart valid d → d ∈ sx ∨ S.oppF d ∈ sx) ∧ (∀ d ∈ sx, S.oppF d ∈ sx → S.oppF d = d) := by
  obtain ⟨es, he, hnd, hmem⟩ := edges_spec hS.bordered ls hn (fun l hl => (hls l).1 hl)
  obtain ⟨r, k1, k2, k3, k4, k5, k6⟩ := pickEdges_spec hS es [] List.nodup_nil (by simp) (fun d hd => ((hmem d).1 hd).2) (by simp)
  refine ⟨r, ?_, k2, k3, fun d hd => k5 d ((hmem d).2 ⟨(hls _).2 hd.1, hd⟩), k6⟩
  unfold simplices1
  simp only [he, bind, Except.bind, k1]

theorem surfaceVertex_defined (hS : S.Bordered valid) {ds : List (L × ℕ)} (hds : ∀ d, S.IsDart valid d → d ∈ ds) {fuel : ℕ}
    (hf : ds.length + 1 < fuel) {d : L × ℕ} (hd : S.IsDart valid d) : ∃ x, S.surfaceVertex fuel d = .ok x := by
  obtain ⟨hl, p, hp, he⟩ := id hd
  unfold surfaceVertex
  rw [startPt_ok hp]
  exact (C33_defined hS hds (x := (d.1, p.vertex d.2)) hl hp hf).2 (by
    rw [(Poly.C12_vertex (hS.valid_of_polygon hl hp) _ d.2).2 ⟨he, rfl⟩]; simp)

/-- The vertices of two edges agree exactly if they start at the same vertex. -/
theorem surfaceVertex_eq_iff (hS : S.Bordered valid) {fuel : ℕ} {a b : L × ℕ} (ha : S.IsDart valid a) (hb : S.IsDart valid b)
    {x y : Finset (L × Vec K)} (hx : S.surfaceVertex fuel a = .ok x) (hy : S.surfaceVertex fuel b = .ok y) :
    x = y ↔ S.SameVertex valid a b := by
  obtain ⟨hla, p, hp, hea⟩ := id ha
  obtain ⟨hlb, q, hq, heb⟩ := id hb
  unfold surfaceVertex at hx hy
  rw [startPt_ok hp] at hx
  rw [startPt_ok hq] at hy
  have hx : S.surfacePoint fuel (a.1, p.vertex a.2) = .ok x := hx
  have hy : S.surfacePoint fuel (b.1, q.vertex b.2) = .ok y := hy
  constructor
  · intro hxy
    have hmem : (b.1, q.vertex b.2) ∈ x := by
      rw [hxy, C33_representatives hS (x := (b.1, q.vertex b.2)) hlb hy]
      exact .refl _
    -- the representatives of a vertex are the starts of its edges
    have hpos := (Poly.C12_vertex (hS.valid_of_polygon hla hp) (p.vertex a.2) a.2).2 ⟨hea, rfl⟩
    unfold surfacePoint at hx
    simp only [hp, bind, Except.bind, pure, Except.pure, hpos] at hx
    cases hds : S.vertexEdges fuel (a.1, a.2) with
    | error e => rw [hds] at hx; cases hx
    | ok ds =>
      rw [hds] at hx
      dsimp only at hx
      cases hxs : ds.mapM S.startPt with
      | error e => rw [hxs] at hx; cases hx
      | ok xs =>
        rw [hxs] at hx
        injection hx with hx
        rw [← hx, List.mem_toFinset] at hmem
        obtain ⟨d, hd, hdb⟩ := mapM_ok_mem hxs hmem
        have hsv := (vertexEdges_spec hS (d := a) ha hds d).1 hd
        obtain ⟨hld, r, hr, hlt⟩ := (sameVertex_valid hsv).1 ha
        rw [startPt_ok hr] at hdb
        injection hdb with hdb
        injection hdb with h1 h2
        have : d = b := by
          refine Prod.ext h1 ?_
          rw [h1, hq] at hr
          injection hr with hr
          subst hr
          have := (hS.valid_of_polygon hlb hq).vertex_inj h2
          rwa [Nat.mod_eq_of_lt hlt, Nat.mod_eq_of_lt heb] at this
        rw [← this]
        exact hsv
  · intro h
    exact (C33_eq_iff hS (x := (a.1, p.vertex a.2)) (y := (b.1, q.vertex b.2)) hla hlb hx hy).2
      (sameVertex_ident hS h (startPt_ok hp) (startPt_ok hq))

variable {R : Type} [CommRing R]

theorem toC0_add (rel : Finset (Finset (L × Vec K))) (x : Finset (L × Vec K)) (r r' : R) :
    toC0 rel x (r + r') = toC0 rel x r + toC0 rel x r' := by
  unfold toC0; split_ifs
  · simp
  · exact Pi.single_add _ _ _

theorem toC0_smul (rel : Finset (Finset (L × Vec K))) (x : Finset (L × Vec K)) (c r : R) :
    toC0 rel x (c * r) = c • toC0 rel x r := by
  unfold toC0; split_ifs
  · exact (smul_zero c).symm
  · funext y
    by_cases h : y = x
    · subst h; rw [Pi.single_eq_same, Pi.smul_apply, Pi.single_eq_same, smul_eq_mul]
    · rw [Pi.single_eq_of_ne h, Pi.smul_apply, Pi.single_eq_of_ne h, smul_zero]

theorem toC0_zero (rel : Finset (Finset (L × Vec K))) (x : Finset (L × Vec K)) : toC0 rel x (0 : R) = 0 := by
  unfold toC0; split_ifs
  · rfl
  · exact Pi.single_zero _

theorem toC0_neg (rel : Finset (Finset (L × Vec K))) (x : Finset (L × Vec K)) (r : R) : toC0 rel x (-r) = - toC0 rel x r := by
  unfold toC0; split_ifs
  · simp
  · exact Pi.single_neg _ _

/-- The boundary of an edge with a coefficient. -/
def edgeBoundary (S : RSurf L K) (rel : Finset (Finset (L × Vec K))) (V : L × ℕ → Finset (L × Vec K)) (d : L × ℕ) (r : R) :
    Finset (L × Vec K) → R := toC0 rel (V (S.oppF d)) r - toC0 rel (V d) r

/-- The boundary of a chain is the sum of the boundaries of its edges. -/
theorem boundary1_eq (hS : S.Closed valid) {fuel : ℕ} (rel : Finset (Finset (L × Vec K))) {V : L × ℕ → Finset (L × Vec K)}
    (hV : ∀ d, S.IsDart valid d → S.surfaceVertex fuel d = .ok (V d)) (chain : List ((L × ℕ) × R))
    (hc : ∀ x ∈ chain, S.IsDart valid x.1) :
    S.boundary1 fuel rel chain = .ok (chain.map (fun x => S.edgeBoundary rel V x.1 x.2)).sum := by
  induction chain with
  | nil => rfl
  | cons x chain ih =>
    have hx := hc x List.mem_cons_self
    rw [boundary1, hS.opp!_oppF hx]
    simp only [bind, Except.bind, hV _ hx, hV _ (hS.oppF_dart hx), ih (fun y hy => hc y (List.mem_cons_of_mem _ hy)), pure, Except.pure,
      List.map_cons, List.sum_cons]
    congr 1
    unfold edgeBoundary
    abel

theorem boundary1_items (hS : S.Closed valid) {fuel : ℕ} (rel : Finset (Finset (L × Vec K))) {V : L × ℕ → Finset (L × Vec K)}
    (hV : ∀ d, S.IsDart valid d → S.surfaceVertex fuel d = .ok (V d)) {sx : List (L × ℕ)} (hsx : ∀ d ∈ sx, S.IsDart valid d)
    (f : L × ℕ → R) : S.boundary1 fuel rel (items sx f) = .ok (sx.map (fun d => S.edgeBoundary rel V d (f d))).sum := by
  rw [boundary1_eq hS rel hV]
  · unfold items; rw [List.map_map]; rfl
  · intro x hx
    obtain ⟨d, hd, rfl⟩ := List.mem_map.1 hx
    exact hsx d hd

theorem sum_single {A : Type} [AddCommGroup A] {D : Type} [DecidableEq D] (sx : List D) (hn : sx.Nodup) (B : D → R → A) (h0 : ∀ d, B d 0 = 0)
    {d : D} (hd : d ∈ sx) (r : R) : (sx.map (fun x => B x ((Pi.single d r : D → R) x))).sum = B d r := by
  induction sx with
  | nil => cases hd
  | cons x sx ih =>
    obtain ⟨hx, hn'⟩ := List.nodup_cons.1 hn
    rw [List.map_cons, List.sum_cons]
    by_cases hxd : x = d
    · subst hxd
      rw [Pi.single_eq_same, List.sum_eq_zero, add_zero]
      intro y hy
      obtain ⟨e, he, rfl⟩ := List.mem_map.1 hy
      rw [Pi.single_eq_of_ne (by rintro rfl; exact hx he), h0]
    · rw [Pi.single_eq_of_ne hxd, h0, zero_add, ih hn' ((List.mem_cons.1 hd).resolve_left (Ne.symm hxd))]

theorem edgeBoundary_add (rel : Finset (Finset (L × Vec K))) (V : L × ℕ → Finset (L × Vec K)) (d : L × ℕ) (r r' : R) :
    S.edgeBoundary rel V d (r + r') = S.edgeBoundary rel V d r + S.edgeBoundary rel V d r' := by
  unfold edgeBoundary; rw [toC0_add, toC0_add]; abel

theorem edgeBoundary_zero (rel : Finset (Finset (L × Vec K))) (V : L × ℕ → Finset (L × Vec K)) (d : L × ℕ) :
    S.edgeBoundary rel V d (0 : R) = 0 := by
  unfold edgeBoundary; rw [toC0_zero, toC0_zero, sub_zero]

theorem edgeBoundary_neg (rel : Finset (Finset (L × Vec K))) (V : L × ℕ → Finset (L × Vec K)) (d : L × ℕ) (r : R) :
    S.edgeBoundary rel V d (-r) = - S.edgeBoundary rel V d r := by
  unfold edgeBoundary; rw [toC0_neg, toC0_neg]; abel

theorem edgeBoundary_smul (rel : Finset (Finset (L × Vec K))) (V : L × ℕ → Finset (L × Vec K)) (d : L × ℕ) (c r : R) :
    S.edgeBoundary rel V d (c * r) = c • S.edgeBoundary rel V d r := by
  unfold edgeBoundary; rw [toC0_smul, toC0_smul, smul_sub]

/-- The boundary of the boundary of a polygon. -/
theorem faceLoop_boundary (hS : S.Closed valid) {fuel : ℕ} (rel : Finset (Finset (L × Vec K))) {V : L × ℕ → Finset (L × Vec K)}
    (hV : ∀ d, S.IsDart valid d → S.surfaceVertex fuel d = .ok (V d)) {sx : List (L × ℕ)} (hn : sx.Nodup)
    (hsx2 : ∀ d, S.IsDart valid d → d ∈ sx ∨ S.oppF d ∈ sx) (r : R) (ds : List (L × ℕ)) (hds : ∀ d ∈ ds, S.IsDart valid d) :
    ∃ f, S.faceLoop sx r ds = .ok f ∧ (sx.map (fun d => S.edgeBoundary rel V d (f d))).sum =
      (ds.map (fun d => toC0 rel (V (S.nextF d)) r - toC0 rel (V d) r)).sum := by
  induction ds with
  | nil =>
    refine ⟨0, rfl, ?_⟩
    rw [List.map_nil, List.sum_nil]
    refine List.sum_eq_zero ?_
    intro y hy
    obtain ⟨d, -, rfl⟩ := List.mem_map.1 hy
    exact edgeBoundary_zero _ _ _
  | cons d ds ih =>
    have hd := hds d List.mem_cons_self
    obtain ⟨g, hg, hgs⟩ := ih (fun e he => hds e (List.mem_cons_of_mem _ he))
    have hnext : V (S.oppF d) = V (S.nextF d) := by
      have hsv := hS.sameVertex_next hd
      have ho := hS.oppF_dart hd
      have hnd := (sameVertex_valid hsv).1 ho
      exact (surfaceVertex_eq_iff hS.bordered ho hnd (hV _ ho) (hV _ hnd)).2 hsv
    have hface : ∃ f, S.faceEdge sx r d = .ok f ∧ (sx.map (fun x => S.edgeBoundary rel V x (f x))).sum = S.edgeBoundary rel V d r := by
      unfold faceEdge
      split_ifs with hin
      · exact ⟨_, rfl, sum_single sx hn (fun x r => S.edgeBoundary rel V x r) (fun x => edgeBoundary_zero _ _ x) hin r⟩
      · have hin' := (hsx2 d hd).resolve_left hin
        refine ⟨-Pi.single (S.oppF d) r, by simp only [hS.opp!_oppF hd, bind, Except.bind, pure, Except.pure], ?_⟩
        have h1 := sum_single sx hn (fun x r => S.edgeBoundary rel V x r) (fun x => edgeBoundary_zero _ _ x) hin' (-r)
        have h2 : (-Pi.single (S.oppF d) r : L × ℕ → R) = Pi.single (S.oppF d) (-r) := (Pi.single_neg _ _).symm
        rw [h2, h1, edgeBoundary_neg]
        unfold edgeBoundary
        rw [hS.oppF_oppF hd]
        abel
    obtain ⟨f, hf, hfs⟩ := hface
    refine ⟨f + g, by rw [faceLoop]; simp only [hf, hg, bind, Except.bind, pure, Except.pure], ?_⟩
    rw [List.map_cons, List.sum_cons, ← hgs, ← hnext]
    have : (fun x => S.edgeBoundary rel V x ((f + g) x)) = fun x => S.edgeBoundary rel V x (f x) + S.edgeBoundary rel V x (g x) := by
      funext x; exact edgeBoundary_add _ _ _ _ _
    rw [this, List.sum_map_add, hfs]
    rfl

theorem telescope {A : Type} [AddCommGroup A] (g : ℕ → A) (n : ℕ) :
    ((List.range n).map (fun e => g ((e + 1) % n) - g e)).sum = 0 := by
  rcases Nat.eq_zero_or_pos n with rfl | hn
  · rfl
  have h : ∀ m, m < n → ((List.range m).map (fun e => g ((e + 1) % n) - g e)).sum = g m - g 0 := by
    intro m
    induction m with
    | zero => intro _; simp
    | succ m ih =>
      intro hm
      rw [List.range_succ, List.map_append, List.sum_append, ih (by omega)]
      simp only [List.map_cons, List.map_nil, List.sum_cons, List.sum_nil, add_zero]
      rw [Nat.mod_eq_of_lt hm]
      abel
  obtain ⟨m, rfl⟩ := Nat.exists_eq_succ_of_ne_zero (Nat.pos_iff_ne_zero.1 hn)
  rw [List.range_succ, List.map_append, List.sum_append, h m (by omega)]
  simp

theorem faceBoundary_zero (hS : S.Closed valid) {fuel : ℕ} (rel : Finset (Finset (L × Vec K))) {V : L × ℕ → Finset (L × Vec K)}
    (hV : ∀ d, S.IsDart valid d → S.surfaceVertex fuel d = .ok (V d)) {sx : List (L × ℕ)} (hn : sx.Nodup)
    (hsx2 : ∀ d, S.IsDart valid d → d ∈ sx ∨ S.oppF d ∈ sx) (chain : List (L × R)) (hc : ∀ x ∈ chain, valid x.1) :
    ∃ f, S.boundary2 sx chain = .ok f ∧ (sx.map (fun d => S.edgeBoundary rel V d (f d))).sum = 0 := by
  induction chain with
  | nil =>
    refine ⟨0, rfl, List.sum_eq_zero ?_⟩
    intro y hy
    obtain ⟨d, -, rfl⟩ := List.mem_map.1 hy
    exact edgeBoundary_zero _ _ _
  | cons x chain ih =>
    obtain ⟨g, hg, hgs⟩ := ih (fun y hy => hc y (List.mem_cons_of_mem _ hy))
    have hl := hc x List.mem_cons_self
    obtain ⟨p, hp, hv⟩ := hS.poly _ hl
    obtain ⟨f, hf, hfs⟩ := faceLoop_boundary hS rel hV hn hsx2 x.2 ((List.range p.length).map (fun e => (x.1, e))) (by
      intro d hd
      obtain ⟨e, he, rfl⟩ := List.mem_map.1 hd
      exact ⟨hl, p, hp, List.mem_range.1 he⟩)
    refine ⟨f + g, by rw [boundary2, edgesAt_ok hp]; simp only [hf, hg, bind, Except.bind, pure, Except.pure], ?_⟩
    have : (fun x => S.edgeBoundary rel V x ((f + g) x)) = fun x => S.edgeBoundary rel V x (f x) + S.edgeBoundary rel V x (g x) := by
      funext x; exact edgeBoundary_add _ _ _ _ _
    rw [this, List.sum_map_add, hgs, add_zero, hfs, List.map_map]
    have h2 : (fun d => toC0 rel (V (S.nextF d)) x.2 - toC0 rel (V d) x.2) ∘ (fun e => (x.1, e)) =
        fun e => toC0 rel (V (x.1, (e + 1) % p.length)) x.2 - toC0 rel (V (x.1, e)) x.2 := by
      funext e
      simp only [Function.comp, nextF, sides_eq hp]
    rw [h2]
    exact telescope (fun e => toC0 rel (V (x.1, e)) x.2) p.length

/-- **C39.** The boundary of the boundary of a chain of polygons is zero, for every closed finite surface, coefficient ring and set of
vertices relative to which homology is taken; all the computations succeed. -/
theorem C39_boundary_boundary (hS : S.Closed valid) {ls : List L} (hn : ls.Nodup) (hls : ∀ l, l ∈ ls ↔ valid l) {es : List (L × ℕ)}
    (he : S.edges ls = .ok es) {fuel : ℕ} (hf : es.length + 1 < fuel) (rel : Finset (Finset (L × Vec K))) (chain : List (L × R))
    (hc : ∀ x ∈ chain, x.1 ∈ ls) :
    ∃ sx f, S.simplices1 ls = .ok sx ∧ S.boundary2 sx chain = .ok f ∧ S.boundary1 fuel rel (items sx f) = .ok 0 := by
  obtain ⟨es', he', hnd, hmem⟩ := edges_spec hS.bordered ls hn (fun l hl => (hls l).1 hl)
  rw [he] at he'; injection he' with he'; subst he'
  obtain ⟨sx, h1, h2, h3, h4, -⟩ := simplices1_spec hS hn hls
  have hV : ∀ d, ∃ x, S.IsDart valid d → S.surfaceVertex fuel d = .ok x := by
    intro d
    by_cases hd : S.IsDart valid d
    · obtain ⟨x, hx⟩ := surfaceVertex_defined hS.bordered (fun d hd => (hmem d).2 ⟨(hls _).2 hd.1, hd⟩) hf hd
      exact ⟨x, fun _ => hx⟩
    · exact ⟨∅, fun h => absurd h hd⟩
  choose V hV using hV
  obtain ⟨f, h5, h6⟩ := faceBoundary_zero hS rel hV h2 h4 chain (fun x hx => (hls _).1 (hc x hx))
  exact ⟨sx, f, h1, h5, by rw [boundary1_items hS rel hV h3, h6]⟩

/-- **C39.** The boundary of chains of edges is defined and linear. -/
theorem C39_boundary_linear (hS : S.Closed valid) {ls : List L} (hn : ls.Nodup) (hls : ∀ l, l ∈ ls ↔ valid l) {es : List (L × ℕ)}
    (he : S.edges ls = .ok es) {fuel : ℕ} (hf : es.length + 1 < fuel) (rel : Finset (Finset (L × Vec K))) :
    ∃ (sx : List (L × ℕ)) (B : (L × ℕ → R) → (Finset (L × Vec K) → R)), S.simplices1 ls = .ok sx ∧
      (∀ f, S.boundary1 fuel rel (items sx f) = .ok (B f)) ∧ (∀ f g, B (f + g) = B f + B g) ∧ ∀ (c : R) f, B (c • f) = c • B f := by
  obtain ⟨es', he', hnd, hmem⟩ := edges_spec hS.bordered ls hn (fun l hl => (hls l).1 hl)
  rw [he] at he'; injection he' with he'; subst he'
  obtain ⟨sx, h1, h2, h3, h4, -⟩ := simplices1_spec hS hn hls
  have hV : ∀ d, ∃ x, S.IsDart valid d → S.surfaceVertex fuel d = .ok x := by
    intro d
    by_cases hd : S.IsDart valid d
    · obtain ⟨x, hx⟩ := surfaceVertex_defined hS.bordered (fun d hd => (hmem d).2 ⟨(hls _).2 hd.1, hd⟩) hf hd
      exact ⟨x, fun _ => hx⟩
    · exact ⟨∅, fun h => absurd h hd⟩
  choose V hV using hV
  refine ⟨sx, fun f => (sx.map (fun d => S.edgeBoundary rel V d (f d))).sum, h1, fun f => boundary1_items hS rel hV h3 f, ?_, ?_⟩
  · intro f g
    dsimp only
    rw [← List.sum_map_add]
    congr 2
    funext x
    exact edgeBoundary_add (R := R) _ _ _ _ _
  · intro c f
    dsimp only
    rw [List.smul_sum, List.map_map]
    congr 2
    funext x
    exact edgeBoundary_smul _ _ _ _ _

/-- **C39.** An edge that joins a vertex to another one is not closed: the boundary is the difference of its vertices. -/
theorem C39_boundary_edge (hS : S.Closed valid) {ls : List L} (hn : ls.Nodup) (hls : ∀ l, l ∈ ls ↔ valid l) {es : List (L × ℕ)}
    (he : S.edges ls = .ok es) {fuel : ℕ} (hf : es.length + 1 < fuel) {d : L × ℕ} (hd : S.IsDart valid d) (r : R) (hr : r ≠ 0) :
    S.boundary1 fuel ∅ [(d, r)] = .ok 0 ↔ S.SameVertex valid d (S.nextF d) := by
  obtain ⟨es', he', hnd, hmem⟩ := edges_spec hS.bordered ls hn (fun l hl => (hls l).1 hl)
  rw [he] at he'; injection he' with he'; subst he'
  have hV : ∀ d, ∃ x, S.IsDart valid d → S.surfaceVertex fuel d = .ok x := by
    intro d
    by_cases hd : S.IsDart valid d
    · obtain ⟨x, hx⟩ := surfaceVertex_defined hS.bordered (fun d hd => (hmem d).2 ⟨(hls _).2 hd.1, hd⟩) hf hd
      exact ⟨x, fun _ => hx⟩
    · exact ⟨∅, fun h => absurd h hd⟩
  choose V hV using hV
  have ho := hS.oppF_dart hd
  have hsv := hS.sameVertex_next hd
  rw [boundary1_eq hS ∅ hV _ (by simpa using hd)]
  simp only [List.map_cons, List.map_nil, List.sum_cons, List.sum_nil, add_zero, Except.ok.injEq]
  have hiff : V (S.oppF d) = V d ↔ S.SameVertex valid d (S.nextF d) := by
    rw [surfaceVertex_eq_iff hS.bordered ho hd (hV _ ho) (hV _ hd)]
    exact ⟨fun h => .trans _ _ _ (.symm _ _ h) hsv, fun h => .trans _ _ _ hsv (.symm _ _ h)⟩
  rw [← hiff]
  unfold edgeBoundary toC0
  rw [if_neg (by simp), if_neg (by simp)]
  constructor
  · intro h
    by_contra hne
    have := congrFun h (V d)
    rw [Pi.sub_apply, Pi.single_eq_same, Pi.single_eq_of_ne (Ne.symm hne)] at this
    simp at this
    exact hr this
  · intro h; rw [h, sub_self]

end

/-- The torus: the three edges are closed, the boundary of a triangle is their sum. -/
example : exTorus2.Closed (fun _ => True) ∧ exTorus2.simplices1 [false, true] = .ok [(false, 0), (false, 1), (false, 2)] :=
  ⟨exTorus2_closed, by decide +kernel⟩

end RSurf
end Flat
