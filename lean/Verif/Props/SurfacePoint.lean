import Verif.Lemmas.Orbit
import Verif.Lemmas.MapM
import Verif.Props.PointPosition
import Verif.Props.Covers

/-!
# C33: points of surfaces
-/

namespace Flat
namespace RSurf
variable {L K : Type} [Field K] [LinearOrder K] [IsStrictOrderedRing K]

/-- A surface with labels `valid`, possibly with boundary: each label has a polygon that the constructor of polygons accepts, and
`opposite_edge` pairs edges of the polygons. -/
structure Bordered (S : RSurf L K) (valid : L → Prop) : Prop where
  poly : ∀ l, valid l → ∃ p, S.polygon l = .ok p ∧ p.Valid
  glue : ∀ l p e, valid l → S.polygon l = .ok p → e < p.length → S.opp l e = .ok none ∨
    ∃ l' e' p', S.opp l e = .ok (some (l', e')) ∧ valid l' ∧ S.polygon l' = .ok p' ∧ e' < p'.length ∧ S.opp l' e' = .ok (some (l, e))

theorem Closed.bordered {S : RSurf L K} {valid : L → Prop} (h : S.Closed valid) : S.Bordered valid :=
  ⟨h.poly, fun l p e hl hp he => .inr (h.glue l p e hl hp he)⟩

/-- An edge of a polygon of the surface. -/
def IsDart (S : RSurf L K) (valid : L → Prop) (d : L × ℕ) : Prop := valid d.1 ∧ ∃ p, S.polygon d.1 = .ok p ∧ d.2 < p.length

/-- Two descriptions of points are identified by the gluing of an edge: they are at the same relative position on glued edges, which
are run through in opposite directions. -/
def Ident (S : RSurf L K) (valid : L → Prop) (x y : L × Vec K) : Prop :=
  ∃ p p' e e' t, valid x.1 ∧ S.polygon x.1 = .ok p ∧ e < p.length ∧ S.opp x.1 e = .ok (some (y.1, e')) ∧ S.polygon y.1 = .ok p' ∧
    0 ≤ t ∧ t ≤ (1 : K) ∧ x.2 = p.vertex e + t • p.edge e ∧ y.2 = p'.vertex (e' + 1) - t • p'.edge e'

section
variable {S : RSurf L K} {valid : L → Prop}

theorem Bordered.valid_of_polygon (hS : S.Bordered valid) {l : L} (hl : valid l) {p : Poly K} (hp : S.polygon l = .ok p) : p.Valid := by
  obtain ⟨p', hp', hv⟩ := hS.poly l hl
  rw [hp] at hp'
  injection hp' with h
  rw [h]
  exact hv

theorem Bordered.back (hS : S.Bordered valid) {l l' : L} {e e' : ℕ} {p : Poly K} (hl : valid l) (hp : S.polygon l = .ok p)
    (he : e < p.length) (ho : S.opp l e = .ok (some (l', e'))) :
    valid l' ∧ ∃ p', S.polygon l' = .ok p' ∧ e' < p'.length ∧ S.opp l' e' = .ok (some (l, e)) := by
  rcases hS.glue l p e hl hp he with h | ⟨m, f, p', h, hm, hp', hf, hb⟩
  · rw [h] at ho; injection ho with ho; cases ho
  · rw [h] at ho
    injection ho with ho
    injection ho with ho
    injection ho with h1 h2
    subst h1 h2
    exact ⟨hm, p', hp', hf, hb⟩

theorem step_cw_iff {a b : L × ℕ} : Step S.rotateCw a b ↔
    ∃ c p, S.opp a.1 a.2 = .ok (some c) ∧ S.polygon c.1 = .ok p ∧ b = (c.1, (c.2 + 1) % p.length) := by
  unfold Step rotateCw
  simp only [bind, Except.bind, pure, Except.pure]
  cases ho : S.opp a.1 a.2 with
  | error e => simp
  | ok o =>
    cases o with
    | none => simp
    | some c =>
      dsimp only
      cases hp : S.polygon c.1 with
      | error e =>
        constructor
        · intro h; cases h
        · rintro ⟨c', p, h1, h2, h3⟩
          injection h1 with h1; injection h1 with h1; subst h1
          rw [hp] at h2; cases h2
      | ok p =>
        constructor
        · intro h
          injection h with h; injection h with h
          exact ⟨c, p, rfl, hp, h.symm⟩
        · rintro ⟨c', p', h1, h2, h3⟩
          injection h1 with h1; injection h1 with h1; subst h1
          rw [hp] at h2; injection h2 with h2; subst h2
          rw [h3]

theorem step_ccw_iff {a b : L × ℕ} : Step S.rotateCcw a b ↔
    ∃ p, S.polygon a.1 = .ok p ∧ S.opp a.1 ((a.2 + (p.length - 1)) % p.length) = .ok (some b) := by
  unfold Step rotateCcw
  simp only [bind, Except.bind]
  cases hp : S.polygon a.1 with
  | error e => simp
  | ok p => simp

theorem prev_succ {n e : ℕ} (he : e < n) : ((e + 1) % n + (n - 1)) % n = e := by
  rcases Nat.lt_or_ge (e + 1) n with h | h
  · rw [Nat.mod_eq_of_lt h, show e + 1 + (n - 1) = e + n by omega, Nat.add_mod_right, Nat.mod_eq_of_lt he]
  · have : e + 1 = n := by omega
    rw [this, Nat.mod_self, Nat.zero_add, Nat.mod_eq_of_lt (by omega)]
    omega

theorem succ_prev {n e : ℕ} (he : e < n) : ((e + (n - 1)) % n + 1) % n = e := by
  rcases Nat.eq_zero_or_pos e with h | h
  · subst h
    rw [Nat.zero_add, Nat.mod_eq_of_lt (by omega : n - 1 < n), show n - 1 + 1 = n by omega, Nat.mod_self]
  · rw [show e + (n - 1) = (e - 1) + n by omega, Nat.add_mod_right, Nat.mod_eq_of_lt (by omega : e - 1 < n),
      show e - 1 + 1 = e by omega, Nat.mod_eq_of_lt he]

theorem Bordered.cw_valid (hS : S.Bordered valid) {a b : L × ℕ} (ha : S.IsDart valid a) (h : Step S.rotateCw a b) : S.IsDart valid b := by
  obtain ⟨hl, p, hp, he⟩ := ha
  obtain ⟨c, q, ho, hq, rfl⟩ := step_cw_iff.1 h
  obtain ⟨hc, q', hq', hlt, -⟩ := hS.back hl hp he ho
  exact ⟨hc, q, hq, Nat.mod_lt _ (by rw [hq] at hq'; injection hq' with h; subst h; omega)⟩

theorem Bordered.ccw_valid (hS : S.Bordered valid) {a b : L × ℕ} (ha : S.IsDart valid a) (h : Step S.rotateCcw a b) : S.IsDart valid b := by
  obtain ⟨hl, p, hp, he⟩ := ha
  obtain ⟨q, hq, ho⟩ := step_ccw_iff.1 h
  rw [hp] at hq; injection hq with hq; subst hq
  obtain ⟨hc, q', hq', hlt, -⟩ := hS.back hl hp (Nat.mod_lt _ (by omega)) ho
  exact ⟨hc, q', hq', hlt⟩

theorem Bordered.cw_ccw (hS : S.Bordered valid) {a b : L × ℕ} (ha : S.IsDart valid a) (hb : S.IsDart valid b) :
    Step S.rotateCw a b ↔ Step S.rotateCcw b a := by
  obtain ⟨hla, p, hp, hea⟩ := ha
  obtain ⟨hlb, q, hq, heb⟩ := hb
  rw [step_cw_iff, step_ccw_iff]
  constructor
  · rintro ⟨c, q', ho, hq', hbc⟩
    obtain ⟨hc, q'', hq'', hlt, hback⟩ := hS.back hla hp hea ho
    rw [hq'] at hq''; injection hq'' with h; subst h
    refine ⟨q', by rw [hbc]; exact hq', ?_⟩
    rw [hbc]
    dsimp only
    rw [prev_succ hlt]
    exact hback
  · rintro ⟨q', hq', ho⟩
    rw [hq] at hq'; injection hq' with h; subst h
    have hlt : (b.2 + (q.length - 1)) % q.length < q.length := Nat.mod_lt _ (by omega)
    obtain ⟨-, -, -, -, hback⟩ := hS.back hlb hq hlt ho
    exact ⟨_, q, hback, hq, by dsimp only; rw [succ_prev heb]⟩

theorem Bordered.rotateCw_ok (hS : S.Bordered valid) {a : L × ℕ} (ha : S.IsDart valid a) :
    ∃ o, S.rotateCw a = .ok o ∧ ∀ b, o = some b → S.IsDart valid b := by
  obtain ⟨hl, p, hp, he⟩ := id ha
  rcases hS.glue a.1 p a.2 hl hp he with h | ⟨m, f, p', h, hm, hp', hf, hb⟩
  · refine ⟨none, ?_, fun b h => by cases h⟩
    unfold rotateCw
    simp only [h, bind, Except.bind, pure, Except.pure]
  · have : S.rotateCw a = .ok (some (m, (f + 1) % p'.length)) := by
      unfold rotateCw
      simp only [h, hp', bind, Except.bind, pure, Except.pure]
    exact ⟨_, this, fun b hb => hS.cw_valid ha (by rw [hb] at this; exact this)⟩

theorem Bordered.rotateCcw_ok (hS : S.Bordered valid) {a : L × ℕ} (ha : S.IsDart valid a) :
    ∃ o, S.rotateCcw a = .ok o ∧ ∀ b, o = some b → S.IsDart valid b := by
  obtain ⟨hl, p, hp, he⟩ := id ha
  have hr : S.rotateCcw a = S.opp a.1 ((a.2 + (p.length - 1)) % p.length) := by
    unfold rotateCcw
    simp only [hp, bind, Except.bind]
  rcases hS.glue a.1 p ((a.2 + (p.length - 1)) % p.length) hl hp (Nat.mod_lt _ (by omega)) with h | ⟨m, f, p', h, hm, hp', hf, hb⟩
  · exact ⟨none, by rw [hr, h], fun b h => by cases h⟩
  · exact ⟨some (m, f), by rw [hr, h], fun b hb => hS.ccw_valid ha (by unfold Step; rw [hr, h, hb])⟩

/-- Edges that start at the same vertex of the surface. -/
def SameVertex (S : RSurf L K) (valid : L → Prop) : L × ℕ → L × ℕ → Prop :=
  Relation.EqvGen (fun a b => S.IsDart valid a ∧ S.IsDart valid b ∧ Step S.rotateCw a b)

/-- The edges at a vertex. -/
theorem vertexEdges_spec [DecidableEq L] (hS : S.Bordered valid) {d : L × ℕ} (hd : S.IsDart valid d) {fuel : ℕ} {r : List (L × ℕ)}
    (h : S.vertexEdges fuel d = .ok r) (a : L × ℕ) : a ∈ r ↔ S.SameVertex valid d a := by
  unfold vertexEdges at h
  simp only [bind, Except.bind] at h
  cases h1 : collect S.rotateCw fuel [] d with
  | error e => rw [h1] at h; cases h
  | ok r1 =>
    rw [h1] at h
    exact collect_both (fun _ _ ha hs => hS.cw_valid ha hs) (fun _ _ ha hs => hS.ccw_valid ha hs) (fun _ _ ha hb => hS.cw_ccw ha hb) hd
      h1 h a

theorem sameVertex_valid {a b : L × ℕ} (h : S.SameVertex valid a b) : S.IsDart valid a ↔ S.IsDart valid b := by
  induction h with
  | rel a b h => exact ⟨fun _ => h.2.1, fun _ => h.1⟩
  | refl => rfl
  | symm _ _ _ ih => exact ih.symm
  | trans _ _ _ _ _ ih1 ih2 => exact ih1.trans ih2

theorem vertexEdges_ends [DecidableEq L] (hS : S.Bordered valid) {ds : List (L × ℕ)} (hds : ∀ d, S.IsDart valid d → d ∈ ds)
    {d : L × ℕ} (hd : S.IsDart valid d) {fuel : ℕ} (hf : ds.length + 1 < fuel) : ∃ r, S.vertexEdges fuel d = .ok r := by
  obtain ⟨r1, h1⟩ := collect_ends hds (fun a ha => hS.rotateCw_ok ha) fuel [] d List.nodup_nil (by simp) hd
    (.inr (by simp only [List.length_nil]; omega)) (by omega)
  obtain ⟨-, -, hr, -⟩ := collect_spec _ _ _ _ h1
  have hval : ∀ y ∈ r1, S.IsDart valid y := by
    intro y hy
    rcases hr y hy with h | h
    · cases h
    · clear hy
      induction h with
      | refl => exact hd
      | tail _ hs ih => exact hS.cw_valid ih hs
  obtain ⟨r, h⟩ := collect_ends hds (fun a ha => hS.rotateCcw_ok ha) fuel r1 d (collect_nodup _ _ _ _ List.nodup_nil h1) hval hd
    (.inr (by omega)) (by omega)
  exact ⟨r, by unfold vertexEdges; simp only [bind, Except.bind, h1]; exact h⟩

theorem ident_symm (hS : S.Bordered valid) {x y : L × Vec K} (h : S.Ident valid x y) : S.Ident valid y x := by
  obtain ⟨p, p', e, e', t, hl, hp, he, ho, hp', t0, t1, hx, hy⟩ := h
  obtain ⟨hl', q, hq, he', hb⟩ := hS.back hl hp he ho
  rw [hp'] at hq; injection hq with hq; subst hq
  refine ⟨p', p, e', e, 1 - t, hl', hp', he', hb, hp, by linarith, by linarith, ?_, ?_⟩
  · rw [hy]
    unfold Poly.edge
    ext <;> simp <;> ring
  · rw [hx]
    unfold Poly.edge
    ext <;> simp <;> ring

theorem ident_valid (hS : S.Bordered valid) {x y : L × Vec K} (h : S.Ident valid x y) : valid x.1 ∧ valid y.1 :=
  ⟨by obtain ⟨_, _, _, _, _, hl, -⟩ := h; exact hl, by
    obtain ⟨_, _, _, _, _, hl, -⟩ := ident_symm hS h; exact hl⟩

/-- A set that contains a point, only points identified with it, and is closed under identifications, is the class of the point. -/
theorem class_of_closed (hS : S.Bordered valid) {x : L × Vec K} {r : Finset (L × Vec K)} (hx : x ∈ r)
    (hr : ∀ y ∈ r, Relation.EqvGen (S.Ident valid) x y) (hc : ∀ y z, y ∈ r → S.Ident valid y z → z ∈ r) (y : L × Vec K) :
    y ∈ r ↔ Relation.EqvGen (S.Ident valid) x y := by
  refine ⟨hr y, fun h => ?_⟩
  have key : ∀ a b, Relation.EqvGen (S.Ident valid) a b → (a ∈ r ↔ b ∈ r) := by
    intro a b hab
    induction hab with
    | rel a b h => exact ⟨fun ha => hc a b ha h, fun hb => hc b a hb (ident_symm hS h)⟩
    | refl => rfl
    | symm _ _ _ ih => exact ih.symm
    | trans _ _ _ _ _ ih1 ih2 => exact ih1.trans ih2
  exact (key _ _ h).1 hx

theorem call_affine {g : Similarity K} (hs : g.sign = 1) (a b : Vec K) (t : K) :
    g.call (a + t • (b - a)) = g.call a + t • (g.call b - g.call a) := by
  unfold Similarity.call
  rw [hs]
  ext <;> simp <;> ring

theorem smul_zero_of_ne {v : Vec K} (hv : v ≠ 0) {t : K} (h : t • v = 0) : t = 0 := by
  by_contra ht
  apply hv
  have h3 := congrArg Prod.fst h
  have h4 := congrArg Prod.snd h
  simp only [Prod.smul_fst, Prod.smul_snd, smul_eq_mul, Prod.fst_zero, Prod.snd_zero, mul_eq_zero, ht, false_or] at h3 h4
  exact Prod.ext h3 h4

theorem startPt_ok {d : L × ℕ} {p : Poly K} (hp : S.polygon d.1 = .ok p) : S.startPt d = .ok (d.1, p.vertex d.2) := by
  unfold startPt
  simp only [hp, bind, Except.bind, pure, Except.pure]

/-- At the start of an edge the identification is the rotation to the next edge, or back. -/
theorem ident_vertex (hS : S.Bordered valid) {d : L × ℕ} (hd : S.IsDart valid d) {p : Poly K} (hp : S.polygon d.1 = .ok p)
    {z : L × Vec K} (h : S.Ident valid (d.1, p.vertex d.2) z) :
    ∃ d', (Step S.rotateCw d d' ∨ Step S.rotateCcw d d') ∧ S.startPt d' = .ok z := by
  obtain ⟨hl, p0, hp0, hlt⟩ := hd
  rw [hp] at hp0; injection hp0 with hp0; subst hp0
  obtain ⟨p1, p', e, e', t, -, hp1, he, ho, hp', t0, t1, hx, hz⟩ := h
  dsimp only at hp1 ho hx
  rw [hp] at hp1; injection hp1 with hp1; subst hp1
  have hv := hS.valid_of_polygon hl hp
  have hn : 0 < p.length := by omega
  have hside : p.vertex d.2 ∈ p.side e := ⟨t, t0, t1, hx⟩
  have hpos := (Poly.C12_vertex hv (p.vertex d.2) d.2).2 ⟨hlt, rfl⟩
  have hne := hv.edge_ne e
  obtain ⟨hl', q, hq, he', hb⟩ := hS.back hl hp he ho
  rw [hp'] at hq; injection hq with hq; subst hq
  rcases Poly.side_cases hside with h | h | h
  · have := hv.vertex_inj h
    rw [Nat.mod_eq_of_lt hlt, Nat.mod_eq_of_lt he] at this
    subst this
    have ht : t = 0 := smul_zero_of_ne hne (by simpa using hx.symm)
    refine ⟨(z.1, (e' + 1) % p'.length), .inl (step_cw_iff.2 ⟨_, p', ho, hp', rfl⟩), ?_⟩
    rw [startPt_ok (d := (z.1, (e' + 1) % p'.length)) hp', Poly.vertex_mod]
    rw [ht, zero_smul, sub_zero] at hz
    rw [← hz]
  · have := hv.vertex_inj h
    rw [Nat.mod_eq_of_lt hlt] at this
    have ht : t = 1 := by
      have h1 : p.vertex (e + 1) = p.vertex e + t • p.edge e := h ▸ hx
      have h2 : (1 - t) • p.edge e = 0 := by
        rw [sub_smul, one_smul, sub_eq_zero]
        exact sub_eq_iff_eq_add'.2 h1
      have := smul_zero_of_ne hne h2
      linarith
    refine ⟨(z.1, e'), .inr (step_ccw_iff.2 ⟨p, hp, ?_⟩), ?_⟩
    · rw [this, prev_succ he, ho]
    · rw [startPt_ok (d := (z.1, e')) hp']
      rw [ht, one_smul] at hz
      have : z.2 = p'.vertex e' := by rw [hz]; unfold Poly.edge; abel
      rw [← this]
  · have := (Poly.C12_edge hv (p.vertex d.2) e).2 ⟨he, h⟩
    rw [hpos] at this
    cases this

/-- The rotation identifies the starts of edges. -/
theorem ident_of_step (hS : S.Bordered valid) {a b : L × ℕ} (ha : S.IsDart valid a) (h : Step S.rotateCw a b) {x y : L × Vec K}
    (hx : S.startPt a = .ok x) (hy : S.startPt b = .ok y) : S.Ident valid x y := by
  obtain ⟨hl, p, hp, he⟩ := ha
  obtain ⟨c, p', ho, hp', rfl⟩ := step_cw_iff.1 h
  rw [startPt_ok hp] at hx
  rw [startPt_ok (d := (c.1, (c.2 + 1) % p'.length)) hp', Poly.vertex_mod] at hy
  injection hx with hx
  injection hy with hy
  subst hx hy
  exact ⟨p, p', a.2, c.2, 0, hl, hp, he, ho, hp', le_rfl, zero_le_one, by simp, by simp⟩

theorem startPt_dart {d : L × ℕ} (hd : S.IsDart valid d) : ∃ x, S.startPt d = .ok x ∧ valid x.1 := by
  obtain ⟨hl, p, hp, -⟩ := hd
  exact ⟨_, startPt_ok hp, hl⟩

theorem sameVertex_ident (hS : S.Bordered valid) {a b : L × ℕ} (h : S.SameVertex valid a b) :
    ∀ {x y : L × Vec K}, S.startPt a = .ok x → S.startPt b = .ok y → Relation.EqvGen (S.Ident valid) x y := by
  induction h with
  | rel a b h => exact fun hx hy => .rel _ _ (ident_of_step hS h.1 h.2.2 hx hy)
  | refl a => intro x y hx hy; rw [hx] at hy; injection hy with hy; rw [hy]; exact .refl _
  | symm _ _ _ ih => exact fun hx hy => .symm _ _ (ih hy hx)
  | trans a b c hab hbc ih1 ih2 =>
    intro x z hx hz
    by_cases hb : S.IsDart valid b
    · obtain ⟨y, hy, -⟩ := startPt_dart hb
      exact .trans _ _ _ (ih1 hx hy) (ih2 hy hz)
    · have : ∀ a b, S.SameVertex valid a b → ¬ S.IsDart valid a → a = b := by
        intro a b h
        induction h with
        | rel a b h => exact fun hn => absurd h.1 hn
        | refl => exact fun _ => rfl
        | symm a b h ih => exact fun hn => (ih ((sameVertex_valid h).not.2 hn)).symm
        | trans a b c h1 h2 ih1 ih2 => exact fun hn => (ih1 hn).trans (ih2 ((sameVertex_valid h1).not.1 hn))
      have h1 := this b a (.symm _ _ hab) hb
      have h2 := this b c hbc hb
      subst h1 h2
      rw [hx] at hz; injection hz with hz; rw [hz]; exact .refl _

/-- **C33.** The representatives of a point of a surface are exactly the descriptions that can be reached by chains of identifications
across glued edges, for points in the interior of polygons, on edges and at vertices, whatever the number of polygons (also if there are
infinitely many of them) and of edges at a vertex.  The surface may have a boundary and edges glued to themselves. -/
theorem C33_representatives [DecidableEq L] (hS : S.Bordered valid) {x : L × Vec K} (hl : valid x.1) {fuel : ℕ} {r : Finset (L × Vec K)}
    (h : S.surfacePoint fuel x = .ok r) (y : L × Vec K) : y ∈ r ↔ Relation.EqvGen (S.Ident valid) x y := by
  obtain ⟨p, hp, hv⟩ := hS.poly _ hl
  unfold surfacePoint at h
  simp only [hp, bind, Except.bind, pure, Except.pure] at h
  cases hpos : p.pointPosition x.2 with
  | outside => rw [hpos] at h; cases h
  | interior =>
    rw [hpos] at h
    injection h with h
    subst h
    refine class_of_closed hS (by simp) (by intro y hy; rw [Finset.mem_singleton.1 hy]; exact .refl _) ?_ y
    rintro y z hy ⟨q, p', e, e', t, -, hq, he, ho, hp', t0, t1, hx, hz⟩
    rw [Finset.mem_singleton.1 hy] at hq hx
    rw [hp] at hq; injection hq with hq; subst hq
    rcases (Poly.pointPosition_boundary hv).1 ⟨e, t, t0, t1, hx⟩ with ⟨i, hi⟩ | ⟨i, hi⟩
    · rw [hpos] at hi; cases hi
    · rw [hpos] at hi; cases hi
  | edgeInterior e =>
    rw [hpos] at h
    dsimp only at h
    obtain ⟨he, hopen⟩ := (Poly.C12_edge hv x.2 e).1 hpos
    have hcross : ∀ z, S.Ident valid x z → ∃ (e' : ℕ) (p' : Poly K) (t : K), S.opp x.1 e = .ok (some (z.1, e')) ∧ S.polygon z.1 = .ok p' ∧ 0 ≤ t ∧ t ≤ 1 ∧
        x.2 = p.vertex e + t • p.edge e ∧ z.2 = p'.vertex (e' + 1) - t • p'.edge e' := by
      rintro z ⟨q, p', e2, e', t, -, hq, he2, ho, hp', t0, t1, hx, hz⟩
      rw [hp] at hq; injection hq with hq; subst hq
      have := hv.openSide_unique hopen (j := e2) ⟨t, t0, t1, hx⟩
      rw [Nat.mod_eq_of_lt he, Nat.mod_eq_of_lt he2] at this
      subst this
      exact ⟨e', p', t, ho, hp', t0, t1, hx, hz⟩
    rcases hS.glue x.1 p e hl hp he with hnone | ⟨l', e', p', ho, hl', hp', he', hb⟩
    · rw [hnone] at h
      injection h with h
      subst h
      refine class_of_closed hS (by simp) (by intro y hy; rw [Finset.mem_singleton.1 hy]; exact .refl _) ?_ y
      intro y z hy hid
      rw [Finset.mem_singleton.1 hy] at hid
      obtain ⟨e', p', t, ho, -⟩ := hcross z hid
      rw [hnone] at ho
      injection ho with ho
      cases ho
    · have hv' := hS.valid_of_polygon hl' hp'
      obtain ⟨g, hg, -, hs, hg1, hg2⟩ := edgeTransformation_ok ho hp hp' (hv.edge_ne e) (hv'.edge_ne e')
      rw [ho] at h
      dsimp only at h
      rw [hg] at h
      injection h with h
      subst h
      have hcall : ∀ t : K, g.call (p.vertex e + t • p.edge e) = p'.vertex (e' + 1) - t • p'.edge e' := by
        intro t
        unfold Poly.edge
        rw [call_affine hs, hg1, hg2]
        ext <;> simp <;> ring
      obtain ⟨t, t0, t1, hx⟩ := hopen
      have hid : S.Ident valid x (l', g.call x.2) :=
        ⟨p, p', e, e', t, hl, hp, he, ho, hp', t0.le, t1.le, hx, by rw [← hcall, ← hx]⟩
      refine class_of_closed hS (by simp) ?_ ?_ y
      · intro y hy
        rcases Finset.mem_insert.1 hy with rfl | hy
        · exact .refl _
        · rw [Finset.mem_singleton.1 hy]; exact .rel _ _ hid
      · intro y z hy hyz
        rcases Finset.mem_insert.1 hy with rfl | hy
        · obtain ⟨e2, p2, t2, ho2, hp2, -, -, hx2, hz⟩ := hcross z hyz
          rw [ho] at ho2
          injection ho2 with ho2; injection ho2 with ho2; injection ho2 with ho2 ho3
          subst ho3
          rw [← ho2] at hp2
          rw [hp'] at hp2; injection hp2 with hp2; subst hp2
          refine Finset.mem_insert_of_mem (Finset.mem_singleton.2 ?_)
          refine Prod.ext ho2.symm ?_
          rw [hz, ← hcall, ← hx2]
        · rw [Finset.mem_singleton.1 hy] at hyz
          obtain ⟨q, p2, e2, e3, s, -, hq, he2, ho2, hp2, s0, s1, hy2, hz⟩ := hyz
          dsimp only at hq ho2 hy2
          rw [hp'] at hq; injection hq with hq; subst hq
          have hxr : g.call x.2 = p'.vertex e' + (1 - t) • p'.edge e' := by
            rw [hx, hcall]
            unfold Poly.edge
            ext <;> simp <;> ring
          have := hv'.openSide_unique (i := e') (j := e2) (q := g.call x.2) ⟨1 - t, by linarith, by linarith, hxr⟩ ⟨s, s0, s1, hy2⟩
          rw [Nat.mod_eq_of_lt he', Nat.mod_eq_of_lt he2] at this
          subst this
          rw [hb] at ho2
          injection ho2 with ho2; injection ho2 with ho2; injection ho2 with ho2 ho3
          subst ho3
          rw [← ho2] at hp2
          rw [hp] at hp2; injection hp2 with hp2; subst hp2
          have hst : s = 1 - t := by
            have : (s - (1 - t)) • p'.edge e' = 0 := by
              rw [hy2] at hxr
              rw [sub_smul, sub_eq_zero]
              exact add_left_cancel hxr
            have := smul_zero_of_ne (hv'.edge_ne e') this
            linarith
          refine Finset.mem_insert.2 (.inl (Prod.ext ho2.symm ?_))
          rw [hz, hx, hst]
          unfold Poly.edge
          ext <;> simp <;> ring
  | vertex v =>
    rw [hpos] at h
    dsimp only at h
    obtain ⟨hlt, hxv⟩ := (Poly.C12_vertex hv x.2 v).1 hpos
    have hd : S.IsDart valid (x.1, v) := ⟨hl, p, hp, hlt⟩
    cases hds : S.vertexEdges fuel (x.1, v) with
    | error e => rw [hds] at h; cases h
    | ok ds =>
      rw [hds] at h
      dsimp only at h
      cases hxs : ds.mapM S.startPt with
      | error e => rw [hxs] at h; cases h
      | ok xs =>
        rw [hxs] at h
        injection h with h
        subst h
        have hspec := vertexEdges_spec hS hd hds
        have hmem : ∀ y, y ∈ xs ↔ ∃ d, S.SameVertex valid (x.1, v) d ∧ S.startPt d = .ok y := by
          intro y
          constructor
          · intro hy
            obtain ⟨d, hd, hdy⟩ := mapM_ok_mem hxs hy
            exact ⟨d, (hspec d).1 hd, hdy⟩
          · rintro ⟨d, hd, hdy⟩
            have hin := (hspec d).2 hd
            rw [mapM_ok_iff] at hxs
            obtain ⟨i, hi, rfl⟩ := List.getElem_of_mem hin
            have := hxs.get hi (by rw [← hxs.length_eq]; exact hi)
            simp only [List.get_eq_getElem] at this
            rw [this] at hdy
            injection hdy with hdy
            rw [← hdy]
            exact List.getElem_mem _
        have hxd : S.startPt (x.1, v) = .ok x := by
          rw [startPt_ok (d := (x.1, v)) hp]
          dsimp only
          rw [← hxv]
        refine class_of_closed hS ?_ ?_ ?_ y
        · rw [List.mem_toFinset, hmem]
          exact ⟨_, .refl _, hxd⟩
        · intro y hy
          rw [List.mem_toFinset, hmem] at hy
          obtain ⟨d, hd, hdy⟩ := hy
          exact sameVertex_ident hS hd hxd hdy
        · intro y z hy hid
          rw [List.mem_toFinset, hmem] at hy ⊢
          obtain ⟨d, hsv, hdy⟩ := hy
          have hdd := (sameVertex_valid hsv).1 hd
          obtain ⟨hl2, q, hq, hqlt⟩ := id hdd
          rw [startPt_ok hq] at hdy
          injection hdy with hdy
          subst hdy
          obtain ⟨d', hstep, hz⟩ := ident_vertex hS hdd hq hid
          refine ⟨d', .trans _ _ _ hsv ?_, hz⟩
          rcases hstep with hstep | hstep
          · exact .rel _ _ ⟨hdd, hS.cw_valid hdd hstep, hstep⟩
          · have hd' := hS.ccw_valid hdd hstep
            exact .symm _ _ (.rel _ _ ⟨hd', hdd, (hS.cw_ccw hd' hdd).2 hstep⟩)

/-- **C33.** Points are equal (and have equal hashes) exactly if their descriptions are identified by the gluings. -/
theorem C33_eq_iff [DecidableEq L] (hS : S.Bordered valid) {x y : L × Vec K} (hx : valid x.1) (hy : valid y.1) {fuel fuel' : ℕ}
    {r r' : Finset (L × Vec K)} (h : S.surfacePoint fuel x = .ok r) (h' : S.surfacePoint fuel' y = .ok r') :
    r = r' ↔ Relation.EqvGen (S.Ident valid) x y := by
  constructor
  · intro hr
    rw [← C33_representatives hS hx h, hr, C33_representatives hS hy h']
    exact .refl _
  · intro hxy
    ext z
    rw [C33_representatives hS hx h, C33_representatives hS hy h']
    exact ⟨fun hz => .trans _ _ _ (.symm _ _ hxy) hz, fun hz => .trans _ _ _ hxy hz⟩

/-- **C33.** On a surface with finitely many edges, each description of a point that is not outside of its polygon defines a point. -/
theorem C33_defined [DecidableEq L] (hS : S.Bordered valid) {ds : List (L × ℕ)} (hds : ∀ d, S.IsDart valid d → d ∈ ds)
    {x : L × Vec K} (hx : valid x.1) {p : Poly K} (hp : S.polygon x.1 = .ok p) {fuel : ℕ} (hf : ds.length + 1 < fuel) :
    (∃ r, S.surfacePoint fuel x = .ok r) ↔ p.pointPosition x.2 ≠ .outside := by
  have hv := hS.valid_of_polygon hx hp
  unfold surfacePoint
  simp only [hp, bind, Except.bind, pure, Except.pure]
  cases hpos : p.pointPosition x.2 with
  | outside => simp [throw, throwThe, MonadExceptOf.throw]
  | interior => simp
  | edgeInterior e =>
    obtain ⟨he, hopen⟩ := (Poly.C12_edge hv x.2 e).1 hpos
    rcases hS.glue x.1 p e hx hp he with hnone | ⟨l', e', p', ho, hl', hp', he', hb⟩
    · simp [hnone]
    · have hv' := hS.valid_of_polygon hl' hp'
      obtain ⟨g, hg, -⟩ := edgeTransformation_ok ho hp hp' (hv.edge_ne e) (hv'.edge_ne e')
      simp [ho, hg]
  | vertex v =>
    obtain ⟨hlt, hxv⟩ := (Poly.C12_vertex hv x.2 v).1 hpos
    have hd : S.IsDart valid (x.1, v) := ⟨hx, p, hp, hlt⟩
    obtain ⟨r, hr⟩ := vertexEdges_ends hS hds hd hf
    have hspec := vertexEdges_spec hS hd hr
    have : ∃ xs, r.mapM S.startPt = .ok xs := by
      have hall : ∀ d ∈ r, ∃ x, S.startPt d = .ok x := fun d hd' => by
        obtain ⟨x, hx, -⟩ := startPt_dart ((sameVertex_valid ((hspec d).1 hd')).1 hd)
        exact ⟨x, hx⟩
      clear hspec hr
      induction r with
      | nil => exact ⟨[], rfl⟩
      | cons d r ih =>
        obtain ⟨x, hx⟩ := hall d (by simp)
        obtain ⟨xs, hxs⟩ := ih (fun d hd => hall d (by simp [hd]))
        exact ⟨x :: xs, (mapM_ok_iff _ _ _).2 (.cons hx ((mapM_ok_iff _ _ _).1 hxs))⟩
    obtain ⟨xs, hxs⟩ := this
    simp [hr, hxs]

end

/-- The torus of two triangles. -/
def exTorus2 : RSurf Bool ℚ where
  polygon l := .ok (if l then [(1, 1), (0, 1), (1, 0)] else MSurf.tri)
  opp l e := .ok (some (!l, e))

theorem exTorus2_closed : exTorus2.Closed (fun _ => True) where
  poly l _ := by
    cases l
    · exact ⟨_, rfl, ((Poly.ofVertices_iff MSurf.tri MSurf.tri).1 (by decide +kernel)).2⟩
    · exact ⟨_, rfl, ((Poly.ofVertices_iff ([(1, 1), (0, 1), (1, 0)] : Poly ℚ) [(1, 1), (0, 1), (1, 0)]).1 (by decide +kernel)).2⟩
  glue l p e _ hp he := by
    refine ⟨!l, e, _, rfl, trivial, rfl, ?_, ?_⟩
    · unfold exTorus2 at hp
      injection hp with hp
      subst hp
      cases l <;> exact he
    · unfold exTorus2; simp

/-- On the torus all vertices are the same point, given by 6 representatives. -/
example : (exTorus2.surfacePoint 8 (false, (0, 0))).map Finset.card = .ok 6 := by decide +kernel

example : (do
    let r ← exTorus2.surfacePoint 8 (false, (0, 0))
    let r' ← exTorus2.surfacePoint 8 (true, (0, 1))
    return decide (r ⊆ r' ∧ r' ⊆ r)) = (.ok true : Except Err Bool) := by decide +kernel

example : (ofMSurf MSurf.exTorus).Bordered (fun l => ∃ p, MSurf.exTorus.polygon l = .ok p) := exTorus_closed.bordered

/-- A triangle whose first edge is glued to itself; the other edges are on the boundary. -/
def exFold : RSurf Unit ℚ where
  polygon _ := .ok MSurf.tri
  opp _ e := if e = 0 then .ok (some ((), 0)) else .ok none

example : exFold.Bordered (fun _ => True) where
  poly _ _ := ⟨_, rfl, ((Poly.ofVertices_iff MSurf.tri MSurf.tri).1 (by decide +kernel)).2⟩
  glue l p e _ hp he := by
    by_cases h : e = 0
    · subst h
      exact .inr ⟨(), 0, p, rfl, trivial, hp, he, rfl⟩
    · left; simp [exFold, h]

example : exFold.surfacePoint 9 ((), ((1 : ℚ) / 4, 0)) = .ok {((), ((1 : ℚ) / 4, 0)), ((), ((3 : ℚ) / 4, 0))} := by decide +kernel

end RSurf
end Flat
