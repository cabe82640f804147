import Verif.Model.SaddleHomology
import Verif.Lemmas.PathMapInstances
import Verif.Lemmas.CylinderHolonomy
import Verif.Props.SaddleConnection
import Mathlib.LinearAlgebra.Quotient.Basic

/-!
# Functions on the edges that add up to zero around polygons
-/

namespace Flat
namespace RSurf
open Poly
variable {L K : Type} [DecidableEq L] [Field K] [LinearOrder K] [IsStrictOrderedRing K] {S : RSurf L K} {valid : L → Prop}
  {R : Type} [CommRing R] {M : Type} [AddCommGroup M] {w : L × ℕ → M}

/-- Opposite edges have opposite values, and the values of the edges of a polygon add up to zero. -/
structure EdgeCocycle (S : RSurf L K) (valid : L → Prop) (w : L × ℕ → M) : Prop where
  opp : ∀ d, S.IsDart valid d → w (S.oppF d) = - w d
  face : ∀ l, valid l → ((List.range (S.sides l)).map fun e => w (l, e)).sum = 0

/-- The sum of the values of the first `e` edges of a polygon. -/
def potential (w : L × ℕ → M) (l : L) (e : ℕ) : M := ((List.range e).map fun i => w (l, i)).sum

omit [DecidableEq L] in
theorem potential_succ (l : L) (e : ℕ) : potential w l (e + 1) = potential w l e + w (l, e) := by
  unfold potential
  rw [List.range_succ, List.map_append, List.sum_append]
  simp

omit [DecidableEq L] in
theorem potential_range' (l : L) (i k : ℕ) : ((List.range' i k).map fun e => w (l, e)).sum = potential w l (i + k) - potential w l i := by
  induction k generalizing i with
  | zero => simp
  | succ k ih =>
    rw [List.range'_succ, List.map_cons, List.sum_cons, ih, potential_succ, show i + 1 + k = i + (k + 1) by omega]
    abel

/-- The number of the vertex where the path of a segment starts. -/
def firstCorner (S : RSurf L K) (s : Seg L K) : ℕ :=
  match s.start.position with
  | .edgeInterior e => (e + 1) % S.sides s.start.label
  | .vertex v => v
  | _ => 0

/-- The number of the vertex where the path of a segment ends. -/
def lastCorner (s : Seg L K) : ℕ :=
  match s.stop.position with
  | .edgeInterior e => e
  | .vertex v => v
  | _ => 0

omit [DecidableEq L] in
theorem chord_start_cases (hS : S.Bordered valid) {s : Seg L K} {p : Poly K} {τ : K} (h : S.IsChord valid s p τ) :
    (∃ v, s.start.position = .vertex v ∧ v < S.sides s.start.label ∧ s.start.point = p.vertex v) ∨
      ∃ e, s.start.position = .edgeInterior e ∧ e < S.sides s.start.label := by
  have hv := hS.valid_of_polygon h.valid h.polygon
  rw [sides_eq h.polygon]
  rcases (pointPosition_boundary hv).1 h.side with ⟨i, hi⟩ | ⟨e, he⟩
  · obtain ⟨h1, h2⟩ := (C12_vertex hv _ _).1 hi
    exact .inl ⟨i, by rw [h.position, hi], h1, h2⟩
  · exact .inr ⟨e, by rw [h.position, he], ((C12_edge hv _ _).1 he).1⟩

omit [DecidableEq L] in
theorem chord_stop_cases (hS : S.Bordered valid) {s : Seg L K} {p : Poly K} {τ : K} (h : S.IsChord valid s p τ) :
    (∃ v, s.stop.position = .vertex v ∧ v < S.sides s.start.label ∧ s.stop.point = p.vertex v) ∨
      ∃ e, s.stop.position = .edgeInterior e ∧ e < S.sides s.start.label := by
  have := chord_start_cases hS (isChord_invert h)
  rw [show s.invert.start.label = s.start.label from h.label] at this
  exact this

omit [DecidableEq L] in
theorem corner_lt (hS : S.Bordered valid) {s : Seg L K} {p : Poly K} {τ : K} (h : S.IsChord valid s p τ) :
    S.firstCorner s < S.sides s.start.label ∧ lastCorner s < S.sides s.start.label := by
  unfold firstCorner lastCorner
  constructor
  · rcases chord_start_cases hS h with ⟨v, h1, h2, -⟩ | ⟨e, h1, h2⟩ <;> rw [h1]
    · exact h2
    · exact Nat.mod_lt _ (by omega)
  · rcases chord_stop_cases hS h with ⟨v, h1, h2, -⟩ | ⟨e, h1, h2⟩ <;> rw [h1] <;> exact h2

/-- The path of edges of a chord. -/
theorem segPath_ok (hS : S.Bordered valid) {s : Seg L K} {p : Poly K} {τ : K} (h : S.IsChord valid s p τ) : ∃ ds, S.segPath s = .ok ds ∧
    (∀ d ∈ ds, S.IsDart valid d) ∧ ∀ {M : Type} [AddCommGroup M] (w : L × ℕ → M), S.EdgeCocycle valid w →
      (ds.map w).sum = potential w s.start.label (lastCorner s) - potential w s.start.label (S.firstCorner s) := by
  have hn := sides_eq h.polygon
  obtain ⟨hi, hj⟩ := corner_lt hS h
  have h1 : segFirst p.length s = .ok (S.firstCorner s) := by
    unfold segFirst firstCorner
    rcases chord_start_cases hS h with ⟨v, h1, h2, -⟩ | ⟨e, h1, h2⟩ <;> rw [h1]
    rw [hn]
  have h2 : segLast s = .ok (lastCorner s) := by
    unfold segLast lastCorner
    rcases chord_stop_cases hS h with ⟨v, h1, h2, -⟩ | ⟨e, h1, h2⟩ <;> rw [h1]
  have hdart : ∀ e, e < S.sides s.start.label → S.IsDart valid (s.start.label, e) := fun e he => (isDart_iff hS _).2 ⟨h.valid, he⟩
  by_cases hij : S.firstCorner s < lastCorner s
  · refine ⟨_, by simp only [segPath, h.polygon, h1, h2, bind, Except.bind, pure, Except.pure, if_pos hij]; rfl, ?_, ?_⟩
    · intro d hd
      obtain ⟨e, he, rfl⟩ := List.mem_map.1 hd
      obtain ⟨k, hk, rfl⟩ := List.mem_range'.1 he
      exact hdart _ (by omega)
    · intro M _ w hw
      rw [List.map_map]
      have := potential_range' (w := w) s.start.label (S.firstCorner s) (lastCorner s - S.firstCorner s)
      rw [show S.firstCorner s + (lastCorner s - S.firstCorner s) = lastCorner s by omega] at this
      exact this
  · refine ⟨_, by simp only [segPath, h.polygon, h1, h2, bind, Except.bind, pure, Except.pure, if_neg hij]; rfl, ?_, ?_⟩
    · intro d hd
      obtain ⟨e, he, rfl⟩ := List.mem_map.1 hd
      rcases List.mem_append.1 he with he | he
      · obtain ⟨k, hk, rfl⟩ := List.mem_range'.1 he
        exact hdart _ (by omega)
      · exact hdart _ (by have := List.mem_range.1 he; omega)
    · intro M _ w hw
      rw [List.map_map, List.map_append, List.sum_append]
      have h3 := potential_range' (w := w) s.start.label (S.firstCorner s) (p.length - S.firstCorner s)
      rw [show S.firstCorner s + (p.length - S.firstCorner s) = S.sides s.start.label by omega] at h3
      have h4 : potential w s.start.label (S.sides s.start.label) = 0 := hw.face _ h.valid
      rw [h4] at h3
      have h5 : ((List.range (lastCorner s)).map (w ∘ fun e => (s.start.label, e))).sum = potential w s.start.label (lastCorner s) := rfl
      have h6 : ((List.range' (S.firstCorner s) (p.length - S.firstCorner s)).map (w ∘ fun e => (s.start.label, e))).sum = _ := h3
      rw [h5, h6]
      abel

theorem toChain_pairing [Module R M] (hS : S.Closed valid) (hw : ∀ d, S.IsDart valid d → w (S.oppF d) = - w d) {sx : List (L × ℕ)} (hn : sx.Nodup)
    (hsx : ∀ d, S.IsDart valid d → d ∈ sx ∨ S.oppF d ∈ sx) {d : L × ℕ} (hd : S.IsDart valid d) :
    ∃ f : L × ℕ → R, S.toChain sx d = .ok f ∧ (∀ x, x ∉ sx → f x = 0) ∧ (sx.map fun x => f x • w x).sum = w d := by
  have key : ∀ (d : L × ℕ) (r : R), d ∈ sx → (sx.map fun x => (Pi.single d r : L × ℕ → R) x • w x).sum = r • w d := fun d r h =>
    sum_single sx hn (fun x r => r • w x) (fun x => zero_smul _ _) h r
  by_cases h : d ∈ sx
  · refine ⟨Pi.single d 1, by unfold toChain; rw [if_pos h], ?_, by rw [key d 1 h, one_smul]⟩
    intro x hx
    rw [Pi.single_apply, if_neg (by rintro rfl; exact hx h)]
  · have ho := (hsx d hd).resolve_left h
    refine ⟨-Pi.single (S.oppF d) 1, ?_, ?_, ?_⟩
    · unfold toChain
      rw [if_neg h]
      simp only [hS.opp!_oppF hd, bind, Except.bind, ho, not_true_eq_false, if_false, pure, Except.pure]
    · intro x hx
      rw [Pi.neg_apply, Pi.single_apply, if_neg (by rintro rfl; exact hx ho), neg_zero]
    · have h2 : (-Pi.single (S.oppF d) 1 : L × ℕ → R) = Pi.single (S.oppF d) (-1) := (Pi.single_neg _ _).symm
      rw [h2, key _ _ ho, hw d hd, neg_smul, one_smul, neg_neg]

theorem pathChain_pairing [Module R M] (hS : S.Closed valid) (hw : ∀ d, S.IsDart valid d → w (S.oppF d) = - w d) {sx : List (L × ℕ)} (hn : sx.Nodup)
    (hsx : ∀ d, S.IsDart valid d → d ∈ sx ∨ S.oppF d ∈ sx) (ds : List (L × ℕ)) (hds : ∀ d ∈ ds, S.IsDart valid d) :
    ∃ f : L × ℕ → R, S.pathChain sx ds = .ok f ∧ (∀ x, x ∉ sx → f x = 0) ∧ (sx.map fun x => f x • w x).sum = (ds.map w).sum := by
  induction ds with
  | nil => exact ⟨0, rfl, fun _ _ => rfl, by simp⟩
  | cons d ds ih =>
    obtain ⟨c, h1, h2, h3⟩ := toChain_pairing (R := R) hS hw hn hsx (hds d List.mem_cons_self)
    obtain ⟨r, k1, k2, k3⟩ := ih fun x hx => hds x (List.mem_cons_of_mem _ hx)
    refine ⟨c + r, ?_, fun x hx => by rw [Pi.add_apply, h2 x hx, k2 x hx, add_zero], ?_⟩
    · simp only [pathChain, h1, k1, bind, Except.bind, pure, Except.pure]
    · rw [List.map_cons, List.sum_cons, ← h3, ← k3, ← List.sum_map_add]
      simp only [Pi.add_apply, add_smul]

/-- The value of a segment. -/
def segValue (S : RSurf L K) (w : L × ℕ → M) (s : Seg L K) : M :=
  potential w s.start.label (lastCorner s) - potential w s.start.label (S.firstCorner s)

theorem segsChain_pairing [Module R M] (hS : S.Closed valid) (hw : S.EdgeCocycle valid w) {sx : List (L × ℕ)} (hn : sx.Nodup)
    (hsx : ∀ d, S.IsDart valid d → d ∈ sx ∨ S.oppF d ∈ sx) (segs : List (Seg L K)) (hc : ∀ s ∈ segs, ∃ p τ, S.IsChord valid s p τ) :
    ∃ f : L × ℕ → R, S.segsChain sx segs = .ok f ∧ (∀ x, x ∉ sx → f x = 0) ∧ (sx.map fun x => f x • w x).sum = (segs.map (S.segValue w)).sum := by
  induction segs with
  | nil => exact ⟨0, rfl, fun _ _ => rfl, by simp⟩
  | cons s segs ih =>
    obtain ⟨p, τ, h⟩ := hc s List.mem_cons_self
    obtain ⟨ds, d1, d2, d3⟩ := segPath_ok hS.bordered h
    obtain ⟨c, h1, h2, h3⟩ := pathChain_pairing (R := R) hS hw.opp hn hsx ds d2
    obtain ⟨r, k1, k2, k3⟩ := ih fun x hx => hc x (List.mem_cons_of_mem _ hx)
    refine ⟨c + r, ?_, fun x hx => by rw [Pi.add_apply, h2 x hx, k2 x hx, add_zero], ?_⟩
    · simp only [segsChain, d1, h1, k1, bind, Except.bind, pure, Except.pure]
    · rw [List.map_cons, List.sum_cons, ← k3, segValue, ← d3 w hw, ← h3, ← List.sum_map_add]
      simp only [Pi.add_apply, add_smul]

/-! ### Values that only depend on the ends -/

theorem potential_vertex (hS : S.Closed valid) {φ : L × ℕ → M} (hφ : ∀ a b, S.SameVertex valid a b → φ a = φ b) {l : L} (hl : valid l) {e : ℕ}
    (he : e ≤ S.sides l) : potential (fun d => φ (S.oppF d) - φ d) l e = φ (l, e % S.sides l) - φ (l, 0) := by
  induction e with
  | zero => simp [potential]
  | succ e ih =>
    have hd : S.IsDart valid (l, e) := (isDart_iff hS.bordered _).2 ⟨hl, he⟩
    rw [potential_succ, ih (by omega), hφ _ _ (hS.sameVertex_next hd), Nat.mod_eq_of_lt (show e < S.sides l from he)]
    unfold nextF
    dsimp only
    abel

theorem vertex_cocycle (hS : S.Closed valid) {φ : L × ℕ → M} (hφ : ∀ a b, S.SameVertex valid a b → φ a = φ b) :
    S.EdgeCocycle valid fun d => φ (S.oppF d) - φ d where
  opp d hd := by rw [hS.oppF_oppF hd, neg_sub]
  face l hl := by
    have := potential_vertex hS hφ hl le_rfl
    rw [Nat.mod_self, sub_self] at this
    exact this

theorem follows_opp (hS : S.Closed valid) {s s' : Seg L K} {p : Poly K} {τ : K} (h : S.IsChord valid s p τ) (hf : S.Follows s s') :
    ∃ e e', s.stop.position = .edgeInterior e ∧ s'.start.position = .edgeInterior e' ∧ S.IsDart valid (s.start.label, e) ∧
      S.oppF (s.start.label, e) = (s'.start.label, e') := by
  obtain ⟨e, e', h1, h2, h3⟩ := C67_crosses hS (.inl ⟨p, τ, h⟩) hf
  refine ⟨e, e', h1, h2, ?_, oppF_eq h3⟩
  rcases chord_stop_cases hS.bordered h with ⟨v, hv, -⟩ | ⟨e2, he, hlt⟩
  · rw [h1] at hv; cases hv
  · rw [h1] at he; cases he
    exact (isDart_iff hS.bordered _).2 ⟨h.valid, hlt⟩

theorem segs_vertex (hS : S.Closed valid) {φ : L × ℕ → M} (hφ : ∀ a b, S.SameVertex valid a b → φ a = φ b) (segs : List (Seg L K))
    (hc : ∀ s ∈ segs, ∃ p τ, S.IsChord valid s p τ) (hf : segs.IsChain S.Follows) {first last : Seg L K} (h1 : segs.head? = some first)
    (h2 : segs.getLast? = some last) : (segs.map (S.segValue fun d => φ (S.oppF d) - φ d)).sum =
      φ (last.start.label, lastCorner last) - φ (first.start.label, S.firstCorner first) := by
  induction segs generalizing first with
  | nil => cases h1
  | cons s segs ih =>
    cases h1
    obtain ⟨p, τ, h⟩ := hc s List.mem_cons_self
    obtain ⟨c1, c2⟩ := corner_lt hS.bordered h
    have hs : S.segValue (fun d => φ (S.oppF d) - φ d) s = φ (s.start.label, lastCorner s) - φ (s.start.label, S.firstCorner s) := by
      unfold segValue
      rw [potential_vertex hS hφ h.valid c1.le, potential_vertex hS hφ h.valid c2.le, Nat.mod_eq_of_lt c1, Nat.mod_eq_of_lt c2]
      abel
    rw [List.map_cons, List.sum_cons, hs]
    cases segs with
    | nil => cases h2; simp
    | cons t segs =>
      rw [List.isChain_cons_cons] at hf
      rw [ih (fun x hx => hc x (List.mem_cons_of_mem _ hx)) hf.2 rfl (by rw [← h2, List.getLast?_cons_cons])]
      obtain ⟨e, e', k1, k2, k3, k4⟩ := follows_opp hS h hf.1
      have : φ (t.start.label, S.firstCorner t) = φ (s.start.label, lastCorner s) := by
        have h5 := hφ _ _ (hS.sameVertex_next (hS.oppF_dart k3))
        rw [hS.oppF_oppF k3, k4] at h5
        unfold firstCorner lastCorner
        rw [k1, k2]
        exact h5.symm
      rw [this]
      abel

/-! ### The way back -/

/-- The value of the edge in whose inside a segment starts or ends. -/
def edgeValue (w : L × ℕ → M) (l : L) : Poly.Position → M
  | .edgeInterior e => w (l, e)
  | _ => 0

theorem segValue_invert (hS : S.Bordered valid) (hw : S.EdgeCocycle valid w) {s : Seg L K} {p : Poly K} {τ : K} (h : S.IsChord valid s p τ) :
    S.segValue w s + S.segValue w s.invert = -edgeValue w s.start.label s.start.position - edgeValue w s.start.label s.stop.position := by
  have hface : potential w s.start.label (S.sides s.start.label) = 0 := hw.face _ h.valid
  have h0 : potential w s.start.label 0 = 0 := rfl
  have hmod : ∀ e, e < S.sides s.start.label → potential w s.start.label ((e + 1) % S.sides s.start.label) = potential w s.start.label (e + 1) := by
    intro e he
    rcases Nat.lt_or_ge (e + 1) (S.sides s.start.label) with h1 | h1
    · rw [Nat.mod_eq_of_lt h1]
    · have : e + 1 = S.sides s.start.label := by omega
      rw [this, Nat.mod_self, hface, h0]
  have key : ∀ t : Seg L K, t.start.label = s.start.label → (∀ e, t.start.position = .edgeInterior e → e < S.sides s.start.label) →
      potential w s.start.label (S.firstCorner t) - potential w s.start.label (lastCorner t.invert) = edgeValue w s.start.label t.start.position := by
    intro t ht hlt
    unfold firstCorner lastCorner Seg.invert
    dsimp only
    cases hp : t.start.position with
    | edgeInterior e =>
      dsimp only [edgeValue]
      rw [ht, hmod e (hlt e hp), potential_succ]
      abel
    | _ => simp [edgeValue]
  have k1 := key s rfl fun e he => by
    rcases chord_start_cases hS h with ⟨v, hv, -⟩ | ⟨e2, he2, hlt⟩
    · rw [he] at hv; cases hv
    · rw [he] at he2; cases he2; exact hlt
  have k2 := key s.invert h.label fun e he => by
    have he : s.stop.position = .edgeInterior e := he
    rcases chord_stop_cases hS h with ⟨v, hv, -⟩ | ⟨e2, he2, hlt⟩
    · rw [he] at hv; cases hv
    · rw [he] at he2; cases he2; exact hlt
  have hl : s.invert.start.label = s.start.label := h.label
  unfold segValue
  rw [hl, ← k1, show s.stop.position = s.invert.start.position from rfl, ← k2, show s.invert.invert = s from rfl]
  abel

theorem segs_invert (hS : S.Closed valid) (hw : S.EdgeCocycle valid w) (segs : List (Seg L K))
    (hc : ∀ s ∈ segs, ∃ p τ, S.IsChord valid s p τ) (hf : segs.IsChain S.Follows) {first last : Seg L K} (h1 : segs.head? = some first)
    (h2 : segs.getLast? = some last) : (segs.map fun s => S.segValue w s + S.segValue w s.invert).sum =
      -edgeValue w first.start.label first.start.position - edgeValue w last.start.label last.stop.position := by
  induction segs generalizing first with
  | nil => cases h1
  | cons s segs ih =>
    cases h1
    obtain ⟨p, τ, h⟩ := hc s List.mem_cons_self
    rw [List.map_cons, List.sum_cons, segValue_invert hS.bordered hw h]
    cases segs with
    | nil => cases h2; simp
    | cons t segs =>
      rw [List.isChain_cons_cons] at hf
      rw [ih (fun x hx => hc x (List.mem_cons_of_mem _ hx)) hf.2 rfl (by rw [← h2, List.getLast?_cons_cons])]
      obtain ⟨e, e', k1, k2, k3, k4⟩ := follows_opp hS h hf.1
      have : edgeValue w t.start.label t.start.position = -edgeValue w s.start.label s.stop.position := by
        rw [k1, k2]
        dsimp only [edgeValue]
        rw [← k4, hw.opp _ k3]
      rw [this]
      abel

/-! ### Vectors -/

omit [DecidableEq L] in
theorem potential_edges {l : L} {p : Poly K} (v : L × ℕ → Vec K) (hv : ∀ e, v (l, e) = p.edge e) (e : ℕ) : potential v l e = p.vertex e - p.vertex 0 := by
  induction e with
  | zero => simp [potential]
  | succ e ih =>
    rw [potential_succ, ih, hv]
    unfold Poly.edge
    abel

theorem segs_vector (hS : S.Closed valid) (ht : S.Translation valid) {v : L × ℕ → Vec K}
    (hv : ∀ l p e, valid l → S.polygon l = .ok p → v (l, e) = p.edge e) {segs : List (Seg L K)} {G : Similarity K} (hd : S.Develops segs G)
    (hc : ∀ s ∈ segs, ∃ p τ, S.IsChord valid s p τ) (hf : segs.IsChain S.Follows) {first last : Seg L K} (h1 : segs.head? = some first)
    (h2 : segs.getLast? = some last) {p q : Poly K} (hp : S.polygon first.start.label = .ok p) (hq : S.polygon last.start.label = .ok q) :
    (segs.map (S.segValue v)).sum + (last.stop.point - q.vertex (lastCorner last)) + (p.vertex (S.firstCorner first) - first.start.point) =
      G.call last.stop.point - first.start.point ∧ ∀ w, G.derivative.mulVec w = w := by
  induction hd generalizing first p with
  | single s =>
    simp only [List.head?_cons, List.getLast?_singleton, Option.some.injEq] at h1 h2
    subst h1 h2
    obtain ⟨p', τ, hch⟩ := hc s (by simp)
    rw [hp] at hq
    cases hq
    refine ⟨?_, fun w => by unfold Similarity.derivative Mat2.mulVec Similarity.one; ext <;> simp⟩
    rw [Similarity.C01_one_call, List.map_cons, List.sum_cons, List.map_nil, List.sum_nil, segValue,
      potential_edges v (fun e => hv _ _ e hch.valid hp), potential_edges v (fun e => hv _ _ e hch.valid hp)]
    abel
  | @cons s t rest k k' f G hk hk' hfg h ih =>
    cases h1
    rw [List.getLast?_cons_cons] at h2
    obtain ⟨p', τ, hch⟩ := hc s (by simp)
    have hpp := hch.polygon
    rw [hp] at hpp
    cases hpp
    rw [List.isChain_cons_cons] at hf
    obtain ⟨e, e', g, g1, g2, g3, g4, g5⟩ := follows_glue hS hch hf.1
    rw [hk] at g1; cases g1
    have hval : valid s.stop.label := by rw [hch.label]; exact hch.valid
    obtain ⟨-, -, rfl⟩ := glueTo_ext hS.bordered hval hfg g3
    obtain ⟨p1, p', e1, e2, e3, e4, e5⟩ := g3.ends
    rw [hch.label, hp] at e1
    cases e1
    obtain ⟨hsum, hder⟩ := ih (fun x hx => hc x (List.mem_cons_of_mem _ hx)) hf.2 rfl h2 e2
    have wf := develops_wf h
    have hi : g.inv.sign = 1 := hfg.sign
    have htr := gluesTo_translation hS ht hval hfg
    have hinv : ∀ w, g.inv.derivative.mulVec w = w := fun w => by
      have := (inv_deriv hfg.wf hfg.sign w).1
      rwa [htr] at this
    refine ⟨?_, fun w => by rw [mul_deriv hi wf.2, hder, hinv]⟩
    have a1 : g.inv.call (G.call last.stop.point) = G.call last.stop.point - t.start.point + s.stop.point := by
      have := Similarity.call_add hi t.start.point (G.call last.stop.point - t.start.point)
      rw [add_sub_cancel, hinv, g4, inv_call hfg.wf hfg.sign rfl, ← g4] at this
      rw [← this]
      abel
    rw [mul_call hi wf.2, a1, ← hsum, List.map_cons, List.sum_cons, segValue,
      potential_edges v (fun e => hv _ _ e hch.valid hp), potential_edges v (fun e => hv _ _ e hch.valid hp)]
    have a2 : p'.vertex (S.firstCorner t) - t.start.point = p.vertex (lastCorner s) - s.stop.point := by
      unfold firstCorner lastCorner
      rw [hk, g2]
      dsimp only
      rw [sides_eq e2]
      have a3 : p'.vertex ((e' + 1) % p'.length) = p'.vertex (e' + 1) := by unfold Poly.vertex; rw [Nat.mod_mod]
      have a4 := Similarity.call_add hfg.sign s.stop.point (p.vertex k - s.stop.point)
      rw [add_sub_cancel, htr, e4, ← g4] at a4
      rw [a3, a4]
    rw [a2]
    abel

end RSurf
end Flat
