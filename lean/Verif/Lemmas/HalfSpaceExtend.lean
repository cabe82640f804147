import Verif.Lemmas.HalfSpaceCycle

/-!
# Extending a point to a segment on the boundary

Helper lemmas about `Verif.Model.HyperbolicPolygon`: a point on the boundary of an intersection of half planes is extended to a segment on the boundary, unless the intersection is a single point.
-/

namespace Flat
namespace Hyp

variable {K F : Type} [Field K] [LinearOrder K] [IsStrictOrderedRing K] [Field F] [LinearOrder F] [IsStrictOrderedRing F]

/-- A point moved into a direction. -/
def shift (p d : K × K) (t : K) : K × K := (p.1 + t * d.1, p.2 + t * d.2)

omit [LinearOrder K] [IsStrictOrderedRing K] in
theorem val_shift (g : Geo K) (p d : K × K) (t : K) : g.val (shift p d t) = g.val p + t * (g.b * d.1 + g.c * d.2) := by
  simp only [Geo.val, shift]; ring

/-- A small step into a direction that does not leave any half plane at its boundary stays inside. -/
theorem exists_small {p d : K × K} : ∀ {l : List (Geo K)}, (∀ g ∈ l, 0 < g.val p ∨ (g.val p = 0 ∧ 0 ≤ g.b * d.1 + g.c * d.2)) →
    ∃ ε, 0 < ε ∧ ∀ t, 0 ≤ t → t ≤ ε → ∀ g ∈ l, 0 ≤ g.val (shift p d t) := by
  intro l
  induction l with
  | nil => intro _; exact ⟨1, one_pos, by simp⟩
  | cons g l ih =>
    intro h
    obtain ⟨ε, hε, hl⟩ := ih (fun g hg => h g (List.mem_cons_of_mem _ hg))
    have hg : ∃ δ, 0 < δ ∧ ∀ t, 0 ≤ t → t ≤ δ → 0 ≤ g.val (shift p d t) := by
      rcases h g (by simp) with hp | ⟨hp, hd⟩
      · by_cases hd : 0 ≤ g.b * d.1 + g.c * d.2
        · exact ⟨1, one_pos, fun t ht _ => by rw [val_shift]; nlinarith⟩
        · push Not at hd
          refine ⟨g.val p / -(g.b * d.1 + g.c * d.2), div_pos hp (by linarith), fun t ht h => ?_⟩
          rw [val_shift]
          rw [le_div_iff₀ (by linarith)] at h
          linarith
      · exact ⟨1, one_pos, fun t ht _ => by rw [val_shift]; nlinarith⟩
    obtain ⟨δ, hδ, hgd⟩ := hg
    refine ⟨min ε δ, lt_min hε hδ, fun t ht hte k hk => ?_⟩
    rcases List.mem_cons.mp hk with rfl | hk
    · exact hgd t ht (hte.trans (min_le_right _ _))
    · exact hl t ht (hte.trans (min_le_left _ _)) k hk

/-- If all turns are convex, then only the zero vector has a nonnegative product with all normals. -/
theorem convex_cone {n : ℕ} {X : ℕ → Geo K} (hn : 0 < n) (per : ∀ i, X (i + n) = X i) (hc : ∀ i, 0 < (X i).cross (X (i + 1))) {w : K × K} (hw : ∀ i, 0 ≤ (X i).b * w.1 + (X i).c * w.2) : w = (0, 0) := by
  by_contra hne
  have hN : 0 < w.1 * w.1 + w.2 * w.2 := by
    have : w.1 ≠ 0 ∨ w.2 ≠ 0 := by
      by_contra h
      push Not at h
      exact hne (Prod.ext h.1 h.2)
    rcases this with h | h
    · nlinarith [mul_self_pos.mpr h, mul_self_nonneg w.2]
    · nlinarith [mul_self_pos.mpr h, mul_self_nonneg w.1]
  set D : ℕ → K := fun i => (X i).b * w.1 + (X i).c * w.2 with hD
  set E : ℕ → K := fun i => w.1 * (X i).c - w.2 * (X i).b with hE
  have hrel : ∀ i, 0 < D i * E (i + 1) - D (i + 1) * E i := by
    intro i
    have : D i * E (i + 1) - D (i + 1) * E i = (w.1 * w.1 + w.2 * w.2) * (X i).cross (X (i + 1)) := by
      simp only [hD, hE, Geo.cross]; ring
    rw [this]; exact mul_pos hN (hc i)
  have hDp : ∀ i, 0 ≤ D i := hw
  have hD0 : ∀ i, 0 < D (i + 1) := by
    intro i
    refine lt_of_le_of_ne (hDp _) fun h0 => ?_
    have h1 := hrel i
    have h2 := hrel (i + 1)
    rw [← h0] at h1 h2
    have e1 : 0 < E (i + 1) := by
      by_contra hn; push Not at hn
      nlinarith [hDp i]
    nlinarith [hDp (i + 2)]
  have hmono : StrictMono fun i => E (i + 1) / D (i + 1) := by
    refine strictMono_nat_of_lt_succ fun i => ?_
    rw [div_lt_div_iff₀ (hD0 i) (hD0 (i + 1))]
    have := hrel (i + 1)
    linarith
  have h1 := hmono (show 0 < n from hn)
  have e : X (n + 1) = X 1 := by rw [Nat.add_comm n 1]; exact per 1
  simp only [hD, hE, Nat.zero_add] at h1
  rw [e] at h1
  exact lt_irrefl _ h1

/-- The loop over pairs of half spaces whose boundaries go through a common point. -/
theorem extendLoop_spec {p : K × K} : ∀ (l : List (Geo K × Geo K)), (∀ x ∈ l, x.1.Valid ∧ x.2.Valid ∧ Distinct x.1 x.2 ∧ x.1.val p = 0 ∧ x.2.val p = 0) →
    ∃ r, extendLoop l = .ok r ∧ (r = none → ∀ x ∈ l, 0 < x.1.cross x.2) ∧ (∀ g, r = some g → ∃ h, (g, h) ∈ l ∧ g.cross h ≤ 0) := by
  intro l
  induction l with
  | nil => intro _; exact ⟨none, rfl, by simp, by simp⟩
  | cons x l ih =>
    intro h
    obtain ⟨v1, v2, hd, p1, p2⟩ := h x (by simp)
    obtain ⟨r, hr, h1, h2⟩ := ih (fun y hy => h y (List.mem_cons_of_mem _ hy))
    obtain ⟨g, k⟩ := x
    simp only at v1 v2 hd p1 p2
    rcases config_cases v1 v2 hd with ⟨hc, he⟩ | ⟨hc, he⟩ | ⟨hc, -, he⟩ | ⟨hc, ho, -⟩
    · refine ⟨r, ?_, fun hn y hy => ?_, fun g' hg' => ?_⟩
      · simp only [extendLoop, he, bind, Except.bind, hr]
      · rcases List.mem_cons.mp hy with rfl | hy
        · exact hc
        · exact h1 hn y hy
      · obtain ⟨k', a, b⟩ := h2 g' hg'
        exact ⟨k', List.mem_cons_of_mem _ a, b⟩
    · refine ⟨some g, by simp only [extendLoop, he, bind, Except.bind, pure, Except.pure], by simp, fun g' hg' => ?_⟩
      cases hg'
      exact ⟨k, by simp, hc.le⟩
    · refine ⟨some g, by simp only [extendLoop, he, bind, Except.bind, pure, Except.pure], by simp, fun g' hg' => ?_⟩
      cases hg'
      exact ⟨k, by simp, hc.le⟩
    · exact absurd (opposite_of_point v1 hc (hd hc) p1 p2) ho

omit [LinearOrder K] [IsStrictOrderedRing K] in
theorem seqOf_rotate (L : List (Geo K)) (m i : ℕ) : seqOf (L.rotate m) i = seqOf L (i + m) := by
  by_cases h : L = []
  · subst h; simp [seqOf]
  · have hpos : 0 < L.length := List.length_pos_iff.mpr h
    unfold seqOf
    rw [List.length_rotate]
    have hi := Nat.mod_lt i hpos
    rw [List.getElem?_rotate hi]
    congr 2
    rw [Nat.mod_add_mod]

omit [LinearOrder K] [IsStrictOrderedRing K] in
theorem mem_zip_rotate {L : List (Geo K)} {x : Geo K × Geo K} (h : x ∈ L.zip (L.rotate 1)) : ∃ i < L.length, x = (seqOf L i, seqOf L (i + 1)) := by
  obtain ⟨i, hi, rfl⟩ := List.getElem_of_mem h
  rw [List.length_zip, List.length_rotate, min_self] at hi
  refine ⟨i, hi, ?_⟩
  rw [List.getElem_zip]
  congr 1
  · rw [seqOf_lt hi]
  · rw [← seqOf_rotate, seqOf_lt (by simpa using hi)]

omit [LinearOrder K] [IsStrictOrderedRing K] in
theorem zip_rotate_mem {L : List (Geo K)} {i : ℕ} (hi : i < L.length) : (seqOf L i, seqOf L (i + 1)) ∈ L.zip (L.rotate 1) := by
  have h1 : i < (L.zip (L.rotate 1)).length := by simpa using hi
  have : (L.zip (L.rotate 1))[i] = (seqOf L i, seqOf L (i + 1)) := by
    rw [List.getElem_zip]
    congr 1
    · rw [seqOf_lt hi]
    · rw [← seqOf_rotate, seqOf_lt (by simpa using hi)]
  rw [← this]; exact List.getElem_mem _

/-- The result of extending a point. -/
theorem extend_spec {l : List (Geo K)} (hl : CycList l) {p : K × K} (hp : ∀ g ∈ l, 0 ≤ g.val p) (h0 : ∃ g ∈ l, g.val p = 0) :
    ∃ r, extendToBoundary l p = .ok r ∧
      ((∃ g ∈ l, r = .halfSpace g ∧ g.val p = 0 ∧ ∃ q, q ≠ p ∧ g.val q = 0 ∧ ∀ h ∈ l, 0 ≤ h.val q) ∨
        (((r = .empty ∧ 1 < p.1 * p.1 + p.2 * p.2) ∨ (r = .point p ∧ p.1 * p.1 + p.2 * p.2 ≤ 1)) ∧
          ∀ (F : Type) [Field F] [LinearOrder F] [IsStrictOrderedRing F] (f : K →+* F), StrictMono f → ∀ z : F × F, InAll f l z → z = mapPt f p)) := by
  -- it suffices to find a direction
  have move : ∀ g ∈ l, g.val p = 0 → ∀ s : K, s ≠ 0 → (∀ h ∈ l, h.val p = 0 → 0 ≤ s * h.cross g) → ∃ q, q ≠ p ∧ g.val q = 0 ∧ ∀ h ∈ l, 0 ≤ h.val q := by
    intro g hg hg0 s hs hall
    obtain ⟨ε, hε, hsm⟩ := exists_small (p := p) (d := (s * g.c, -(s * g.b))) (l := l) (fun h hh => by
      rcases (hp h hh).lt_or_eq with h1 | h1
      · exact .inl h1
      · refine .inr ⟨h1.symm, ?_⟩
        have := hall h hh h1.symm
        simp only [Geo.cross] at this
        linarith)
    refine ⟨shift p (s * g.c, -(s * g.b)) ε, fun he => ?_, ?_, hsm ε hε.le le_rfl⟩
    · have e1 := congrArg Prod.fst he
      have e2 := congrArg Prod.snd he
      simp only [shift, add_eq_left, mul_eq_zero, neg_eq_zero, hε.ne', hs, false_or] at e1 e2
      exact (hl.valid g hg).proper.elim (· e2) (· e1)
    · rw [val_shift, hg0]; ring
  have hfil : ∀ g, g ∈ l.filter (fun g => g.containsCoords p.1 p.2) ↔ g ∈ l ∧ g.val p = 0 := by
    intro g
    rw [List.mem_filter]
    simp only [Geo.containsCoords, decide_eq_true_iff]
    rfl
  have hsub : (l.filter (fun g => g.containsCoords p.1 p.2)).Sublist l := List.filter_sublist
  match hm : l.filter (fun g => g.containsCoords p.1 p.2) with
  | [] =>
    obtain ⟨g, hg, hg0⟩ := h0
    have := (hfil g).2 ⟨hg, hg0⟩
    rw [hm] at this
    simp at this
  | [g] =>
    obtain ⟨hg, hg0⟩ := (hfil g).1 (by rw [hm]; simp)
    refine ⟨_, by simp only [extendToBoundary, hm], .inl ⟨g, hg, rfl, hg0, move g hg hg0 1 one_ne_zero fun h hh hh0 => ?_⟩⟩
    have := (hfil h).2 ⟨hh, hh0⟩
    rw [hm, List.mem_singleton] at this
    subst this
    simp only [Geo.cross]; exact le_of_eq (by ring)
  | [g, k] =>
    obtain ⟨hg, hg0⟩ := (hfil g).1 (by rw [hm]; simp)
    refine ⟨_, by simp only [extendToBoundary, hm], .inl ⟨g, hg, rfl, hg0, ?_⟩⟩
    have hself : ∀ s : K, s * g.cross g = 0 := fun s => by simp only [Geo.cross]; ring
    have hmem : ∀ h ∈ l, h.val p = 0 → h = g ∨ h = k := by
      intro h hh hh0
      have := (hfil h).2 ⟨hh, hh0⟩
      rw [hm] at this
      simpa using this
    by_cases hc : 0 ≤ k.cross g
    · refine move g hg hg0 1 one_ne_zero fun h hh hh0 => ?_
      rcases hmem h hh hh0 with rfl | rfl
      · exact (hself 1).ge
      · simpa using hc
    · push Not at hc
      refine move g hg hg0 (-1) (by norm_num) fun h hh hh0 => ?_
      rcases hmem h hh hh0 with rfl | rfl
      · exact (hself (-1)).ge
      · linarith
  | h1 :: h2 :: h3 :: hs' =>
    set hs := h1 :: h2 :: h3 :: hs' with hhs
    have hne : hs ≠ [] := by simp [hhs]
    have hcl : CycList hs := by rw [← hm]; exact hl.sub hsub
    have hdir := hcl.dir hne
    have hmem : ∀ g ∈ hs, g ∈ l ∧ g.val p = 0 := fun g hg => (hfil g).1 (by rw [hm]; exact hg)
    have hlen : 3 ≤ hs.length := by simp [hhs]
    have hpair : ∀ x ∈ hs.zip (hs.rotate 1), x.1.Valid ∧ x.2.Valid ∧ Distinct x.1 x.2 ∧ x.1.val p = 0 ∧ x.2.val p = 0 := by
      intro x hx
      obtain ⟨i, hi, rfl⟩ := mem_zip_rotate hx
      exact ⟨hdir.valid i, hdir.valid (i + 1), hdir.dist i (i + 1) (by omega) (by omega), (hmem _ (seqOf_mem hdir.pos i)).2, (hmem _ (seqOf_mem hdir.pos (i + 1))).2⟩
    obtain ⟨r, hr, hnone, hsome⟩ := extendLoop_spec (p := p) _ hpair
    have hgoal : extendToBoundary l p =
        (match (generalizing := false) r with
          | some g => Except.ok (ConvexSet.halfSpace g)
          | none => if p.1 * p.1 + p.2 * p.2 > 1 then .ok .empty else .ok (.point p)) := by
      simp only [extendToBoundary, hm, hhs]
      simp only [hhs] at hr
      simp only [hr, bind, Except.bind, pure, Except.pure]
      cases r <;> rfl
    rw [hgoal]
    cases r with
    | some g =>
      refine ⟨_, rfl, .inl ⟨g, ?_⟩⟩
      obtain ⟨k, hk, hck⟩ := hsome g rfl
      obtain ⟨i, hi, he⟩ := mem_zip_rotate hk
      simp only [Prod.mk.injEq] at he
      obtain ⟨rfl, rfl⟩ := he
      obtain ⟨hg, hg0⟩ := hmem _ (seqOf_mem hdir.pos i)
      refine ⟨hg, rfl, hg0, move _ hg hg0 1 one_ne_zero fun h hh hh0 => ?_⟩
      rw [one_mul]
      have hh' : h ∈ hs := by rw [← hm]; exact (hfil h).2 ⟨hh, hh0⟩
      obtain ⟨j, hj, rfl⟩ := exists_seqOf hh'
      -- an index following i
      have hcyc : ∃ k, i ≤ k ∧ k < i + hs.length ∧ seqOf hs k = seqOf hs j := by
        by_cases hij : i ≤ j
        · exact ⟨j, hij, by omega, rfl⟩
        · exact ⟨j + hs.length, by omega, by omega, seqOf_per _ _⟩
      obtain ⟨k, hk1, hk2, hk3⟩ := hcyc
      rw [← hk3]
      rcases eq_or_lt_of_le hk1 with rfl | hk1
      · simp only [Geo.cross]; exact le_of_eq (by ring)
      · rw [cross_swap]
        by_cases hk4 : k = i + 1
        · rw [hk4]; linarith
        · have := (hdir.tri i (i + 1) k (by omega) (by omega) hk2).1 hck
          linarith
    | none =>
      have hconv := hnone rfl
      have hall : ∀ i, 0 < (seqOf hs i).cross (seqOf hs (i + 1)) := by
        intro i
        have e1 : seqOf hs i = seqOf hs (i % hs.length) := by simp [seqOf]
        have e2 : seqOf hs (i + 1) = seqOf hs (i % hs.length + 1) := by simp [seqOf]
        rw [e1, e2]
        exact hconv _ (zip_rotate_mem (Nat.mod_lt _ hdir.pos))
      have huniq : ∀ (F : Type) [Field F] [LinearOrder F] [IsStrictOrderedRing F] (f : K →+* F), StrictMono f → ∀ z : F × F, InAll f l z → z = mapPt f p := by
        intro F _ _ _ f hf z hz
        have := convex_cone (X := fun i => (seqOf hs i).map f) (w := (z.1 - f p.1, z.2 - f p.2)) hdir.pos (fun i => by simp only [seqOf_per])
          (fun i => by rw [cross_map]; exact (pos_map hf).2 (hall i)) (fun i => by
            obtain ⟨hg, hg0⟩ := hmem _ (seqOf_mem hdir.pos i)
            have a1 := hz _ hg
            have a2 := val_mapPt f (seqOf hs i) p
            rw [hg0, map_zero] at a2
            simp only [Geo.val, mapPt] at a1 a2 ⊢
            linarith)
        simp only [Prod.mk.injEq] at this
        exact Prod.ext (by simp only [mapPt]; linarith [this.1]) (by simp only [mapPt]; linarith [this.2])
      by_cases hu : p.1 * p.1 + p.2 * p.2 > 1
      · simp only [if_pos hu]
        exact ⟨_, rfl, .inr ⟨.inl ⟨rfl, hu⟩, huniq⟩⟩
      · simp only [if_neg hu]
        exact ⟨_, rfl, .inr ⟨.inr ⟨rfl, not_lt.mp hu⟩, huniq⟩⟩

/-- A segment on the boundary of the intersection. -/
def HasEdge (l : List (Geo K)) (g : Geo K) : Prop := ∃ p q, p ≠ q ∧ g.val p = 0 ∧ g.val q = 0 ∧ (∀ h ∈ l, 0 ≤ h.val p) ∧ ∀ h ∈ l, 0 ≤ h.val q

/-- The outcome of the search for a segment on the boundary. -/
theorem euclideanBoundary_spec {pick : Interval K → K} (hpick : PickOk pick) {l s : List (Geo K)} (hl : CycList l) (hne : l ≠ []) (hs : s.Perm l) :
    ∃ r, euclideanBoundary pick s l = .ok r ∧
      ((∃ g ∈ l, r = .halfSpace g ∧ HasEdge l g) ∨
        (∃ p, r = .point p ∧ p.1 * p.1 + p.2 * p.2 ≤ 1 ∧ (∀ g ∈ l, 0 ≤ g.val p) ∧
          ∀ (F : Type) [Field F] [LinearOrder F] [IsStrictOrderedRing F] (f : K →+* F), StrictMono f → ∀ z : F × F, InAll f l z → z = mapPt f p) ∨
        (r = .empty ∧ ∀ (F : Type) [Field F] [LinearOrder F] [IsStrictOrderedRing F] (f : K →+* F), StrictMono f → ∀ z : F × F, z.1 * z.1 + z.2 * z.2 ≤ 1 → ¬InAll f l z)) := by
  have single : ∀ g, l = [g] → HasEdge l g := by
    rintro g rfl
    have hg := hl.valid g (by simp)
    obtain ⟨e, -, he0, -, -, -⟩ := exists_base hg
    have h1 : g.val (along g e 1) = 0 := by rw [val_along, he0]; simp only [Geo.cross]; ring
    refine ⟨e, along g e 1, fun h => ?_, he0, h1, by simp [he0], by simp [h1]⟩
    have e1 := congrArg Prod.fst h
    have e2 := congrArg Prod.snd h
    simp only [along, one_mul, left_eq_add, neg_eq_zero] at e1 e2
    exact hg.proper.elim (· e2) (· e1)
  match l, hne with
  | [g], _ => exact ⟨_, rfl, .inl ⟨g, by simp, rfl, single g rfl⟩⟩
  | g1 :: g2 :: l', _ =>
    set l := g1 :: g2 :: l' with hl'
    match s, hs with
    | [], hs => exact absurd hs.symm.eq_nil (by simp [hl'])
    | g :: s', hs =>
      have hmem : ∀ x, x ∈ g :: s' ↔ x ∈ l := fun x => hs.mem_iff
      have hg := hl.valid g ((hmem g).1 (by simp))
      obtain ⟨e, he, he0, -, -, -⟩ := exists_base hg
      obtain ⟨r, hr, hn, hsm⟩ := findPoint_spec hpick (g :: s') [] e (fun x hx => hl.valid x ((hmem x).1 hx)) (by simp) ⟨g, by simp, he0⟩
      have hun : euclideanBoundary pick (g :: s') l = (match (generalizing := false) r with
          | none => .ok .empty
          | some p => extendToBoundary l p) := by
        simp only [euclideanBoundary, hl', he, hr, bind, Except.bind, pure, Except.pure]
        cases r <;> rfl
      rw [hun]
      cases r with
      | none =>
        refine ⟨_, rfl, .inr (.inr ⟨rfl, fun F _ _ _ f hf z _ hz => hn rfl F f hf z fun x hx => hz x ((hmem x).1 (by simpa using hx))⟩)⟩
      | some p =>
        obtain ⟨h1, k, hk, hk0⟩ := hsm p rfl
        rw [List.nil_append] at h1 hk
        have hp : ∀ x ∈ l, 0 ≤ x.val p := fun x hx => h1 x ((hmem x).2 hx)
        obtain ⟨r', hr', hcase⟩ := extend_spec hl hp ⟨k, (hmem k).1 hk, hk0⟩
        refine ⟨r', hr', ?_⟩
        rcases hcase with ⟨x, hx, rfl, hx0, q, hq, hq0, hqa⟩ | ⟨⟨rfl, hu⟩ | ⟨rfl, hu⟩, huniq⟩
        · exact .inl ⟨x, hx, rfl, p, q, hq.symm, hx0, hq0, hp, hqa⟩
        · refine .inr (.inr ⟨rfl, fun F _ _ _ f hf z hz hza => ?_⟩)
          rw [huniq F f hf z hza] at hz
          simp only [mapPt] at hz
          rw [← map_mul, ← map_mul, ← map_add, ← map_one f, hf.le_iff_le] at hz
          linarith
        · exact .inr (.inl ⟨p, rfl, hu, hp, huniq⟩)

end Hyp
end Flat
