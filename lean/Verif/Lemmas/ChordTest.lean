import Verif.Model.Triangulation
import Verif.Lemmas.LocalPosition

/-!
# The test for chords

The chords that `triangulation()` accepts do not meet the sides of the polygon, and there is such a chord.
-/

namespace Flat
namespace Poly
variable {K : Type} [Field K] [LinearOrder K] [IsStrictOrderedRing K]

/-- A direction is in one of the two sectors, or on one of the two rays. -/
theorem between_or {x y d : Vec K} (hx : x ≠ 0) (hy : y ≠ 0) (hd : d ≠ 0) (hxy : isParallel x y = false) :
    isBetween x y d = true ∨ isBetween y x d = true ∨ isParallel x d = true ∨ isParallel y d = true := by
  by_cases h1 : isBetween y x d = true
  · exact .inr (.inl h1)
  by_cases h2 : isParallel y d = true
  · exact .inr (.inr (.inr h2))
  rcases (sector_cases hx hy hd hxy).1 ⟨by simpa using h1, by simpa using h2⟩ with h | h
  · exact .inr (.inr (.inl h))
  · exact .inl h

/-- A direction between two vectors is not on the rays. -/
theorem between_off {x y d : Vec K} (hx : x ≠ 0) (hy : y ≠ 0) (hxy : isParallel x y = false) (h : isBetween x y d = true) (t r : K)
    (ht : 0 < t) (hr : 0 ≤ r) : t • d ≠ r • x ∧ t • d ≠ r • y := by
  have hcx : t • d = r • x → ccw x d = 0 ∧ t * ccw d y = r * ccw x y := by
    intro e
    have e1 := congrArg Prod.fst e
    have e2 := congrArg Prod.snd e
    simp only [Prod.smul_fst, Prod.smul_snd, smul_eq_mul] at e1 e2
    constructor
    · have : t * ccw x d = 0 := by
        simp only [ccw]; linear_combination x.1 * e2 - x.2 * e1
      exact (mul_eq_zero.1 this).resolve_left ht.ne'
    · simp only [ccw]; linear_combination y.2 * e1 - y.1 * e2
  have hcy : t • d = r • y → ccw d y = 0 ∧ t * ccw x d = r * ccw x y := by
    intro e
    have e1 := congrArg Prod.fst e
    have e2 := congrArg Prod.snd e
    simp only [Prod.smul_fst, Prod.smul_snd, smul_eq_mul] at e1 e2
    constructor
    · have : t * ccw d y = 0 := by
        simp only [ccw]; linear_combination y.2 * e1 - y.1 * e2
      exact (mul_eq_zero.1 this).resolve_left ht.ne'
    · simp only [ccw]; linear_combination x.1 * e2 - x.2 * e1
  rcases (isBetween_iff' hx hy hxy).1 h with ⟨h1, h2, h3⟩ | ⟨h1, h2⟩ | ⟨h1, h2⟩
  · exact ⟨fun e => h2.ne' (hcx e).1, fun e => h3.ne' (hcy e).1⟩
  · refine ⟨fun e => h2.ne' (hcx e).1, fun e => ?_⟩
    have := (hcy e).2
    rw [h1, mul_zero] at this
    exact h2.ne' ((mul_eq_zero.1 this).resolve_left ht.ne')
  · constructor
    · intro e
      obtain ⟨a1, a2⟩ := hcx e
      rcases h2 with h2 | h2
      · exact h2.ne' a1
      · have := mul_pos ht h2
        nlinarith
    · intro e
      obtain ⟨a1, a2⟩ := hcy e
      rcases h2 with h2 | h2
      · have := mul_pos ht h2
        nlinarith
      · exact h2.ne' a1

theorem parallel_smul {x d : Vec K} (hx : x ≠ 0) (h : isParallel x d = true) : ∃ k : K, 0 < k ∧ d = k • x := by
  obtain ⟨h1, h2⟩ := (isParallel_iff' _ _).1 h
  have hpos : 0 < dot x x := by
    unfold dot
    rcases lt_or_eq_of_le (add_nonneg (mul_self_nonneg x.1) (mul_self_nonneg x.2)) with h | h
    · exact h
    · exfalso
      apply hx
      have a1 := mul_self_nonneg x.1
      have a2 := mul_self_nonneg x.2
      exact Prod.ext (mul_self_eq_zero.1 (by linarith)) (mul_self_eq_zero.1 (by linarith))
  refine ⟨dot x d / dot x x, div_pos h2 hpos, ?_⟩
  have hne := hpos.ne'
  unfold ccw at h1
  unfold dot at hne hpos h2 ⊢
  ext
  · simp only [Prod.smul_fst, smul_eq_mul]
    rw [div_mul_eq_mul_div, eq_div_iff hne]
    linear_combination x.2 * h1 * (-1)
  · simp only [Prod.smul_snd, smul_eq_mul]
    rw [div_mul_eq_mul_div, eq_div_iff hne]
    linear_combination x.1 * h1

theorem edge_prev (p : Poly K) (hv : p.Valid) (i : ℕ) :
    -p.edge (i + (p.length - 1)) = p.vertex (i + (p.length - 1)) - p.vertex i := by
  unfold edge
  rw [vertex_prev p hv, neg_sub]

/-- The angle of a chord at its start. -/
def angleAt (p : Poly K) (i : ℕ) (w : Vec K) : Bool :=
  isBetween (p.vertex (i + 1) - p.vertex i) (p.vertex (i + (p.length - 1)) - p.vertex i) (w - p.vertex i)

omit [IsStrictOrderedRing K] in
theorem chordAngles_iff {p : Poly K} {i j : ℕ} :
    p.chordAngles i j = true ↔ p.angleAt i (p.vertex j) = true ∧ p.angleAt j (p.vertex i) = true := by
  unfold chordAngles angleAt
  rw [Bool.and_eq_true, neg_sub]

/-- A chord leaving into the polygon starts inside of the polygon. -/
theorem angleAt_interior {p : Poly K} (hv : p.Valid) {i : ℕ} (hi : i < p.length) {w : Vec K} (h : p.angleAt i w = true) :
    ∃ ε : K, 0 < ε ∧ ∀ s : K, 0 < s → s ≤ ε → p.pointPosition (p.vertex i + s • (w - p.vertex i)) = .interior := by
  refine (vertex_local hv hi _).1 ?_
  rw [edge_prev p hv]
  exact h

/-- A chord leaving into the polygon is not on the sides at the vertex. -/
theorem angleAt_off {p : Poly K} (hv : p.Valid) {i : ℕ} (hi : i < p.length) {w : Vec K} (h : p.angleAt i w = true) {j : ℕ}
    (hj : p.vertex i ∈ p.side j) {q : Vec K} (hq : q ∈ segPts (p.vertex i, w)) (hq' : q ∈ p.side j) : q = p.vertex i := by
  obtain ⟨t, t0, t1, rfl⟩ := hq
  dsimp only at hq' ⊢
  rcases t0.eq_or_lt with rfl | tp
  · simp
  exfalso
  have hx := hv.edge_ne i
  have hy := neg_ne_zero.2 (hv.edge_ne (i + (p.length - 1)))
  have hxy := RSurf.turn_prev hv hi
  have hb : isBetween (p.edge i) (-p.edge (i + (p.length - 1))) (w - p.vertex i) = true := by
    rw [edge_prev p hv]; exact h
  exact vertex_off hv i (fun r hr => (between_off hx hy hxy hb t r tp hr).1) (fun r hr => (between_off hx hy hxy hb t r tp hr).2) hj hq'

/-- A segment to another vertex that starts inside of the polygon, and does not run along a side, has a good angle. -/
theorem angleAt_of {p : Poly K} (hv : p.Valid) {i : ℕ} (hi : i < p.length) {w : Vec K} (hw : w ≠ p.vertex i)
    (h : ∀ ε : K, 0 < ε → ∃ s : K, 0 < s ∧ s ≤ ε ∧ p.pointPosition (p.vertex i + s • (w - p.vertex i)) ≠ .outside)
    (hoff : ∀ j, p.vertex i ∈ p.side j → ∀ q, q ∈ segPts (p.vertex i, w) → q ∈ p.side j → q = p.vertex i ∨ q = w) :
    p.angleAt i w = true := by
  have hx := hv.edge_ne i
  have hy := neg_ne_zero.2 (hv.edge_ne (i + (p.length - 1)))
  have hxy := RSurf.turn_prev hv hi
  have hd : w - p.vertex i ≠ 0 := sub_ne_zero.2 hw
  have hray : ∀ (e : Vec K) (j : ℕ), e ≠ 0 → p.vertex i ∈ p.side j → (∀ s : K, 0 < s → s < 1 → p.vertex i + s • e ∈ p.side j) →
      isParallel e (w - p.vertex i) = true → False := by
    intro e j he hj hs hp
    obtain ⟨k, hk, hwk⟩ := parallel_smul he hp
    obtain ⟨m, m0, m1, m2⟩ : ∃ m : K, 0 < m ∧ m < 1 ∧ m * k < 1 := by
      refine ⟨min (1 / 2) (1 / (2 * k)), lt_min one_half_pos (by positivity), (min_le_left _ _).trans_lt one_half_lt_one, ?_⟩
      have : min (1 / 2) (1 / (2 * k)) * k ≤ 1 / (2 * k) * k := mul_le_mul_of_nonneg_right (min_le_right _ _) hk.le
      have h2 : 1 / (2 * k) * k = 1 / 2 := by field_simp
      rw [h2] at this
      exact this.trans_lt one_half_lt_one
    rcases hoff j hj (p.vertex i + m • (w - p.vertex i)) ⟨_, m0.le, m1.le, rfl⟩ (by
      rw [hwk, smul_smul]
      exact hs _ (mul_pos m0 hk) m2) with h3 | h3
    · have h3 : m • (w - p.vertex i) = 0 := by simpa using h3
      exact m0.ne' (smul_vec_zero h3 hd)
    · have h4 : (1 - m) • (w - p.vertex i) = 0 := by
        rw [sub_smul, one_smul, sub_eq_zero]
        exact (eq_sub_of_add_eq' h3).symm
      have := smul_vec_zero h4 hd
      linarith
  have hb : isBetween (p.edge i) (-p.edge (i + (p.length - 1))) (w - p.vertex i) = true := by
    rcases between_or hx hy hd hxy with hb | hb | hb | hb
    · exact hb
    · obtain ⟨ε, h0, h1⟩ := (vertex_local hv hi _).2 hb
      obtain ⟨s, s0, s1, hs⟩ := h ε h0
      exact absurd (h1 s s0 s1) hs
    · exact (hray _ i hx (left_mem_segPts _ _) (fun s s0 s1 => ⟨s, s0.le, s1.le, rfl⟩) hb).elim
    · refine (hray _ (i + (p.length - 1)) hy ?_ (fun s s0 s1 => ?_) hb).elim
      · unfold side
        rw [vertex_prev p hv]
        exact segPts_comm (left_mem_segPts _ _)
      · obtain ⟨r, r0, r1, hr⟩ := ray_openSide_prev hv i s s0 s1
        exact ⟨r, r0.le, r1.le, hr⟩
  rw [edge_prev p hv] at hb
  exact hb

theorem Valid.vertex_lt_inj {p : Poly K} (hv : p.Valid) {i j : ℕ} (hi : i < p.length) (hj : j < p.length) (h : p.vertex i = p.vertex j) : i = j :=
  hv.isSimplePoly.inj i (List.mem_range.2 hi) j (List.mem_range.2 hj) h

/-- The sides that are not looked at. -/
def AtChord (n i j k : ℕ) : Prop := k = i ∨ k = j ∨ k = (i + (n - 1)) % n ∨ k = (j + (n - 1)) % n

theorem prev_of_succ {n i k : ℕ} (hi : i < n) (hk : k < n) (h : (k + 1) % n = i) : k = (i + (n - 1)) % n := by
  subst h
  rcases Nat.lt_or_ge (k + 1) n with h1 | h1
  · rw [Nat.mod_eq_of_lt h1, show k + 1 + (n - 1) = k + n by omega, Nat.add_mod_right, Nat.mod_eq_of_lt hk]
  · obtain rfl : n = k + 1 := by omega
    simp

theorem succ_of_prev {n i k : ℕ} (hi : i < n) (h : k = (i + (n - 1)) % n) : (k + 1) % n = i := by
  rw [h, Nat.mod_add_mod, show i + (n - 1) + 1 = i + n by omega, Nat.add_mod_right, Nat.mod_eq_of_lt hi]

/-- The loop over the sides does not fail. -/
theorem chordFree_spec {p : Poly K} (hv : p.Valid) {i j : ℕ} (hi : i < p.length) (hj : j < p.length) (hij : i ≠ j) (ks : List ℕ)
    (hks : ∀ k ∈ ks, k < p.length) :
    ∃ b, p.chordFree i j ks = .ok b ∧
      (b = true ↔ ∀ k ∈ ks, ¬ AtChord p.length i j k → segPts (p.vertex i, p.vertex j) ∩ p.side k = ∅) := by
  have hn := hv.len3
  have hne : p.vertex i ≠ p.vertex j := fun h => hij (hv.vertex_lt_inj hi hj h)
  induction ks with
  | nil => exact ⟨true, rfl, by simp⟩
  | cons k ks ih =>
    obtain ⟨b, hb, hbi⟩ := ih fun k hk => hks k (List.mem_cons_of_mem _ hk)
    have hk := hks k (by simp)
    unfold chordFree
    by_cases hc : AtChord p.length i j k
    · rw [if_pos (show k = i ∨ _ from hc)]
      refine ⟨b, hb, hbi.trans ⟨fun h k' hk' hn => ?_, fun h k' hk' => h k' (List.mem_cons_of_mem _ hk')⟩⟩
      rcases List.mem_cons.1 hk' with rfl | hk'
      · exact absurd hc hn
      · exact h k' hk' hn
    · rw [if_neg (show ¬ (k = i ∨ _) from hc)]
      have hkne : p.vertex k ≠ p.vertex (k + 1) := fun h => hv.edge_ne k (by unfold edge; rw [h, sub_self])
      have hsp := C07_isSegmentIntersecting_spec (p.vertex i, p.vertex j) (p.vertex k, p.vertex (k + 1)) hne hkne
      have hz := C07_zero_iff (p.vertex i, p.vertex j) (p.vertex k, p.vertex (k + 1)) hne hkne
      change _ ↔ segPts (p.vertex i, p.vertex j) ∩ p.side k = ∅ at hz
      cases hr : isSegmentIntersecting (p.vertex i, p.vertex j) (p.vertex k, p.vertex (k + 1)) with
      | zero =>
        refine ⟨b, hb, hbi.trans ⟨fun h k' hk' hn => ?_, fun h k' hk' => h k' (List.mem_cons_of_mem _ hk')⟩⟩
        rcases List.mem_cons.1 hk' with rfl | hk'
        · exact hz.1 hr
        · exact h k' hk' hn
      | one =>
        exfalso
        rw [hr] at hsp
        obtain ⟨x, -, h1, h2⟩ := hsp
        apply hc
        have key : ∀ m, m < p.length → x = p.vertex m → k = m ∨ k = (m + (p.length - 1)) % p.length := by
          intro m hm hx
          rcases h2 with h2 | h2
          · exact .inl (hv.vertex_lt_inj hk hm (h2.symm.trans hx))
          · refine .inr (prev_of_succ hm hk (hv.vertex_lt_inj (Nat.mod_lt _ (by omega)) hm ?_))
            rw [vertex_mod]
            exact h2.symm.trans hx
        rcases h1 with h1 | h1
        · rcases key i hi h1 with h | h
          · exact .inl h
          · exact .inr (.inr (.inl h))
        · rcases key j hj h1 with h | h
          · exact .inr (.inl h)
          · exact .inr (.inr (.inr h))
      | two =>
        refine ⟨false, rfl, ?_⟩
        simp only [Bool.false_eq_true, false_iff]
        intro h
        have := hz.2 (h k (by simp) hc)
        rw [hr] at this
        cases this
      | valueError => rw [hr] at hsp; exact hsp.elim
      | assertionError => rw [hr] at hsp; exact hsp.elim

/-- The chords that can be used. -/
theorem chordGood_spec {p : Poly K} (hv : p.Valid) {i j : ℕ} (hi : i < p.length) (hj : j < p.length) (hij : i ≠ j) :
    ∃ b, p.chordGood i j = .ok b ∧
      (b = true ↔ p.angleAt i (p.vertex j) = true ∧ p.angleAt j (p.vertex i) = true ∧ Chord p.vertex (List.range p.length) i j) := by
  have hn := hv.len3
  unfold chordGood
  by_cases ha : p.chordAngles i j = true
  · rw [if_pos ha]
    obtain ⟨a1, a2⟩ := chordAngles_iff.1 ha
    obtain ⟨b, hb, hbi⟩ := chordFree_spec hv hi hj hij (List.range p.length) (fun k hk => List.mem_range.1 hk)
    refine ⟨b, hb, hbi.trans ⟨fun h => ⟨a1, a2, ?_⟩, fun ⟨_, _, h⟩ k hk hc => ?_⟩⟩
    · -- the sides
      have hall : ∀ k < p.length, ∀ q, q ∈ segPts (p.vertex i, p.vertex j) → q ∈ p.side k →
          (q = p.vertex i ∧ (i = k ∨ i = (k + 1) % p.length)) ∨ (q = p.vertex j ∧ (j = k ∨ j = (k + 1) % p.length)) := by
        intro k hk q hq hq'
        by_cases hc : AtChord p.length i j k
        · rcases hc with rfl | rfl | hc | hc
          · exact .inl ⟨angleAt_off hv hi a1 (left_mem_segPts _ _) hq hq', .inl rfl⟩
          · exact .inr ⟨angleAt_off hv hj a2 (left_mem_segPts _ _) (segPts_comm hq) hq', .inl rfl⟩
          · have e := succ_of_prev hi hc
            refine .inl ⟨angleAt_off hv hi a1 ?_ hq hq', .inr e.symm⟩
            have := segPts_comm (left_mem_segPts (p.vertex (k + 1)) (p.vertex k))
            rw [← p.vertex_mod (k + 1), e] at this
            unfold side
            rw [← p.vertex_mod (k + 1), e]
            exact this
          · have e := succ_of_prev hj hc
            refine .inr ⟨angleAt_off hv hj a2 ?_ (segPts_comm hq) hq', .inr e.symm⟩
            have := segPts_comm (left_mem_segPts (p.vertex (k + 1)) (p.vertex k))
            rw [← p.vertex_mod (k + 1), e] at this
            unfold side
            rw [← p.vertex_mod (k + 1), e]
            exact this
        · exact absurd (Set.mem_inter hq hq') (by rw [h k (List.mem_range.2 hk) hc]; exact Set.notMem_empty _)
      intro y hy q hq hq'
      obtain ⟨y1, y2⟩ := y
      obtain ⟨h1, h2⟩ := mem_cyc_range.1 hy
      dsimp only at h1 h2 hq' ⊢
      subst h2
      refine hall y1 h1 q hq ?_
      rw [vertex_mod] at hq'
      exact hq'
    · have hk' := List.mem_range.1 hk
      rw [Set.eq_empty_iff_forall_notMem]
      rintro q ⟨hq, hq'⟩
      rcases h (k, (k + 1) % p.length) (mem_cyc_range.2 ⟨hk', rfl⟩) q hq (by dsimp only; rw [vertex_mod]; exact hq') with ⟨-, h | h⟩ | ⟨-, h | h⟩
      · exact hc (.inl h.symm)
      · exact hc (.inr (.inr (.inl (prev_of_succ hi hk' h.symm))))
      · exact hc (.inr (.inl h.symm))
      · exact hc (.inr (.inr (.inr (prev_of_succ hj hk' h.symm))))
  · rw [if_neg ha]
    refine ⟨false, rfl, ?_⟩
    simp only [Bool.false_eq_true, false_iff]
    exact fun h => ha (chordAngles_iff.2 ⟨h.1, h.2.1⟩)

/-- Looking for a chord does not fail, if there is one. -/
theorem findChord_some {p : Poly K} (xs : List (ℕ × ℕ)) (h1 : ∀ x ∈ xs, ∃ b, p.chordGood x.1 x.2 = .ok b)
    (h2 : ∃ x ∈ xs, p.chordGood x.1 x.2 = .ok true) : ∃ x, p.findChord xs = .ok (some x) := by
  induction xs with
  | nil => obtain ⟨x, hx, -⟩ := h2; cases hx
  | cons y xs ih =>
    obtain ⟨b, hb⟩ := h1 y (by simp)
    unfold findChord
    rw [hb]
    cases b with
    | true => exact ⟨y, rfl⟩
    | false =>
      refine ih (fun x hx => h1 x (List.mem_cons_of_mem _ hx)) ?_
      obtain ⟨x, hx, hg⟩ := h2
      rcases List.mem_cons.1 hx with rfl | hx
      · rw [hb] at hg; cases hg
      · exact ⟨x, hx, hg⟩

/-- There is a chord. -/
theorem exists_chord {p : Poly K} (hv : p.Valid) (hn : 3 < p.length) :
    ∃ x ∈ chordPairs p.length, p.chordGood x.1 x.2 = .ok true := by
  obtain ⟨T, hT⟩ := hv.exists_tri
  have hS := hv.isSimplePoly
  obtain ⟨a, b, c, ht, hab, hbc⟩ := hT.exists_ear hS.nodup
  have hpos := hT.pos _ _ _ ht
  have hcor : Corner p.vertex (List.range p.length) 1 a b c := ⟨hS, hab, hbc, hpos⟩
  obtain ⟨n1, n2, n3⟩ := hcor.ne
  obtain ⟨ha, hb⟩ := mem_cyc_range.1 hab
  obtain ⟨hb', hc⟩ := mem_cyc_range.1 hbc
  dsimp only at ha hb hb' hc
  have hcn : c < p.length := by rw [hc]; exact Nat.mod_lt _ (by omega)
  have hca : (c, a) ∉ cyc (List.range p.length) := by
    intro h
    have h2 := (mem_cyc_range.1 h).2
    dsimp only at h2
    rw [hc, Nat.mod_add_mod, hb, add_assoc, Nat.mod_add_mod] at h2
    have : a ≡ a + 3 [MOD p.length] := by
      unfold Nat.ModEq
      rw [Nat.mod_eq_of_lt ha]; exact h2
    have h3 := (Nat.modEq_iff_dvd' (by omega)).1 this
    rw [show a + 3 - a = 3 by omega] at h3
    exact absurd (Nat.le_of_dvd (by omega) h3) (by omega)
  have hch := hcor.chord hca (fun z hz hi => hT.empty _ _ _ ht z hz hi)
  have hI := hv.exists_isTri
  -- the chord is in the triangle
  have hreg : ∀ q, q ∈ segPts (p.vertex a, p.vertex c) → p.pointPosition q ≠ .outside := by
    intro q hq ho
    have hIT : IsTri p T := ⟨hT.perm, fun t ht => hT.pos _ _ _ (Or.inl ht), fun x hx => by
      obtain ⟨c, hc⟩ := mem_edges.1 (show (x.1, x.2) ∈ _ from hx)
      exact List.mem_range.1 (hT.mem _ _ _ hc)⟩
    exact (position_outside_iff hv hIT q).1 ho ⟨a, b, c, ht, inTri_side hpos (segPts_comm hq)⟩
  have hang : ∀ v w, v < p.length → w < p.length → v ≠ w → Chord p.vertex (List.range p.length) v w →
      (∀ q, q ∈ segPts (p.vertex v, p.vertex w) → p.pointPosition q ≠ .outside) → p.angleAt v (p.vertex w) = true := by
    intro v w hv' hw hvw hc' hr
    refine angleAt_of hv hv' (fun h => hvw (hv.vertex_lt_inj hv' hw h.symm)) (fun ε hε => ?_) (fun j hj q hq hq' => ?_)
    · exact ⟨min ε 1, lt_min hε one_pos, min_le_left _ _, hr _ ⟨_, (lt_min hε one_pos).le, min_le_right _ _, rfl⟩⟩
    · have hmem : (j % p.length, (j % p.length + 1) % p.length) ∈ cyc (List.range p.length) :=
        mem_cyc_range.2 ⟨Nat.mod_lt _ (by omega), rfl⟩
      have hseg : segPts (p.vertex (j % p.length), p.vertex ((j % p.length + 1) % p.length)) = p.side j := by
        rw [vertex_mod (p := p) (i := j % p.length + 1)]
        exact side_mod p j
      rcases hc' _ hmem q hq (by dsimp only; rw [hseg]; exact hq') with h | h
      · exact .inl h.1
      · exact .inr h.1
  have hseg' : ∀ q, q ∈ segPts (p.vertex c, p.vertex a) → p.pointPosition q ≠ .outside := fun q hq => hreg q (segPts_comm hq)
  have t1 := hang a c ha hcn n3 hch hreg
  have t2 := hang c a hcn ha n3.symm hch.symm hseg'
  have good : ∀ v w, v < p.length → w < p.length → v ≠ w → Chord p.vertex (List.range p.length) v w → p.angleAt v (p.vertex w) = true →
      p.angleAt w (p.vertex v) = true → p.chordGood v w = .ok true := by
    intro v w hv' hw hvw h1 h2 h3
    obtain ⟨b, hb, hbi⟩ := chordGood_spec hv hv' hw hvw
    rw [hb, hbi.2 ⟨h2, h3, h1⟩]
  have hac : (a, c) ∉ cyc (List.range p.length) := fun h => n2 (next_unique hS.nodup hab h)
  rw [mem_cyc_range] at hac hca
  dsimp only at hac hca
  rcases Nat.lt_or_gt_of_ne n3 with hlt | hlt
  · refine ⟨(a, c), mem_chordPairs.2 ⟨?_, hcn, ?_⟩, good a c ha hcn n3 hch t1 t2⟩ <;> dsimp only
    · by_contra h
      exact hac ⟨ha, by rw [Nat.mod_eq_of_lt (by omega)]; omega⟩
    · rintro ⟨h1, h2⟩
      exact hca ⟨hcn, by rw [h2, Nat.mod_self, h1]⟩
  · refine ⟨(c, a), mem_chordPairs.2 ⟨?_, ha, ?_⟩, good c a hcn ha n3.symm hch.symm t2 t1⟩ <;> dsimp only
    · by_contra h
      exact hca ⟨hcn, by rw [Nat.mod_eq_of_lt (by omega)]; omega⟩
    · rintro ⟨h1, h2⟩
      exact hac ⟨ha, by rw [h2, Nat.mod_self, h1]⟩

/-- The search for a chord is successful. -/
theorem findChord_total {p : Poly K} (hv : p.Valid) (hn : 3 < p.length) :
    ∃ x, p.findChord (chordPairs p.length) = .ok (some x) ∧ x.1 + 2 ≤ x.2 ∧ x.2 < p.length ∧ ¬ (x.1 = 0 ∧ x.2 + 1 = p.length) ∧
      p.angleAt x.1 (p.vertex x.2) = true ∧ Chord p.vertex (List.range p.length) x.1 x.2 := by
  obtain ⟨x, hx⟩ := findChord_some (chordPairs p.length) (fun x hx => by
    obtain ⟨h1, h2, -⟩ := mem_chordPairs.1 hx
    obtain ⟨b, hb, -⟩ := chordGood_spec hv (i := x.1) (j := x.2) (by omega) h2 (by omega)
    exact ⟨b, hb⟩) (exists_chord hv hn)
  obtain ⟨hm, hg⟩ := findChord_mem hx
  obtain ⟨h1, h2, h3⟩ := mem_chordPairs.1 hm
  obtain ⟨b, hb, hbi⟩ := chordGood_spec hv (i := x.1) (j := x.2) (by omega) h2 (by omega)
  rw [hb] at hg
  cases hg
  obtain ⟨a1, a2, a3⟩ := hbi.1 rfl
  exact ⟨x, hx, h1, h2, h3, a1, a3⟩

end Poly
end Flat
