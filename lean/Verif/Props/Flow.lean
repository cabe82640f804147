import Verif.Model.Flow
import Verif.Props.TangentEnters
import Verif.Props.SurfacePoint
import Verif.Props.Euclidean

/-!
# C66: flowing to the boundary of a polygon
-/

namespace Flat
variable {K : Type} [Field K] [LinearOrder K] [IsStrictOrderedRing K]

theorem on_ray {p d x : Vec K} (hd : d ≠ 0) (h : ccw d (x - p) = 0) : ∃ t : K, x = p + t • d := by
  have hn := normSq_ne_zero hd
  refine ⟨((x - p).1 * d.1 + (x - p).2 * d.2) / (d.1 * d.1 + d.2 * d.2), ?_⟩
  unfold ccw at h
  ext
  · simp only [Prod.fst_add, Prod.smul_fst, smul_eq_mul]
    have : x.1 - p.1 = ((x - p).1 * d.1 + (x - p).2 * d.2) / (d.1 * d.1 + d.2 * d.2) * d.1 := by
      rw [div_mul_eq_mul_div, eq_div_iff hn]
      simp only [Prod.fst_sub, Prod.snd_sub] at h ⊢
      linear_combination (-d.2) * h
    linear_combination this
  · simp only [Prod.snd_add, Prod.smul_snd, smul_eq_mul]
    have : x.2 - p.2 = ((x - p).1 * d.1 + (x - p).2 * d.2) / (d.1 * d.1 + d.2 * d.2) * d.2 := by
      rw [div_mul_eq_mul_div, eq_div_iff hn]
      simp only [Prod.fst_sub, Prod.snd_sub] at h ⊢
      linear_combination (d.1) * h
    linear_combination this

/-- The segment returned by `ray_segment_intersection`. -/
theorem raySegment_ends {p d : Vec K} (hd : d ≠ 0) {A B a b : Vec K} (h : raySegmentIntersection p d (A, B) = .segment a b) :
    ∃ α β : K, A = p + α • d ∧ B = p + β • d ∧ 0 < max α β ∧ a = p + max 0 (min α β) • d ∧ b = p + max α β • d := by
  unfold raySegmentIntersection at h
  simp only at h
  cases hli : lineIntersection p (p + d) A B with
  | none =>
    rw [hli] at h
    simp only at h
    by_cases hc : ccw d (A - p) ≠ 0
    · rw [if_pos hc] at h; cases h
    · rw [if_neg hc] at h
      push Not at hc
      have hAB : ccw d (B - A) = 0 := by
        unfold lineIntersection at hli
        by_contra hne
        rw [if_neg (by rw [add_sub_cancel_left]; exact hne)] at hli
        cases hli
      have hcB : ccw d (B - p) = 0 := by
        unfold ccw at *
        simp only [Prod.fst_sub, Prod.snd_sub] at *
        linear_combination hc + hAB
      obtain ⟨α, rfl⟩ := on_ray hd hc
      obtain ⟨β, rfl⟩ := on_ray hd hcB
      refine ⟨α, β, rfl, rfl, ?_⟩
      obtain ⟨hL, hα⟩ := C08_timeOnRay p d hd α
      obtain ⟨-, hβ⟩ := C08_timeOnRay p d hd β
      have hL2 : (timeOnRay p d (p + β • d)).2 = (timeOnRay p d (p + α • d)).2 := by
        unfold timeOnRay; by_cases h1 : d.1 = 0 <;> simp [h1] <;> split_ifs <;> rfl
      rw [hL2] at hβ
      generalize (timeOnRay p d (p + α • d)).2 = L at *
      rw [hα, hβ] at h
      have main : ∀ u v : K, u ≤ v →
          (if v * L < 0 then (RayHit.none : RayHit K)
            else if v * L = 0 then .point p
            else if u * L / L < 0 then .segment p (p + (v * L / L) • d)
            else .segment (p + (u * L / L) • d) (p + (v * L / L) • d)) = .segment a b →
          0 < v ∧ a = p + max 0 u • d ∧ b = p + v • d := by
        intro u v huv h
        rw [mul_div_cancel_right₀ _ hL.ne', mul_div_cancel_right₀ _ hL.ne'] at h
        have c0 : 0 < v := by
          rcases lt_trichotomy v 0 with c | c | c
          · rw [if_pos (mul_neg_of_neg_of_pos c hL)] at h; cases h
          · rw [c, zero_mul, if_neg (lt_irrefl _), if_pos rfl] at h; cases h
          · exact c
        rw [if_neg (mul_pos c0 hL).le.not_gt, if_neg (mul_pos c0 hL).ne'] at h
        split_ifs at h with c3
        · cases h
          exact ⟨c0, by rw [max_eq_left c3.le, zero_smul, add_zero], rfl⟩
        · cases h
          exact ⟨c0, by rw [max_eq_right (not_lt.1 c3)], rfl⟩
      by_cases hvu : β * L < α * L
      · simp only [hvu, if_true] at h
        have hle : β ≤ α := (lt_of_mul_lt_mul_right hvu hL.le).le
        rw [max_eq_left hle, min_eq_right hle]
        exact main _ _ hle h
      · simp only [hvu, if_false] at h
        have hle : α ≤ β := le_of_mul_le_mul_right (not_lt.1 hvu) hL
        rw [max_eq_right hle, min_eq_left hle]
        exact main _ _ hle h
  | some x =>
    rw [hli] at h
    simp only at h
    split_ifs at h

namespace Poly

theorem side_mod_succ (p : Poly K) (v : ℕ) : segPts (p.vertex v, p.vertex ((v + 1) % p.length)) = p.side v := by
  unfold side; rw [vertex_mod]

theorem flowHit_none {p : Poly K} {pt d : Vec K} (hd : d ≠ 0) {v : ℕ} (h : p.flowHit pt d v = none) {s : K} (hs : 0 < s) :
    pt + s • d ∉ p.side v := by
  intro hin
  have hC := C08_raySegmentIntersection pt d hd (p.vertex v, p.vertex ((v + 1) % p.length))
  rw [side_mod_succ] at hC
  have hm : pt + s • d ∈ rayPts pt d ∩ p.side v := ⟨⟨s, hs.le, rfl⟩, hin⟩
  rw [← hC] at hm
  unfold flowHit at h
  cases hr : raySegmentIntersection pt d (p.vertex v, p.vertex ((v + 1) % p.length)) with
  | none => rw [hr] at hm; exact hm
  | segment a b => rw [hr] at h; cases h
  | point x =>
    rw [hr] at h hm
    dsimp only at h
    have hm : pt + s • d = x := hm
    split_ifs at h with hx
    rw [hx] at hm
    have := ray_inj hd (s := s) (t := 0) (by rw [hm]; simp)
    exact hs.ne' this

/-- A side that the ray meets. -/
theorem flowHit_some {p : Poly K} (hv : p.Valid) {pt d : Vec K} (hd : d ≠ 0) {v : ℕ} {x : Vec K} {o : Option Position}
    (hvl : v < p.length) (h : p.flowHit pt d v = some (x, o)) :
    ∃ t : K, 0 < t ∧ x = pt + t • d ∧ x ∈ p.side v ∧ o.getD (p.pointPosition x) = p.pointPosition x ∧
      ((∀ s : K, 0 < s → s < t → pt + s • d ∉ p.side v) ∨
        ((∀ s : K, 0 < s → s < t → pt + s • d ∈ p.openSide v) ∧ (x = p.vertex v ∨ x = p.vertex (v + 1)))) := by
  have hC := C08_raySegmentIntersection pt d hd (p.vertex v, p.vertex ((v + 1) % p.length))
  rw [side_mod_succ] at hC
  unfold flowHit at h
  cases hr : raySegmentIntersection pt d (p.vertex v, p.vertex ((v + 1) % p.length)) with
  | none => rw [hr] at h; cases h
  | point y =>
    rw [hr] at h hC
    dsimp only at h
    split_ifs at h with hx
    cases h
    obtain ⟨⟨t, t0, ht⟩, hs⟩ : x ∈ rayPts pt d ∩ p.side v := by rw [← hC]; rfl
    have htp : 0 < t := lt_of_le_of_ne t0 (by rintro rfl; exact hx (by rw [ht]; simp))
    refine ⟨t, htp, ht, hs, rfl, .inl fun s s0 s1 hin => ?_⟩
    have hm : pt + s • d ∈ rayPts pt d ∩ p.side v := ⟨⟨s, s0.le, rfl⟩, hin⟩
    rw [← hC] at hm
    have hm : pt + s • d = x := hm
    rw [ht] at hm
    exact s1.ne (ray_inj hd hm)
  | segment a b =>
    rw [hr] at h hC
    dsimp only at h
    obtain ⟨α, β, hA, hB, hpos, ha, hb⟩ := raySegment_ends hd hr
    rw [vertex_mod] at hB
    have hαβ : α ≠ β := by
      rintro rfl
      apply hv.edge_ne v
      unfold edge
      rw [hA, hB, sub_self]
    have hmem : ∀ s : K, min α β ≤ s → s ≤ max α β → pt + s • d ∈ p.side v := by
      intro s h1 h2
      unfold side
      rw [hA, hB]
      rcases le_total α β with hle | hle
      · rw [min_eq_left hle] at h1; rw [max_eq_right hle] at h2
        rw [mem_segPts_ray hle]
        exact ⟨s, h1, h2, rfl⟩
      · rw [min_eq_right hle] at h1; rw [max_eq_left hle] at h2
        rw [segPts_swap, mem_segPts_ray hle]
        exact ⟨s, h1, h2, rfl⟩
    have hmem' : ∀ s : K, pt + s • d ∈ p.side v → min α β ≤ s := by
      intro s hs
      unfold side at hs
      rw [hA, hB] at hs
      rcases le_total α β with hle | hle
      · rw [mem_segPts_ray hle] at hs
        obtain ⟨r, h1, h2, h3⟩ := hs
        rw [ray_inj hd h3, min_eq_left hle]; exact h1
      · rw [segPts_swap, mem_segPts_ray hle] at hs
        obtain ⟨r, h1, h2, h3⟩ := hs
        rw [ray_inj hd h3, min_eq_right hle]; exact h1
    have hend : ∀ r : K, (r = α ∨ r = β) → (pt + r • d = p.vertex v ∨ pt + r • d = p.vertex (v + 1)) := by
      rintro r (rfl | rfl)
      · exact .inl hA.symm
      · exact .inr hB.symm
    have hvert : ∀ {y : Vec K}, (y = p.vertex v ∨ y = p.vertex (v + 1)) →
        Position.vertex (if y = p.vertex v then v else (v + 1) % p.length) = p.pointPosition y := by
      intro y hy
      symm
      rw [C12_vertex hv]
      split_ifs with h1
      · exact ⟨hvl, h1⟩
      · exact ⟨Nat.mod_lt _ (by omega), by rw [vertex_mod]; exact hy.resolve_left h1⟩
    have hopen : ∀ s : K, min α β < s → s < max α β → pt + s • d ∈ p.openSide v := by
      intro s h1 h2
      rcases side_cases (hmem s h1.le h2.le) with h3 | h3 | h3
      · rw [hA] at h3
        have := ray_inj hd h3
        subst this
        rcases le_total s β with hle | hle
        · rw [min_eq_left hle] at h1; exact absurd h1 (lt_irrefl _)
        · rw [max_eq_left hle] at h2; exact absurd h2 (lt_irrefl _)
      · rw [hB] at h3
        have := ray_inj hd h3
        subst this
        rcases le_total α s with hle | hle
        · rw [max_eq_right hle] at h2; exact absurd h2 (lt_irrefl _)
        · rw [min_eq_right hle] at h1; exact absurd h1 (lt_irrefl _)
      · exact h3
    by_cases h0 : min α β ≤ 0
    · have hapt : a = pt := by rw [ha, max_eq_left h0, zero_smul, add_zero]
      rw [if_pos hapt] at h
      cases h
      have he := hend (max α β) (by rcases max_choice α β with h | h <;> rw [h] <;> simp)
      rw [hb]
      refine ⟨max α β, hpos, rfl, hmem _ (min_le_max) le_rfl, hvert he, .inr ⟨fun s s0 s1 => hopen s (lt_of_le_of_lt h0 s0) s1, he⟩⟩
    · push Not at h0
      have haa : a = pt + min α β • d := by rw [ha, max_eq_right h0.le]
      have hapt : a ≠ pt := by
        rw [haa]
        intro h1
        exact h0.ne' (ray_inj hd (by rw [h1]; simp : pt + min α β • d = pt + (0 : K) • d))
      rw [if_neg hapt] at h
      cases h
      have he := hend (min α β) (by rcases min_choice α β with h | h <;> rw [h] <;> simp)
      rw [haa]
      exact ⟨min α β, h0, rfl, hmem _ le_rfl min_le_max, hvert he, .inl fun s s0 s1 hin => absurd (hmem' s hin) (not_le.2 s1)⟩

theorem firstMin_mem {α : Type} (lt : α → α → Bool) (a : α) (l : List α) : firstMin lt a l ∈ a :: l := by
  unfold firstMin
  induction l generalizing a with
  | nil => simp
  | cons x l ih =>
    rw [List.foldl_cons]
    have := ih (if lt x a then x else a)
    rcases List.mem_cons.1 this with h | h
    · rw [h]; split_ifs <;> simp
    · simp [h]

theorem firstMin_le {α : Type} (lt : α → α → Bool) (key : α → K) (hlt : ∀ x y, lt x y = true ↔ key x < key y) (a : α) (l : List α) :
    ∀ x ∈ a :: l, key (firstMin lt a l) ≤ key x := by
  unfold firstMin
  induction l generalizing a with
  | nil => simp
  | cons y l ih =>
    rw [List.foldl_cons]
    have := ih (if lt y a then y else a)
    have h0 := this _ List.mem_cons_self
    intro x hx
    have h1 : key (if lt y a then y else a) ≤ key a ∧ key (if lt y a then y else a) ≤ key y := by
      split_ifs with h
      · exact ⟨((hlt _ _).1 h).le, le_rfl⟩
      · rw [hlt, not_lt] at h; exact ⟨le_rfl, h⟩
    rcases List.mem_cons.1 hx with rfl | hx
    · exact h0.trans h1.1
    · rcases List.mem_cons.1 hx with rfl | hx
      · exact h0.trans h1.2
      · exact this _ (List.mem_cons_of_mem _ hx)

/-- The time at which the ray meets a point of it. -/
theorem earlier_iff {pt d : Vec K} (hd : d ≠ 0) : ∃ key : Vec K × Option Position → K,
    (∀ x y, earlier pt d x y = true ↔ key x < key y) ∧ ∀ (t : K) o, key (pt + t • d, o) = t := by
  have hL2 : ∀ q, (timeOnRay pt d q).2 = (timeOnRay pt d pt).2 := by
    intro q
    unfold timeOnRay; by_cases h1 : d.1 = 0 <;> simp [h1] <;> split_ifs <;> rfl
  have hL : 0 < (timeOnRay pt d pt).2 := by
    have := (C08_timeOnRay pt d hd 0).1
    rwa [hL2] at this
  refine ⟨fun x => (timeOnRay pt d x.1).1 / (timeOnRay pt d pt).2, fun x y => ?_, fun t o => ?_⟩
  · unfold earlier
    rw [decide_eq_true_eq, hL2 x.1, hL2 y.1, div_lt_div_iff_of_pos_right hL]
    exact mul_lt_mul_iff_left₀ hL
  · have := (C08_timeOnRay pt d hd t).2
    rw [hL2] at this
    rw [div_eq_iff hL.ne']
    exact this

/-- What `flow_to_exit` returns, for any point of the plane. -/
theorem flowToExit_ok {p : Poly K} (hv : p.Valid) {pt d : Vec K} {x : Vec K × Position} (h : p.flowToExit pt d = .ok x) :
    d ≠ 0 ∧ ∃ t : K, 0 < t ∧ x.1 = pt + t • d ∧ x.2 = p.pointPosition x.1 ∧ (∃ i, x.1 ∈ p.side i) ∧
      ((∀ s : K, 0 < s → s < t → ∀ i, pt + s • d ∉ p.side i) ∨
        ∃ i < p.length, (∀ s : K, 0 < s → s < t → pt + s • d ∈ p.openSide i) ∧ (x.1 = p.vertex i ∨ x.1 = p.vertex (i + 1))) := by
  unfold flowToExit at h
  by_cases hd : d = 0
  · rw [if_pos hd] at h; cases h
  refine ⟨hd, ?_⟩
  rw [if_neg hd] at h
  cases hl : (List.range p.length).filterMap (p.flowHit pt d) with
  | nil => rw [hl] at h; cases h
  | cons a l =>
    rw [hl] at h
    dsimp only at h
    injection h with h
    obtain ⟨key, hkey, hkt⟩ := earlier_iff (pt := pt) hd
    have hmem := firstMin_mem (earlier pt d) a l
    have hle := firstMin_le (earlier pt d) key hkey a l
    set m := firstMin (earlier pt d) a l with hm
    rw [← hl] at hmem hle
    obtain ⟨v, hvr, hvm⟩ := List.mem_filterMap.1 hmem
    have hvl := List.mem_range.1 hvr
    obtain ⟨t, t0, ht, hside, hpos, halt⟩ := flowHit_some hv hd hvl (x := m.1) (o := m.2) (by rw [hvm])
    subst h
    refine ⟨t, t0, ht, hpos, ⟨v, hside⟩, ?_⟩
    have hkm : key m = t := by rw [← hkt t m.2, ← ht]
    by_cases hA : ∃ j < p.length, ∃ y o, ∃ t' : K, p.flowHit pt d j = some (y, o) ∧ 0 < t' ∧ y = pt + t' • d ∧
        (∀ s : K, 0 < s → s < t' → pt + s • d ∈ p.openSide j) ∧ (y = p.vertex j ∨ y = p.vertex (j + 1))
    · obtain ⟨j, hj, y, o, t', hh, t0', hy, hop, hend⟩ := hA
      right
      have hlt : t ≤ t' := by
        have := hle (y, o) (List.mem_filterMap.2 ⟨j, List.mem_range.2 hj, hh⟩)
        rw [hkm, hy, hkt] at this
        exact this
      have htt : t = t' := by
        rcases eq_or_lt_of_le hlt with h | h
        · exact h
        · exfalso
          have h1 := hop t t0 h
          rw [← ht] at h1
          have h2 := hv.openSide_unique h1 hside
          rw [Nat.mod_eq_of_lt hj, Nat.mod_eq_of_lt hvl] at h2
          subst h2
          rw [hvm] at hh
          injection hh with hh
          have h3 : m.1 = y := by rw [hh]
          rw [ht, hy] at h3
          exact h.ne (ray_inj hd h3)
      subst htt
      have hym : m.1 = y := by rw [ht, hy]
      exact ⟨j, hj, hop, by rw [hym]; exact hend⟩
    · left
      intro s s0 s1 i hin
      push Not at hA
      have hi : i % p.length < p.length := Nat.mod_lt _ (by omega)
      rw [← side_mod] at hin
      cases hh : p.flowHit pt d (i % p.length) with
      | none => exact flowHit_none hd hh s0 hin
      | some yo =>
        obtain ⟨y, o⟩ := yo
        obtain ⟨t', t0', hy, -, -, h2⟩ := flowHit_some hv hd hi hh
        have hlt : t ≤ t' := by
          have := hle (y, o) (List.mem_filterMap.2 ⟨_, List.mem_range.2 hi, hh⟩)
          rw [hkm, hy, hkt] at this
          exact this
        rcases h2 with h2 | ⟨h2, h3⟩
        · exact h2 s s0 (lt_of_lt_of_le s1 hlt) hin
        · have := hA _ hi y o t' hh t0' hy h2
          rcases h3 with h3 | h3
          · exact this.1 h3
          · exact this.2 h3

/-- When `flow_to_exit` raises an error. -/
theorem flowToExit_error {p : Poly K} (hv : p.Valid) {pt d : Vec K} (hd : d ≠ 0) :
    p.flowToExit pt d = .error .valueError ↔ ∀ s : K, 0 < s → ∀ i, pt + s • d ∉ p.side i := by
  unfold flowToExit
  rw [if_neg hd]
  have hn : 0 < p.length := by have := hv.len3; omega
  cases hl : (List.range p.length).filterMap (p.flowHit pt d) with
  | nil =>
    dsimp only
    refine ⟨fun _ s s0 i hin => ?_, fun _ => rfl⟩
    rw [← side_mod] at hin
    exact flowHit_none hd (List.filterMap_eq_nil_iff.1 hl _ (List.mem_range.2 (Nat.mod_lt _ hn))) s0 hin
  | cons a l =>
    dsimp only
    refine ⟨fun h => (by cases h), fun h => ?_⟩
    have hmem : a ∈ (List.range p.length).filterMap (p.flowHit pt d) := by rw [hl]; exact List.mem_cons_self
    obtain ⟨v, hvr, hvm⟩ := List.mem_filterMap.1 hmem
    obtain ⟨t, t0, ht, hside, -⟩ := flowHit_some hv hd (List.mem_range.1 hvr) (x := a.1) (o := a.2) (by rw [hvm])
    rw [ht] at hside
    exact absurd hside (h t t0 v)

/-- Far away on every ray one is outside of the polygon. -/
theorem ray_outside {p : Poly K} (hv : p.Valid) (pt : Vec K) {d : Vec K} (hd : d ≠ 0) (r : K) : ∃ s : K, r < s ∧ p.pointPosition (pt + s • d) = .outside := by
  have hN : 0 < d.1 * d.1 + d.2 * d.2 := normSq_pos hd
  obtain ⟨N, hNdef⟩ : ∃ N : K, N = d.1 * d.1 + d.2 * d.2 := ⟨_, rfl⟩
  rw [← hNdef] at hN
  obtain ⟨M, hM⟩ : ∃ M : K, ∀ i, dot d (p.vertex i - pt) ≤ M := by
    obtain ⟨M, hM⟩ : ∃ M : K, ∀ i < p.length, dot d (p.vertex i - pt) ≤ M := by
      generalize p.length = n
      induction n with
      | zero => exact ⟨0, fun i hi => by omega⟩
      | succ n ih =>
        obtain ⟨M, hM⟩ := ih
        refine ⟨max M (dot d (p.vertex n - pt)), fun i hi => ?_⟩
        rcases Nat.lt_succ_iff_lt_or_eq.1 hi with h | rfl
        · exact (hM i h).trans (le_max_left _ _)
        · exact le_max_right _ _
    refine ⟨M, fun i => ?_⟩
    rw [← vertex_mod]
    exact hM _ (Nat.mod_lt _ (by have := hv.len3; omega))
  refine ⟨max (r + 1) ((M + 1) / N), lt_of_lt_of_le (by linarith) (le_max_left _ _), ?_⟩
  have hs : M + 1 ≤ max (r + 1) ((M + 1) / N) * N := by
    rw [← div_le_iff₀ hN]; exact le_max_right _ _
  set s := max (r + 1) ((M + 1) / N)
  refine C61_hull hv (a := pt + (M / N) • d) (d := (d.2, -d.1)) (fun i => ?_) ?_
  · have := hM i
    have e : ccw (d.2, -d.1) (p.vertex i - (pt + (M / N) • d)) = dot d (p.vertex i - pt) - M / N * N := by
      unfold ccw dot; simp [hNdef]; ring
    rw [e, div_mul_cancel₀ _ hN.ne']
    linarith
  · have e : ccw (d.2, -d.1) (pt + s • d - (pt + (M / N) • d)) = s * N - M / N * N := by
      unfold ccw; simp [hNdef]; ring
    rw [e, div_mul_cancel₀ _ hN.ne']
    linarith

/-- The points of the ray close to its start are not outside of the polygon. -/
def StaysIn (p : Poly K) (pt d : Vec K) : Prop := ∃ ε : K, 0 < ε ∧ ∀ s : K, 0 < s → s < ε → p.pointPosition (pt + s • d) ≠ .outside

/-- Two points of the ray with no point of the boundary between them have the same position. -/
theorem ray_path {p : Poly K} (hv : p.Valid) {pt d : Vec K} {s s' : K} (hle : s ≤ s')
    (h : ∀ r : K, s ≤ r → r ≤ s' → ∀ i, pt + r • d ∉ p.side i) : p.pointPosition (pt + s • d) = p.pointPosition (pt + s' • d) := by
  refine C61_path hv fun x hx i => ?_
  rw [mem_segPts_ray hle] at hx
  obtain ⟨r, h1, h2, rfl⟩ := hx
  exact h r h1 h2 i

theorem flow_to_exit_core {p : Poly K} (hv : p.Valid) {pt d : Vec K} (hd : d ≠ 0) (hin : p.StaysIn pt d) :
    ∃ t : K, 0 < t ∧ p.flowToExit pt d = .ok (pt + t • d, p.pointPosition (pt + t • d)) ∧ (∃ i, pt + t • d ∈ p.side i) ∧
      ((∀ s : K, 0 < s → s < t → p.pointPosition (pt + s • d) = .interior) ∨
        ∃ i < p.length, (∀ s : K, 0 < s → s < t → p.pointPosition (pt + s • d) = .edgeInterior i) ∧
          (pt + t • d = p.vertex i ∨ pt + t • d = p.vertex (i + 1))) := by
  obtain ⟨ε, ε0, hε⟩ := hin
  cases h : p.flowToExit pt d with
  | error e =>
    have he : e = .valueError := by
      unfold flowToExit at h
      rw [if_neg hd] at h
      split at h
      · cases h; rfl
      · cases h
    subst he
    rw [flowToExit_error hv hd] at h
    obtain ⟨s, hs, hout⟩ := ray_outside hv pt hd ε
    have := ray_path hv (s := ε / 2) (s' := s) (pt := pt) (d := d) (by linarith) (fun r h1 _ => h r (by linarith))
    exact absurd (this.trans hout) (hε _ (by linarith) (by linarith))
  | ok x =>
    obtain ⟨-, t, t0, hx, hpos, hside, halt⟩ := flowToExit_ok hv h
    obtain ⟨q, o⟩ := x
    dsimp only at hx hpos hside halt
    subst hx hpos
    refine ⟨t, t0, rfl, hside, ?_⟩
    rcases halt with halt | ⟨i, hi, h1, h2⟩
    · left
      intro s s0 s1
      have hm : 0 < min s (ε / 2) := lt_min s0 (by linarith)
      have hms := min_le_left s (ε / 2)
      have := ray_path hv (s := min s (ε / 2)) (s' := s) (pt := pt) (d := d) hms
        (fun r h1 h2 => halt r (by linarith) (by linarith))
      refine interior_of hv ?_ (halt s s0 s1)
      rw [← this]
      exact hε _ hm (lt_of_le_of_lt (min_le_right _ _) (by linarith))
    · right
      exact ⟨i, hi, fun s s0 s1 => (C12_edge hv _ i).2 ⟨hi, h1 s s0 s1⟩, h2⟩

/-- **C66.** `flow_to_exit(point, direction)` for a ray that starts inside of the polygon: it returns the first point in which the ray
meets the boundary together with the position of that point, and the way there runs in the interior of the polygon, or it runs along a
side and leads to an end of that side. -/
theorem C66_flow_to_exit {p : Poly K} (hv : p.Valid) {pt d : Vec K} (hd : d ≠ 0) (hin : p.StaysIn pt d) :
    ∃ t : K, 0 < t ∧ p.flowToExit pt d = .ok (pt + t • d, p.pointPosition (pt + t • d)) ∧ (∃ i, pt + t • d ∈ p.side i) ∧
      ((∀ s : K, 0 < s → s < t → p.pointPosition (pt + s • d) = .interior) ∨
        ∃ i < p.length, (∀ s : K, 0 < s → s < t → p.pointPosition (pt + s • d) = .edgeInterior i) ∧
          (pt + t • d = p.vertex i ∨ pt + t • d = p.vertex (i + 1))) ∧
      ((∃ i, p.pointPosition (pt + t • d) = .vertex i) ∨
        ∃ ε : K, 0 < ε ∧ ∀ s : K, t < s → s < t + ε → p.pointPosition (pt + s • d) = .outside) := by
  obtain ⟨t, t0, h1, ⟨j, hj⟩, h2⟩ := flow_to_exit_core hv hd hin
  refine ⟨t, t0, h1, ⟨j, hj⟩, h2, ?_⟩
  rcases (pointPosition_boundary hv).1 ⟨j, hj⟩ with ⟨k, hk⟩ | ⟨k, hk⟩
  · exact .inl ⟨k, hk⟩
  right
  obtain ⟨hkl, hop⟩ := (C12_edge hv _ k).1 hk
  rcases h2 with h2 | ⟨i, hi, -, h3⟩
  · have hneg : ccw (p.edge k) (-d) = -ccw (p.edge k) d := by simp [ccw]; ring
    have hback : ∀ s : K, pt + (t - s) • d = pt + t • d + s • (-d) := by intro s; rw [sub_smul, smul_neg]; abel
    have hc : ccw (p.edge k) d < 0 := by
      rcases lt_trichotomy (ccw (p.edge k) d) 0 with hc | hc | hc
      · exact hc
      · exfalso
        obtain ⟨m, m0, hm1, hm2⟩ := along_openSide hop
        obtain ⟨ε, ε0, hε⟩ : ∃ ε : K, 0 < ε ∧ ∀ s : K, 0 < s → s ≤ ε → pt + t • d + s • (-d) ∈ p.openSide k := by
          rcases parallel_or (hv.edge_ne k) (neg_ne_zero.2 hd) (by rw [hneg, hc, neg_zero]) with h4 | h4
          · exact along m0 hm1 (hv.edge_ne k) h4
          · exact along m0 hm2 (neg_ne_zero.2 (hv.edge_ne k)) (by rw [isParallel_neg_left]; exact h4)
        have hm : 0 < min ε (t / 2) := lt_min ε0 (half_pos t0)
        have hlt := min_le_right ε (t / 2)
        have h5 := h2 (t - min ε (t / 2)) (by linarith) (by linarith)
        rw [hback, (C12_edge hv _ k).2 ⟨hkl, hε _ hm (min_le_left _ _)⟩] at h5
        cases h5
      · exfalso
        obtain ⟨ε, ε0, hε⟩ := (side_local hv hop (-d)).2 (by rw [hneg]; linarith)
        have hm : 0 < min ε (t / 2) := lt_min ε0 (half_pos t0)
        have hlt := min_le_right ε (t / 2)
        have h5 := h2 (t - min ε (t / 2)) (by linarith) (by linarith)
        rw [hback, hε _ hm (min_le_left _ _)] at h5
        cases h5
    obtain ⟨ε, ε0, hε⟩ := (side_local hv hop d).2 hc
    refine ⟨ε, ε0, fun s h4 h5 => ?_⟩
    have := hε (s - t) (by linarith) (by linarith)
    rw [← this, add_assoc, ← add_smul]
    congr 3
    ring
  · exfalso
    have hn : 0 < p.length := by omega
    have hx : ∃ k', p.pointPosition (pt + t • d) = .vertex k' := by
      rcases h3 with h3 | h3
      · exact ⟨i, (C12_vertex hv _ i).2 ⟨hi, h3⟩⟩
      · exact ⟨(i + 1) % p.length, (C12_vertex hv _ _).2 ⟨Nat.mod_lt _ hn, by rw [vertex_mod]; exact h3⟩⟩
    obtain ⟨k', hk'⟩ := hx
    rw [hk] at hk'
    cases hk'

/-- **C66.** The rays that stay in the polygon for a while, in terms of the position of the start and of the direction. -/
theorem C66_staysIn_iff {p : Poly K} (hv : p.Valid) {pt d : Vec K} (hd : d ≠ 0) : p.StaysIn pt d ↔
    match (generalizing := false) p.pointPosition pt with
    | .interior => True
    | .edgeInterior e => 0 ≤ ccw (p.edge e) d
    | .vertex i => isBetween (-p.edge (i + (p.length - 1))) (p.edge i) d = false
    | .outside => False := by
  have yes : ∀ o : Position, o ≠ .outside → (∃ ε : K, 0 < ε ∧ ∀ s : K, 0 < s → s ≤ ε → p.pointPosition (pt + s • d) = o) → p.StaysIn pt d :=
    fun o ho ⟨ε, h0, h1⟩ => ⟨ε, h0, fun s s0 s1 => by rw [h1 s s0 s1.le]; exact ho⟩
  have no : (∃ ε : K, 0 < ε ∧ ∀ s : K, 0 < s → s ≤ ε → p.pointPosition (pt + s • d) = .outside) → ¬ p.StaysIn pt d := by
    rintro ⟨ε, h0, h1⟩ ⟨ε', h0', h1'⟩
    have hm : 0 < min ε (ε' / 2) := lt_min h0 (half_pos h0')
    exact h1' _ hm (lt_of_le_of_lt (min_le_right _ _) (half_lt_self h0')) (h1 _ hm (min_le_left _ _))
  have side : ∀ k < p.length, (∃ ε : K, 0 < ε ∧ ∀ s : K, 0 < s → s ≤ ε → pt + s • d ∈ p.openSide k) → p.StaysIn pt d :=
    fun k hk ⟨ε, h0, h1⟩ => yes (.edgeInterior k) (by simp) ⟨ε, h0, fun s s0 s1 => (C12_edge hv _ k).2 ⟨hk, h1 s s0 s1⟩⟩
  have hn : 0 < p.length := by have := hv.len3; omega
  cases h : p.pointPosition pt with
  | interior =>
    simp only [iff_true]
    obtain ⟨ε, h0, h1⟩ := off_local hv (RSurf.not_side hv (.inl h)) d
    exact yes .interior (by simp) ⟨ε, h0, fun s s0 s1 => by rw [h1 s s0 s1, h]⟩
  | outside =>
    simp only [iff_false]
    obtain ⟨ε, h0, h1⟩ := off_local hv (RSurf.not_side hv (.inr h)) d
    exact no ⟨ε, h0, fun s s0 s1 => by rw [h1 s s0 s1, h]⟩
  | edgeInterior e =>
    obtain ⟨he, hpt⟩ := (C12_edge hv pt e).1 h
    obtain ⟨m, m0, hm1, hm2⟩ := along_openSide hpt
    dsimp only
    rcases lt_trichotomy (ccw (p.edge e) d) 0 with hc | hc | hc
    · exact ⟨fun hs => absurd hs (no ((side_local hv hpt d).2 hc)), fun hle => absurd hc (not_lt.2 hle)⟩
    · refine ⟨fun _ => hc.ge, fun _ => ?_⟩
      rcases parallel_or (hv.edge_ne e) hd hc with h1 | h1
      · exact side e he (along m0 hm1 (hv.edge_ne e) h1)
      · exact side e he (along m0 hm2 (neg_ne_zero.2 (hv.edge_ne e)) (by rw [isParallel_neg_left]; exact h1))
    · exact ⟨fun _ => hc.le, fun _ => yes .interior (by simp) ((side_local hv hpt d).1 hc)⟩
  | vertex i =>
    obtain ⟨hi, rfl⟩ := (C12_vertex hv pt i).1 h
    dsimp only
    constructor
    · intro hs
      rw [← Bool.not_eq_true]
      intro h1
      exact no ((vertex_local hv hi d).2 h1) hs
    · intro h1
      by_cases h2 : isAntiParallel (p.edge (i + (p.length - 1))) d = true
      · refine side ((i + (p.length - 1)) % p.length) (Nat.mod_lt _ hn) ?_
        refine along (x := -p.edge (i + (p.length - 1))) one_pos (fun s s0 s1 => ?_) (neg_ne_zero.2 (hv.edge_ne _)) (by rw [isParallel_neg_left]; exact h2)
        obtain ⟨t, t0, t1, ht⟩ := ray_openSide_prev hv i s s0 s1
        exact ⟨t, t0, t1, by rw [vertex_mod, edge_mod]; exact ht⟩
      · rw [Bool.not_eq_true] at h2
        rcases (RSurf.not_anti_of_points hv hi hd).1 ⟨h1, h2⟩ with h3 | h3
        · exact side i hi (along one_pos (ray_openSide p i) (hv.edge_ne i) h3)
        · exact yes .interior (by simp) ((vertex_local hv hi d).1 h3)

/-- **C66.** A zero direction is rejected. -/
theorem C66_zero (p : Poly K) (pt : Vec K) : p.flowToExit pt 0 = .error .valueError := by
  unfold flowToExit; rw [if_pos rfl]

/-- **C66.** In a convex polygon, `flow_to_exit` rejects the directions that lead out of the polygon right away, and only these. -/
theorem C66_rejected_partial {p : Poly K} (hv : p.Valid) (hc : p.Convex) {pt d : Vec K} (hd : d ≠ 0) (hpt : p.pointPosition pt ≠ .outside) :
    p.flowToExit pt d = .error .valueError ↔ ¬ p.StaysIn pt d := by
  constructor
  · intro h hs
    obtain ⟨t, -, h1, -⟩ := C66_flow_to_exit hv hd hs
    rw [h] at h1
    cases h1
  · intro h
    rw [flowToExit_error hv hd]
    intro s s0 i hi
    refine h ⟨s, s0, fun r r0 r1 hout => ?_⟩
    have hq : p.pointPosition (pt + s • d) ≠ .outside := by
      intro hq
      have := (pointPosition_boundary hv).1 ⟨i, hi⟩
      rw [hq] at this
      simp at this
    obtain ⟨j, hj⟩ := ((C12_interior hv hc _).2).1 hout
    have h1 : 0 ≤ p.left pt j := by
      by_contra hneg
      push Not at hneg
      exact hpt (((C12_interior hv hc _).2).2 ⟨j, hneg⟩)
    have h2 : 0 ≤ p.left (pt + s • d) j := by
      by_contra hneg
      push Not at hneg
      exact hq (((C12_interior hv hc _).2).2 ⟨j, hneg⟩)
    have e : p.left (pt + r • d) j * s = (s - r) * p.left pt j + r * p.left (pt + s • d) j := by
      unfold left ccw
      simp only [Prod.fst_add, Prod.snd_add, Prod.smul_fst, Prod.smul_snd, smul_eq_mul, Prod.fst_sub, Prod.snd_sub]
      ring
    have : 0 ≤ p.left (pt + r • d) j * s := by
      rw [e]; exact add_nonneg (mul_nonneg (by linarith) h1) (mul_nonneg r0.le h2)
    exact absurd hj (not_lt.2 (nonneg_of_mul_nonneg_left this s0))

/-- An L-shaped polygon. -/
def exL : Poly ℚ := [(0, 0), (1, 0), (2, 0), (2, 1), (1, 1), (1, 2), (0, 2), (0, 1)]

theorem exL_valid : exL.Valid := ((ofVertices_iff exL exL).1 (by decide +kernel)).2

example : exL.flowToExit (1 / 2, 1 / 2) (1, 1) = .ok ((1, 1), .vertex 4) ∧ exL.flowToExit (1 / 2, 5 / 4) (1, -1) = .ok ((7 / 4, 0), .edgeInterior 1) ∧
    exL.flowToExit (0, 0) (1, 0) = .ok ((1, 0), .vertex 1) ∧ exL.flowToExit (1, 1) (0, 2) = .ok ((1, 2), .vertex 5) ∧
    exL.flowToExit (1, 1) (-1, 1) = .ok ((0, 2), .vertex 6) ∧ exL.flowToExit (1, 1) (-2, 1) = .ok ((0, 3 / 2), .edgeInterior 6) := by decide +kernel

/-- `C66_flow_to_exit` applies at the reflex vertex. -/
example : exL.StaysIn (1, 1) (-2, 1) := by
  rw [C66_staysIn_iff exL_valid (by decide +kernel), show exL.pointPosition (1, 1) = .vertex 4 by decide +kernel]
  decide +kernel

/-- **C66, violation.** For a polygon that is not convex, directions that lead out of the polygon are not rejected if the ray meets the
polygon again, and points outside of a polygon are not rejected if the ray meets the polygon. -/
theorem C66_outward_violation : ∃ p : Poly ℚ, p.Valid ∧
    (∃ pt d : Vec ℚ, d ≠ 0 ∧ p.pointPosition pt = .edgeInterior 4 ∧ ¬ p.StaysIn pt d ∧ p.flowToExit pt d = .ok ((3 / 2, 1), .edgeInterior 3)) ∧
    ∃ pt d : Vec ℚ, d ≠ 0 ∧ p.pointPosition pt = .outside ∧ p.flowToExit pt d = .ok ((0, 1 / 2), .edgeInterior 7) := by
  refine ⟨exL, exL_valid, ⟨(1, 3 / 2), (1, -1), by decide +kernel, by decide +kernel, ?_, by decide +kernel⟩,
    (-1, 1 / 2), (1, 0), by decide +kernel, by decide +kernel, by decide +kernel⟩
  rw [C66_staysIn_iff exL_valid (by decide +kernel), show exL.pointPosition (1, 3 / 2) = .edgeInterior 4 by decide +kernel]
  decide +kernel

/-- In the unit square the directions that lead out are rejected. -/
example : flowToExit (K := ℚ) [(0, 0), (1, 0), (1, 1), (0, 1)] (1 / 2, 0) (1, -1) = .error .valueError ∧
    flowToExit (K := ℚ) [(0, 0), (1, 0), (1, 1), (0, 1)] (1 / 2, 0) (-1, 1) = .ok ((0, 1 / 2), .edgeInterior 3) := by decide +kernel

end Poly
end Flat
