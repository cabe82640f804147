import Verif.Lemmas.Strip
import Verif.Props.FlowMap
import Verif.Model.TranslationTrajectory

/-!
# The left and the right end of a convex polygon with respect to a direction
-/

namespace Flat
namespace Poly
variable {K : Type} [Field K] [LinearOrder K] [IsStrictOrderedRing K]

/-- How far a point is to the right, seen in a direction. -/
def across (d x : Vec K) : K := ccw x d

/-- The width of an edge, seen in a direction; it is negative if the edge is run through from right to left. -/
def width (p : Poly K) (d : Vec K) (i : ℕ) : K := ccw (p.edge i) d

omit [LinearOrder K] [IsStrictOrderedRing K] in
theorem width_eq (p : Poly K) (d : Vec K) (i : ℕ) : p.width d i = across d (p.vertex (i + 1)) - across d (p.vertex i) := by
  unfold width across edge ccw
  simp only [Prod.fst_sub, Prod.snd_sub]
  ring

theorem width_mod (p : Poly K) (d : Vec K) (i : ℕ) : p.width d (i % p.length) = p.width d i := by unfold width; rw [edge_mod]

theorem width_congr (p : Poly K) (d : Vec K) {i j : ℕ} (h : i % p.length = j % p.length) : p.width d i = p.width d j := by
  rw [← width_mod p d i, h, width_mod]

omit [LinearOrder K] [IsStrictOrderedRing K] in
theorem across_sub (d x y : Vec K) : across d (x - y) = across d x - across d y := by
  unfold across ccw; simp only [Prod.fst_sub, Prod.snd_sub]; ring

omit [LinearOrder K] [IsStrictOrderedRing K] in
/-- Reversing the direction. -/
theorem width_neg (p : Poly K) (d : Vec K) (i : ℕ) : p.width (-d) i = -p.width d i := by
  unfold width ccw; simp only [Prod.fst_neg, Prod.snd_neg]; ring

omit [LinearOrder K] [IsStrictOrderedRing K] in
theorem across_neg (d x : Vec K) : across (-d) x = -across d x := by
  unfold across ccw; simp only [Prod.fst_neg, Prod.snd_neg]; ring

variable {p : Poly K} {d : Vec K}

/-- Two vectors with the same coordinate across a direction differ by a multiple of the direction. -/
theorem across_eq (hd : d ≠ 0) {x y : Vec K} (h : across d x = across d y) : ∃ c : K, y = x + c • d := by
  have hN := (_root_.Flat.normSq_pos' hd).ne'
  refine ⟨((y.1 - x.1) * d.1 + (y.2 - x.2) * d.2) / (d.1 * d.1 + d.2 * d.2), ?_⟩
  unfold across ccw at h
  generalize hM : d.1 * d.1 + d.2 * d.2 = M at hN ⊢
  ext
  · simp only [Prod.fst_add, Prod.smul_fst, smul_eq_mul]
    field_simp
    subst hM
    linear_combination (-d.2) * h
  · simp only [Prod.snd_add, Prod.smul_snd, smul_eq_mul]
    field_simp
    subst hM
    linear_combination d.1 * h

/-- Where the edges stop to run to the right (or start to run to the left), no vertex is further to the right. -/
theorem right_end (hv : p.Valid) (hc : p.Convex) (hd : d ≠ 0) {i : ℕ} (h : (0 < p.width d i ∧ p.width d (i + 1) ≤ 0) ∨ (0 ≤ p.width d i ∧ p.width d (i + 1) < 0)) (j : ℕ) :
    across d (p.vertex j) ≤ across d (p.vertex (i + 1)) := by
  have hi : p.vertex (i + 1) = p.vertex i + p.edge i := by unfold edge; simp
  have a1 : 0 ≤ ccw (p.edge i) (p.vertex j - p.vertex (i + 1)) := by
    have := hc i j
    rw [hi]
    unfold ccw at *
    simp only [Prod.fst_sub, Prod.snd_sub, Prod.fst_add, Prod.snd_add] at *
    linarith
  have a2 := hc (i + 1) j
  have a3 : 0 ≤ ccw (p.edge i) (p.edge (i + 1)) := by
    have := hc i (i + 1 + 1)
    have e : p.vertex (i + 1 + 1) = p.vertex i + p.edge i + p.edge (i + 1) := by unfold edge; simp
    rw [e] at this
    unfold ccw at *
    simp only [Prod.fst_sub, Prod.snd_sub, Prod.fst_add, Prod.snd_add] at *
    linarith
  have pl := plucker (p.edge i) (p.edge (i + 1)) (p.vertex j - p.vertex (i + 1)) d
  have hgoal : ccw (p.vertex j - p.vertex (i + 1)) d = across d (p.vertex j) - across d (p.vertex (i + 1)) := across_sub d _ _
  have hl : ccw (p.edge i) (p.vertex j - p.vertex (i + 1)) * ccw (p.edge (i + 1)) d ≤ 0 := by
    refine mul_nonpos_of_nonneg_of_nonpos a1 ?_
    rcases h with h | h
    · exact h.2
    · exact h.2.le
  have hr : 0 ≤ ccw (p.edge i) d * ccw (p.edge (i + 1)) (p.vertex j - p.vertex (i + 1)) := by
    refine mul_nonneg ?_ a2
    rcases h with h | h
    · exact h.1.le
    · exact h.1
  have hne : ccw (p.edge i) (p.edge (i + 1)) ≠ 0 := by
    intro h0
    -- parallel edges run in the same direction
    obtain ⟨c, hcc⟩ := across_eq (hv.edge_ne i) (x := 0) (y := p.edge (i + 1)) (by
      unfold across; unfold ccw at *; simp only [Prod.fst_zero, Prod.snd_zero]; linarith)
    rw [zero_add] at hcc
    have c0 : 0 < c := by
      rcases lt_trichotomy c 0 with h1 | h1 | h1
      · have := hv.turn i
        rw [(C05_isAntiParallel_iff _ _ (hv.edge_ne i)).2 ⟨c, h1, hcc⟩] at this
        cases this
      · rw [h1, zero_smul] at hcc
        exact absurd hcc (hv.edge_ne (i + 1))
      · exact h1
    have : p.width d (i + 1) = c * p.width d i := by
      unfold width; rw [hcc]; unfold ccw; simp only [Prod.smul_fst, Prod.smul_snd, smul_eq_mul]; ring
    rcases h with ⟨h1, h2⟩ | ⟨h1, h2⟩
    · rw [this] at h2; exact absurd (mul_pos c0 h1) (not_lt.2 h2)
    · rw [this] at h2; exact absurd (mul_nonneg c0.le h1) (not_le.2 h2)
  have h5 : ccw (p.edge i) (p.edge (i + 1)) * ccw (p.vertex j - p.vertex (i + 1)) d ≤ 0 := by linarith
  have h6 := nonpos_of_mul_nonpos_right h5 (lt_of_le_of_ne a3 (Ne.symm hne))
  linarith

theorem left_end (hv : p.Valid) (hc : p.Convex) (hd : d ≠ 0) {i : ℕ} (h : (p.width d i < 0 ∧ 0 ≤ p.width d (i + 1)) ∨ (p.width d i ≤ 0 ∧ 0 < p.width d (i + 1))) (j : ℕ) :
    across d (p.vertex (i + 1)) ≤ across d (p.vertex j) := by
  have := right_end hv hc (neg_ne_zero.2 hd) (i := i) (by
    rw [width_neg, width_neg]
    rcases h with ⟨h1, h2⟩ | ⟨h1, h2⟩
    · left; constructor <;> linarith
    · right; constructor <;> linarith) j
  rw [across_neg, across_neg] at this
  linarith

/-- The edges stop to run to the right at one vertex only. -/
theorem rb_unique (hv : p.Valid) (hc : p.Convex) (hd : d ≠ 0) {i j : ℕ} (hi : 0 < p.width d i ∧ p.width d (i + 1) ≤ 0)
    (hj : 0 < p.width d j ∧ p.width d (j + 1) ≤ 0) : (i + 1) % p.length = (j + 1) % p.length := by
  have key : ∀ {i j : ℕ} {c : K}, 0 < p.width d i → p.vertex (j + 1) = p.vertex (i + 1) + c • d → 0 ≤ c := by
    intro i j c hw e
    have h1 := hc i (j + 1)
    have hi : p.vertex (i + 1) = p.vertex i + p.edge i := by unfold edge; simp
    rw [e, hi] at h1
    have : ccw (p.edge i) (p.vertex i + p.edge i + c • d - p.vertex i) = c * p.width d i := by
      unfold width ccw; simp only [Prod.fst_sub, Prod.snd_sub, Prod.fst_add, Prod.snd_add, Prod.smul_fst, Prod.smul_snd, smul_eq_mul]; ring
    rw [this] at h1
    exact nonneg_of_mul_nonneg_left h1 hw
  obtain ⟨c, e⟩ := across_eq hd (le_antisymm (right_end hv hc hd (.inl hj) (i + 1)) (right_end hv hc hd (.inl hi) (j + 1)))
  have c0 : 0 ≤ c := key hi.1 e
  have c1 : 0 ≤ -c := key hj.1 (j := i) (by rw [e, neg_smul, add_neg_cancel_right])
  have : c = 0 := by linarith
  rw [this, zero_smul, add_zero] at e
  exact hv.vertex_inj e.symm

theorem rt_unique (hv : p.Valid) (hc : p.Convex) (hd : d ≠ 0) {i j : ℕ} (hi : 0 ≤ p.width d i ∧ p.width d (i + 1) < 0)
    (hj : 0 ≤ p.width d j ∧ p.width d (j + 1) < 0) : (i + 1) % p.length = (j + 1) % p.length := by
  have key : ∀ {i j : ℕ} {c : K}, p.width d (i + 1) < 0 → p.vertex (j + 1) = p.vertex (i + 1) + c • d → c ≤ 0 := by
    intro i j c hw e
    have h1 := hc (i + 1) (j + 1)
    rw [e] at h1
    have : ccw (p.edge (i + 1)) (p.vertex (i + 1) + c • d - p.vertex (i + 1)) = c * p.width d (i + 1) := by
      unfold width ccw; simp only [Prod.fst_sub, Prod.snd_sub, Prod.fst_add, Prod.snd_add, Prod.smul_fst, Prod.smul_snd, smul_eq_mul]; ring
    rw [this] at h1
    exact nonpos_of_mul_nonneg_left h1 hw
  obtain ⟨c, e⟩ := across_eq hd (le_antisymm (right_end hv hc hd (.inr hj) (i + 1)) (right_end hv hc hd (.inr hi) (j + 1)))
  have c0 : c ≤ 0 := key hi.2 e
  have c1 : -c ≤ 0 := key hj.2 (j := i) (by rw [e, neg_smul, add_neg_cancel_right])
  have : c = 0 := by linarith
  rw [this, zero_smul, add_zero] at e
  exact hv.vertex_inj e.symm

theorem lb_unique (hv : p.Valid) (hc : p.Convex) (hd : d ≠ 0) {i j : ℕ} (hi : p.width d i ≤ 0 ∧ 0 < p.width d (i + 1))
    (hj : p.width d j ≤ 0 ∧ 0 < p.width d (j + 1)) : (i + 1) % p.length = (j + 1) % p.length := by
  refine rt_unique hv hc (neg_ne_zero.2 hd) ?_ ?_ <;> rw [width_neg, width_neg] <;> constructor <;> linarith [hi.1, hi.2, hj.1, hj.2]

theorem lt_unique (hv : p.Valid) (hc : p.Convex) (hd : d ≠ 0) {i j : ℕ} (hi : p.width d i < 0 ∧ 0 ≤ p.width d (i + 1))
    (hj : p.width d j < 0 ∧ 0 ≤ p.width d (j + 1)) : (i + 1) % p.length = (j + 1) % p.length := by
  refine rb_unique hv hc (neg_ne_zero.2 hd) ?_ ?_ <;> rw [width_neg, width_neg] <;> constructor <;> linarith [hi.1, hi.2, hj.1, hj.2]

/-- Some edge runs to the right. -/
theorem exists_right (hv : p.Valid) (hd : d ≠ 0) : ∃ i, 0 < p.width d i := by
  have hn : 0 < p.length := by have := hv.len3; omega
  obtain ⟨j, hj⟩ := hv.not_collinear d (p.vertex 0) hd
  have hne : across d (p.vertex j) ≠ across d (p.vertex 0) := by
    intro h
    apply hj
    unfold across at h
    unfold ccw at *
    simp only [Prod.fst_sub, Prod.snd_sub]
    linarith
  rcases lt_or_gt_of_ne hne with h | h
  · obtain ⟨i, h1, h2⟩ := cyc_step hn (fun i => across d (p.vertex i) < across d (p.vertex 0)) (fun i => by rw [vertex_mod]) j 0 h (lt_irrefl _)
    exact ⟨i, by rw [width_eq]; linarith [not_lt.1 h2]⟩
  · obtain ⟨i, h1, h2⟩ := cyc_step hn (fun i => across d (p.vertex i) ≤ across d (p.vertex 0)) (fun i => by rw [vertex_mod]) 0 j le_rfl (not_le.2 h)
    exact ⟨i, by rw [width_eq]; linarith [not_le.1 h2]⟩

theorem exists_left (hv : p.Valid) (hd : d ≠ 0) : ∃ i, p.width d i < 0 := by
  obtain ⟨i, h⟩ := exists_right hv (neg_ne_zero.2 hd)
  exact ⟨i, by rw [width_neg] at h; linarith⟩

/-- The four indices that `flow_map` looks for. -/
structure Ends (p : Poly K) (d : Vec K) (rt lt lb rb : ℕ) : Prop where
  rt : ∃ i < p.length, rt = (i + 1) % p.length ∧ 0 ≤ p.width d i ∧ p.width d (i + 1) < 0
  lt : ∃ i < p.length, lt = (i + 1) % p.length ∧ p.width d i < 0 ∧ 0 ≤ p.width d (i + 1)
  lb : ∃ i < p.length, lb = (i + 1) % p.length ∧ p.width d i ≤ 0 ∧ 0 < p.width d (i + 1)
  rb : ∃ i < p.length, rb = (i + 1) % p.length ∧ 0 < p.width d i ∧ p.width d (i + 1) ≤ 0

theorem exists_ends (hv : p.Valid) (hd : d ≠ 0) : ∃ rt lt lb rb, p.Ends d rt lt lb rb := by
  have hn : 0 < p.length := by have := hv.len3; omega
  obtain ⟨a, ha⟩ := exists_right hv hd
  obtain ⟨b, hb⟩ := exists_left hv hd
  have fix : ∀ Q : K → K → Prop, (∃ i, Q (p.width d i) (p.width d (i + 1))) → ∃ j, ∃ i < p.length, j = (i + 1) % p.length ∧ Q (p.width d i) (p.width d (i + 1)) := by
    rintro Q ⟨i, h⟩
    refine ⟨_, i % p.length, Nat.mod_lt _ hn, rfl, ?_⟩
    rw [width_mod, ← width_mod p d (i % p.length + 1), Nat.mod_add_mod, width_mod]
    exact h
  obtain ⟨rt, hrt⟩ := fix (fun x y => 0 ≤ x ∧ y < 0) (by
    obtain ⟨i, h1, h2⟩ := cyc_step hn (fun i => 0 ≤ p.width d i) (fun i => by rw [width_mod]) a b ha.le (not_le.2 hb)
    exact ⟨i, h1, not_le.1 h2⟩)
  obtain ⟨lt, hlt⟩ := fix (fun x y => x < 0 ∧ 0 ≤ y) (by
    obtain ⟨i, h1, h2⟩ := cyc_step hn (fun i => p.width d i < 0) (fun i => by rw [width_mod]) b a hb (not_lt.2 ha.le)
    exact ⟨i, h1, not_lt.1 h2⟩)
  obtain ⟨lb, hlb⟩ := fix (fun x y => x ≤ 0 ∧ 0 < y) (by
    obtain ⟨i, h1, h2⟩ := cyc_step hn (fun i => p.width d i ≤ 0) (fun i => by rw [width_mod]) b a hb.le (not_le.2 ha)
    exact ⟨i, h1, not_le.1 h2⟩)
  obtain ⟨rb, hrb⟩ := fix (fun x y => 0 < x ∧ y ≤ 0) (by
    obtain ⟨i, h1, h2⟩ := cyc_step hn (fun i => 0 < p.width d i) (fun i => by rw [width_mod]) a b ha (not_lt.2 hb.le)
    exact ⟨i, h1, not_lt.1 h2⟩)
  exact ⟨rt, lt, lb, rb, hrt, hlt, hlb, hrb⟩

/-! ## The loop of `flow_map` -/

omit [IsStrictOrderedRing K] in
theorem flowEnds_foldl (ls : List K) (l : List ℕ) (s : FlowEnds) :
    let at' := fun i : ℕ => ls[i]?.getD 0
    let nx := fun i : ℕ => ls[(i + 1) % ls.length]?.getD 0
    let go := fun (c : ℕ → Prop) [DecidablePred c] (o : Option ℕ) => l.foldl (fun o i => if c i then some ((i + 1) % ls.length) else o) o
    l.foldl (flowEndsStep ls) s = ⟨go (fun i => at' i ≥ 0 ∧ nx i < 0) s.rt, go (fun i => at' i < 0 ∧ nx i ≥ 0) s.lt,
      go (fun i => at' i ≤ 0 ∧ nx i > 0) s.lb, go (fun i => at' i > 0 ∧ nx i ≤ 0) s.rb⟩ := by
  intro at' nx go
  induction l generalizing s with
  | nil => rfl
  | cons i l ih =>
    simp only [go, List.foldl_cons] at ih ⊢
    rw [ih]
    have h : flowEndsStep ls s i = ⟨if at' i ≥ 0 ∧ nx i < 0 then some ((i + 1) % ls.length) else s.rt,
      if at' i < 0 ∧ nx i ≥ 0 then some ((i + 1) % ls.length) else s.lt,
      if at' i ≤ 0 ∧ nx i > 0 then some ((i + 1) % ls.length) else s.lb,
      if at' i > 0 ∧ nx i ≤ 0 then some ((i + 1) % ls.length) else s.rb⟩ := by
      unfold flowEndsStep
      dsimp only [at', nx]
      split_ifs <;> rfl
    rw [h]

theorem foldl_last {c : ℕ → Prop} [DecidablePred c] {g : ℕ → ℕ} (l : List ℕ) {r : ℕ} (h : ∀ i ∈ l, c i → g i = r) (o : Option ℕ)
    (he : (∃ i ∈ l, c i) ∨ o = some r) : l.foldl (fun o i => if c i then some (g i) else o) o = some r := by
  induction l generalizing o with
  | nil => simpa using he
  | cons i l ih =>
    rw [List.foldl_cons]
    refine ih (fun k hk => h k (List.mem_cons_of_mem _ hk)) _ ?_
    by_cases hi : c i
    · right; rw [if_pos hi, h i (by simp) hi]
    · rw [if_neg hi]
      rcases he with ⟨k, hk, hck⟩ | he
      · rcases List.mem_cons.1 hk with rfl | hk
        · exact absurd hck hi
        · exact .inl ⟨k, hk, hck⟩
      · exact .inr he

omit [LinearOrder K] [IsStrictOrderedRing K] in
theorem lengths_eq (p : Poly K) (d : Vec K) : (p.edges.map fun e => d.2 * e.1 + (-d.1) * e.2) = (List.range p.length).map (p.width d) := by
  unfold edges
  rw [List.map_map]
  refine List.map_congr_left fun i _ => ?_
  unfold width ccw
  simp only [Function.comp]
  ring

theorem flowEnds_ok (hv : p.Valid) (hc : p.Convex) (hd : d ≠ 0) {rt lt lb rb : ℕ} (h : p.Ends d rt lt lb rb) :
    (List.range p.length).foldl (flowEndsStep ((List.range p.length).map (p.width d))) ⟨none, none, none, none⟩ = ⟨some rt, some lt, some lb, some rb⟩ := by
  have hn : 0 < p.length := by have := hv.len3; omega
  have h1 : ∀ i < p.length, (((List.range p.length).map (p.width d))[i]?).getD 0 = p.width d i := by
    intro i hi
    rw [List.getElem?_map, List.getElem?_range hi]; rfl
  have h2 : ∀ i, (((List.range p.length).map (p.width d))[(i + 1) % ((List.range p.length).map (p.width d)).length]?).getD 0 = p.width d (i + 1) := by
    intro i
    rw [List.length_map, List.length_range, h1 _ (Nat.mod_lt _ hn), width_mod]
  rw [flowEnds_foldl]
  dsimp only
  simp only [List.length_map, List.length_range] at h2 ⊢
  congr 1
  · obtain ⟨i, hi, e, k⟩ := h.rt
    refine foldl_last (g := fun i => (i + 1) % p.length) _ (fun j hj hcj => ?_) _ (.inl ⟨i, List.mem_range.2 hi, ?_⟩)
    · rw [h1 j (List.mem_range.1 hj), h2] at hcj
      rw [e]; exact rt_unique hv hc hd hcj k
    · rw [h1 i hi, h2]; exact k
  · obtain ⟨i, hi, e, k⟩ := h.lt
    refine foldl_last (g := fun i => (i + 1) % p.length) _ (fun j hj hcj => ?_) _ (.inl ⟨i, List.mem_range.2 hi, ?_⟩)
    · rw [h1 j (List.mem_range.1 hj), h2] at hcj
      rw [e]; exact lt_unique hv hc hd hcj k
    · rw [h1 i hi, h2]; exact k
  · obtain ⟨i, hi, e, k⟩ := h.lb
    refine foldl_last (g := fun i => (i + 1) % p.length) _ (fun j hj hcj => ?_) _ (.inl ⟨i, List.mem_range.2 hi, ?_⟩)
    · rw [h1 j (List.mem_range.1 hj), h2] at hcj
      rw [e]; exact lb_unique hv hc hd hcj k
    · rw [h1 i hi, h2]; exact k
  · obtain ⟨i, hi, e, k⟩ := h.rb
    refine foldl_last (g := fun i => (i + 1) % p.length) _ (fun j hj hcj => ?_) _ (.inl ⟨i, List.mem_range.2 hi, ?_⟩)
    · rw [h1 j (List.mem_range.1 hj), h2] at hcj
      rw [e]; exact rb_unique hv hc hd hcj k
    · rw [h1 i hi, h2]; exact k

/-! ## The runs of edges -/

/-- How many edges there are from edge `i` to edge `j`. -/
def runLength (n i j : ℕ) : ℕ := if i < j then j - i else n - i + j

theorem cyclicSlice_eq {α : Type} (a : List α) {i j : ℕ} (hi : i < a.length) (hj : j < a.length) (hij : i ≠ j) :
    cyclicSlice a i j = (List.range (runLength a.length i j)).map fun k => a[(i + k) % a.length]'(Nat.mod_lt _ (by omega)) := by
  apply List.ext_getElem
  · unfold cyclicSlice runLength
    split_ifs with h <;> simp <;> omega
  · intro k h1 h2
    simp only [List.length_map, List.length_range] at h2
    simp only [List.getElem_map, List.getElem_range]
    unfold runLength at h2
    by_cases h : i < j
    · rw [if_pos h] at h2
      simp only [cyclicSlice, if_pos h, List.getElem_drop, List.getElem_take]
      congr 1
      rw [Nat.mod_eq_of_lt (by omega)]
    · rw [if_neg h] at h2
      simp only [cyclicSlice, if_neg h]
      by_cases hk : k < a.length - i
      · rw [List.getElem_append_left (by simpa using hk), List.getElem_drop]
        congr 1
        rw [Nat.mod_eq_of_lt (by omega)]
      · rw [List.getElem_append_right (by simpa using hk), List.getElem_take]
        congr 1
        rw [List.length_drop, show i + k = (k - (a.length - i)) + a.length by omega, Nat.add_mod_right, Nat.mod_eq_of_lt (by omega)]

theorem runLength_mod {n i j : ℕ} (hi : i < n) (hj : j < n) (hij : i ≠ j) : (i + runLength n i j) % n = j := by
  unfold runLength
  split_ifs with h
  · rw [show i + (j - i) = j by omega, Nat.mod_eq_of_lt hj]
  · rw [show i + (n - i + j) = j + n by omega, Nat.add_mod_right, Nat.mod_eq_of_lt hj]

theorem runLength_lt {n i j : ℕ} (hi : i < n) (hj : j < n) (hij : i ≠ j) {k : ℕ} (hk : k < runLength n i j) : (i + k) % n ≠ j := by
  unfold runLength at hk
  split_ifs at hk with h
  · rw [Nat.mod_eq_of_lt (by omega)]; omega
  · by_cases h2 : i + k < n
    · rw [Nat.mod_eq_of_lt h2]; omega
    · rw [show i + k = (i + k - n) + n by omega, Nat.add_mod_right, Nat.mod_eq_of_lt (by omega)]; omega

theorem runLength_le {n i j : ℕ} (hi : i < n) (hj : j < n) (hij : i ≠ j) : 0 < runLength n i j ∧ runLength n i j < n ∧ runLength n i j + runLength n j i = n := by
  unfold runLength
  split_ifs <;> omega

/-- A property of indices that starts to hold at `i` and ends to hold at `j` only, holds exactly from `i` to `j`. -/
theorem run_iff {n : ℕ} {P : ℕ → Prop} (hP : ∀ k, P (k % n) ↔ P k) {i j : ℕ} (hi : i < n) (hj : j < n) (hi' : P i) (hj' : ¬ P j)
    (h1 : ∀ k, P k → ¬ P (k + 1) → (k + 1) % n = j) (h2 : ∀ k, ¬ P k → P (k + 1) → (k + 1) % n = i) (m : ℕ) (hm : m < n) :
    P m ↔ ∃ k < runLength n i j, m = (i + k) % n := by
  have hij : i ≠ j := fun h => hj' (h ▸ hi')
  have run : ∀ k, k < runLength n i j → P (i + k) := by
    intro k
    induction k with
    | zero => intro _; exact hi'
    | succ k ih =>
      intro hk
      by_contra hno
      exact runLength_lt hi hj hij hk (h1 (i + k) (ih (by omega)) hno)
  have run' : ∀ k, k < runLength n j i → ¬ P (j + k) := by
    intro k
    induction k with
    | zero => intro _; exact hj'
    | succ k ih =>
      intro hk hno
      exact runLength_lt hj hi hij.symm hk (h2 (j + k) (ih (by omega)) hno)
  constructor
  · intro h
    by_contra hno
    push Not at hno
    obtain ⟨l0, l1, l2⟩ := runLength_le hi hj hij
    -- the index of m in the run from i around the circle
    obtain ⟨k, hk, e⟩ : ∃ k < n, m = (i + k) % n := by
      by_cases hc : i ≤ m
      · exact ⟨m - i, by omega, by rw [show i + (m - i) = m by omega, Nat.mod_eq_of_lt hm]⟩
      · exact ⟨m + n - i, by omega, by rw [show i + (m + n - i) = m + n by omega, Nat.add_mod_right, Nat.mod_eq_of_lt hm]⟩
    have hge : runLength n i j ≤ k := by
      by_contra hlt
      exact hno k (by omega) e
    have h3 := run' (k - runLength n i j) (by omega)
    apply h3
    rw [← hP]
    have : (j + (k - runLength n i j)) % n = m := by
      have e2 : (j + (k - runLength n i j)) % n = ((i + runLength n i j) % n + (k - runLength n i j)) % n := by rw [runLength_mod hi hj hij]
      rw [e2, Nat.mod_add_mod, e]
      congr 1
      omega
    rw [this]
    exact h
  · rintro ⟨k, hk, rfl⟩
    rw [hP]
    exact run k hk

/-! ## The map -/

/-- What `flow_map` returns: the edges that run to the right and those that run to the left, where `left` is the coordinate of the left end of
the polygon. -/
structure IsFlowMap (p : Poly K) (d : Vec K) (T : FlowMap ℕ K) (left : K) : Prop where
  ok : p.flowMap d = .ok T
  made : FlowMap.mk' T.botLabels T.botLengths T.topLabels T.topLengths = .ok T
  bot : ∀ i x, FlowIn T.botLabels T.botLengths i x ↔ i < p.length ∧ 0 < p.width d i ∧ 0 ≤ x ∧ x ≤ p.width d i
  top : ∀ i x, FlowIn T.topLabels T.topLengths i x ↔ i < p.length ∧ p.width d i < 0 ∧ 0 ≤ x ∧ x ≤ -p.width d i
  botPos : ∀ i x, i < p.length → 0 < p.width d i → flowPos T.botLabels T.botLengths i x = across d (p.vertex i) - left + x
  topPos : ∀ i x, i < p.length → p.width d i < 0 → flowPos T.topLabels T.topLengths i x = across d (p.vertex (i + 1)) - left + x
  leftEnd : ∀ j, left ≤ across d (p.vertex j)
  rightEnd : ∀ j, across d (p.vertex j) ≤ left + T.botLengths.sum
  lengthBot : ∀ i, i < p.length → 0 < p.width d i → T.lengthBot i = .ok (p.width d i)
  lengthTop : ∀ i, i < p.length → p.width d i < 0 → T.lengthTop i = .ok (-p.width d i)

omit [LinearOrder K] [IsStrictOrderedRing K] in
theorem sum_widths (p : Poly K) (d : Vec K) (i k : ℕ) :
    ((List.range k).map fun m => p.width d (i + m)).sum = across d (p.vertex (i + k)) - across d (p.vertex i) := by
  induction k with
  | zero => simp
  | succ k ih =>
    rw [List.range_succ, List.map_append, List.sum_append, ih, List.map_singleton, List.sum_singleton, width_eq, ← Nat.add_assoc]
    ring

theorem reverse_map_range {α : Type} (f : ℕ → α) (n : ℕ) : ((List.range n).map f).reverse = (List.range n).map fun k => f (n - 1 - k) := by
  apply List.ext_getElem
  · simp
  · intro k h1 h2
    simp

theorem mod_add_inj {n a b c : ℕ} (ha : a < n) (hb : b < n) (h : (c + a) % n = (c + b) % n) : a = b := by
  have := Nat.ModEq.add_left_cancel' c (show c + a ≡ c + b [MOD n] from h)
  rwa [Nat.ModEq, Nat.mod_eq_of_lt ha, Nat.mod_eq_of_lt hb] at this

theorem flowMap_isFlowMap (hv : p.Valid) (hc : p.Convex) (hd : d ≠ 0) : ∃ T left, p.IsFlowMap d T left := by
  have hn : 0 < p.length := by have := hv.len3; omega
  obtain ⟨rt, lt, lb, rb, hE⟩ := exists_ends hv hd
  have hrt : rt < p.length := by obtain ⟨i, -, e, -⟩ := hE.rt; rw [e]; exact Nat.mod_lt _ hn
  have hlt : lt < p.length := by obtain ⟨i, -, e, -⟩ := hE.lt; rw [e]; exact Nat.mod_lt _ hn
  have hlb : lb < p.length := by obtain ⟨i, -, e, -⟩ := hE.lb; rw [e]; exact Nat.mod_lt _ hn
  have hrb : rb < p.length := by obtain ⟨i, -, e, -⟩ := hE.rb; rw [e]; exact Nat.mod_lt _ hn
  have wrt : p.width d rt < 0 := by obtain ⟨i, -, e, -, k⟩ := hE.rt; rw [e, width_mod]; exact k
  have wlt : 0 ≤ p.width d lt := by obtain ⟨i, -, e, -, k⟩ := hE.lt; rw [e, width_mod]; exact k
  have wlb : 0 < p.width d lb := by obtain ⟨i, -, e, -, k⟩ := hE.lb; rw [e, width_mod]; exact k
  have wrb : p.width d rb ≤ 0 := by obtain ⟨i, -, e, -, k⟩ := hE.rb; rw [e, width_mod]; exact k
  have hne : lb ≠ rb := fun h => absurd (h ▸ wlb) (not_lt.2 wrb)
  have hne' : rt ≠ lt := fun h => absurd (h ▸ wrt) (not_lt.2 wlt)
  have runb := run_iff (n := p.length) (P := fun i => 0 < p.width d i) (fun k => by rw [width_mod]) hlb hrb wlb (not_lt.2 wrb)
    (fun k h1 h2 => by
      obtain ⟨i, -, e, h⟩ := hE.rb
      rw [e]; exact rb_unique hv hc hd ⟨h1, not_lt.1 h2⟩ h)
    (fun k h1 h2 => by
      obtain ⟨i, -, e, h⟩ := hE.lb
      rw [e]; exact lb_unique hv hc hd ⟨not_lt.1 h1, h2⟩ h)
  have runt := run_iff (n := p.length) (P := fun i => p.width d i < 0) (fun k => by rw [width_mod]) hrt hlt wrt (not_lt.2 wlt)
    (fun k h1 h2 => by
      obtain ⟨i, -, e, h⟩ := hE.lt
      rw [e]; exact lt_unique hv hc hd ⟨h1, not_lt.1 h2⟩ h)
    (fun k h1 h2 => by
      obtain ⟨i, -, e, h⟩ := hE.rt
      rw [e]; exact rt_unique hv hc hd ⟨not_lt.1 h1, h2⟩ h)
  -- the left and the right end
  have lend : across d (p.vertex lb) = across d (p.vertex lt) := by
    obtain ⟨i, -, e, h⟩ := hE.lt
    obtain ⟨j, -, f, k⟩ := hE.lb
    rw [e, f, vertex_mod, vertex_mod]
    exact le_antisymm (left_end hv hc hd (.inr k) _) (left_end hv hc hd (.inl h) _)
  have rend : across d (p.vertex rb) = across d (p.vertex rt) := by
    obtain ⟨i, -, e, h⟩ := hE.rt
    obtain ⟨j, -, f, k⟩ := hE.rb
    rw [e, f, vertex_mod, vertex_mod]
    exact le_antisymm (right_end hv hc hd (.inr h) _) (right_end hv hc hd (.inl k) _)
  have hle : ∀ j, across d (p.vertex lb) ≤ across d (p.vertex j) := by
    obtain ⟨j, -, f, k⟩ := hE.lb
    rw [f, vertex_mod]; exact left_end hv hc hd (.inr k)
  have hre : ∀ j, across d (p.vertex j) ≤ across d (p.vertex rb) := by
    obtain ⟨j, -, f, k⟩ := hE.rb
    rw [f, vertex_mod]; exact right_end hv hc hd (.inl k)
  -- the lists
  obtain ⟨B0, B1, -⟩ := runLength_le hlb hrb hne
  obtain ⟨T0, T1, -⟩ := runLength_le hrt hlt hne'
  have hBm := runLength_mod hlb hrb hne
  have hTm := runLength_mod hrt hlt hne'
  generalize hBd : runLength p.length lb rb = B at *
  generalize hTd : runLength p.length rt lt = N at *
  have ebl : cyclicSlice (List.range p.length) lb rb = (List.range B).map fun k => (lb + k) % p.length := by
    rw [cyclicSlice_eq _ (by simpa using hlb) (by simpa using hrb) hne]
    simp only [List.length_range, hBd, List.getElem_range]
  have ebs : cyclicSlice ((List.range p.length).map (p.width d)) lb rb = (List.range B).map fun k => p.width d (lb + k) := by
    rw [cyclicSlice_eq _ (by simpa using hlb) (by simpa using hrb) hne]
    simp only [List.length_map, List.length_range, hBd, List.getElem_range, List.getElem_map, width_mod]
  have etl : (cyclicSlice (List.range p.length) rt lt).reverse = (List.range N).map fun k => (rt + (N - 1 - k)) % p.length := by
    rw [cyclicSlice_eq _ (by simpa using hrt) (by simpa using hlt) hne']
    simp only [List.length_range, hTd, List.getElem_range]
    exact reverse_map_range _ _
  have ets : (cyclicSlice ((List.range p.length).map (p.width d)) rt lt).reverse.map (fun x => -x) = (List.range N).map fun k => -p.width d (rt + (N - 1 - k)) := by
    rw [cyclicSlice_eq _ (by simpa using hrt) (by simpa using hlt) hne']
    simp only [List.length_map, List.length_range, hTd, List.getElem_range, List.getElem_map, width_mod]
    rw [reverse_map_range, List.map_map]
    rfl
  generalize hbl : ((List.range B).map fun k => (lb + k) % p.length) = bl at ebl
  generalize hbs : ((List.range B).map fun k => p.width d (lb + k)) = bs at ebs
  generalize htl : ((List.range N).map fun k => (rt + (N - 1 - k)) % p.length) = tl at etl
  generalize hts : ((List.range N).map fun k => -p.width d (rt + (N - 1 - k))) = ts at ets
  have gbl : ∀ k, k < B → bl[k]? = some ((lb + k) % p.length) := fun k hk => by rw [← hbl, List.getElem?_map, List.getElem?_range hk]; rfl
  have gbs : ∀ k, k < B → bs[k]? = some (p.width d (lb + k)) := fun k hk => by rw [← hbs, List.getElem?_map, List.getElem?_range hk]; rfl
  have gtl : ∀ k, k < N → tl[k]? = some ((rt + (N - 1 - k)) % p.length) := fun k hk => by rw [← htl, List.getElem?_map, List.getElem?_range hk]; rfl
  have gts : ∀ k, k < N → ts[k]? = some (-p.width d (rt + (N - 1 - k))) := fun k hk => by rw [← hts, List.getElem?_map, List.getElem?_range hk]; rfl
  have nbl : bl.Nodup := by
    rw [← hbl]
    refine List.Nodup.map_on ?_ List.nodup_range
    intro a ha b hb hab
    exact mod_add_inj (by have := List.mem_range.1 ha; omega) (by have := List.mem_range.1 hb; omega) hab
  have ntl : tl.Nodup := by
    rw [← htl]
    refine List.Nodup.map_on ?_ List.nodup_range
    intro a ha b hb hab
    have ha := List.mem_range.1 ha
    have hb := List.mem_range.1 hb
    have := mod_add_inj (by omega) (by omega) hab
    omega
  have lbl : bl.length = B := by rw [← hbl]; simp
  have lbs : bs.length = B := by rw [← hbs]; simp
  have ltl : tl.length = N := by rw [← htl]; simp
  have lts : ts.length = N := by rw [← hts]; simp
  have posb : ∀ k < B, 0 < p.width d (lb + k) := fun k hk => by
    have := (runb _ (Nat.mod_lt (lb + k) hn)).2 ⟨k, hk, rfl⟩
    rwa [width_mod] at this
  have post : ∀ k < N, p.width d (rt + k) < 0 := fun k hk => by
    have := (runt _ (Nat.mod_lt (rt + k) hn)).2 ⟨k, hk, rfl⟩
    rwa [width_mod] at this
  have startb : ∀ k ≤ B, flowStart bs k = across d (p.vertex (lb + k)) - across d (p.vertex lb) := by
    intro k hk
    unfold flowStart
    rw [← hbs, ← List.map_take, List.take_range, Nat.min_eq_left hk, sum_widths]
  have startt : ∀ k ≤ N, flowStart ts k = across d (p.vertex (rt + (N - k))) - across d (p.vertex (rt + N)) := by
    intro k hk
    induction k with
    | zero => simp [flowStart]
    | succ k ih =>
      rw [flowStart_succ (gts k (by omega)), ih (by omega), width_eq, show rt + (N - 1 - k) + 1 = rt + (N - k) by omega,
        show rt + (N - (k + 1)) = rt + (N - 1 - k) by omega]
      ring
  have vN : p.vertex (rt + N) = p.vertex lt := by rw [← vertex_mod p (rt + N), hTm]
  have vB : p.vertex (lb + B) = p.vertex rb := by rw [← vertex_mod p (lb + B), hBm]
  have sumb : bs.sum = across d (p.vertex rb) - across d (p.vertex lb) := by
    rw [← flowStart_length, lbs, startb B le_rfl, vB]
  have sumt : ts.sum = across d (p.vertex rt) - across d (p.vertex lt) := by
    rw [← flowStart_length, lts, startt N le_rfl, vN]; simp
  have hmk : (∀ x ∈ bs, 0 < x) ∧ (∀ x ∈ ts, 0 < x) ∧ bl.length = bs.length ∧ tl.length = ts.length ∧ ts.sum = bs.sum ∧ bl.Nodup ∧ tl.Nodup ∧ bs ≠ [] := by
    refine ⟨?_, ?_, by rw [lbl, lbs], by rw [ltl, lts], by rw [sumb, sumt, lend, rend], nbl, ntl, ?_⟩
    · intro x hx
      rw [← hbs] at hx
      obtain ⟨k, hk, rfl⟩ := List.mem_map.1 hx
      exact posb k (List.mem_range.1 hk)
    · intro x hx
      rw [← hts] at hx
      obtain ⟨k, hk, rfl⟩ := List.mem_map.1 hx
      have := List.mem_range.1 hk
      exact neg_pos.2 (post _ (by omega))
    · intro h; rw [h] at lbs; simp at lbs; omega
  obtain ⟨T, hT, -, t1, t2, t3, t4⟩ := (flowMap_spec bl tl bs ts).1 hmk
  have hok : p.flowMap d = .ok T := by
    unfold flowMap
    dsimp only
    rw [lengths_eq, List.length_map, List.length_range, flowEnds_ok hv hc hd hE]
    dsimp only
    rw [ebl, ebs, etl, ets]
    exact hT
  -- which edges
  have idxb : ∀ i, i < p.length → 0 < p.width d i → ∃ k < B, i = (lb + k) % p.length := fun i hi h => (runb i hi).1 h
  have idxt : ∀ i, i < p.length → p.width d i < 0 → ∃ k < N, i = (rt + (N - 1 - k)) % p.length := fun i hi h => by
    obtain ⟨k, hk, e⟩ := (runt i hi).1 h
    exact ⟨N - 1 - k, by omega, by rw [e]; congr 2; omega⟩
  refine ⟨T, across d (p.vertex lb), ⟨hok, by rw [t1, t2, t3, t4]; exact hT, ?_, ?_, ?_, ?_, hle, ?_, ?_, ?_⟩⟩
  · intro i x
    rw [t1, t2]
    constructor
    · rintro ⟨k, l, h1, h2, h3, h4⟩
      have hk : k < B := by rw [← lbl]; exact (List.getElem?_eq_some_iff.1 h1).1
      rw [gbl k hk] at h1; rw [gbs k hk] at h2
      injection h1 with h1; injection h2 with h2
      rw [← h1, width_mod]
      exact ⟨Nat.mod_lt _ hn, posb k hk, h3, by rw [h2]; exact h4⟩
    · rintro ⟨h1, h2, h3, h4⟩
      obtain ⟨k, hk, e⟩ := idxb i h1 h2
      refine ⟨k, _, by rw [e]; exact gbl k hk, gbs k hk, h3, ?_⟩
      rw [e, width_mod] at h4
      exact h4
  · intro i x
    rw [t3, t4]
    constructor
    · rintro ⟨k, l, h1, h2, h3, h4⟩
      have hk : k < N := by rw [← ltl]; exact (List.getElem?_eq_some_iff.1 h1).1
      rw [gtl k hk] at h1; rw [gts k hk] at h2
      injection h1 with h1; injection h2 with h2
      rw [← h1, width_mod]
      exact ⟨Nat.mod_lt _ hn, post _ (by omega), h3, by rw [h2]; exact h4⟩
    · rintro ⟨h1, h2, h3, h4⟩
      obtain ⟨k, hk, e⟩ := idxt i h1 h2
      refine ⟨k, _, by rw [e]; exact gtl k hk, gts k hk, h3, ?_⟩
      rw [e, width_mod] at h4
      exact h4
  · intro i x h1 h2
    obtain ⟨k, hk, e⟩ := idxb i h1 h2
    unfold flowPos
    rw [t1, t2, (idxOf_of_getElem nbl (by rw [e]; exact gbl k hk)).1, startb k hk.le, e, vertex_mod]
  · intro i x h1 h2
    obtain ⟨k, hk, e⟩ := idxt i h1 h2
    unfold flowPos
    rw [t3, t4, (idxOf_of_getElem ntl (by rw [e]; exact gtl k hk)).1, startt k hk.le, vN, lend, e]
    rw [← vertex_mod p ((rt + (N - 1 - k)) % p.length + 1), Nat.mod_add_mod, vertex_mod, show rt + (N - 1 - k) + 1 = rt + (N - k) by omega]
  · intro j
    rw [t2, sumb]
    have := hre j
    linarith
  · intro i h1 h2
    obtain ⟨k, hk, e⟩ := idxb i h1 h2
    have hg : bl[k]? = some i := by rw [e]; exact gbl k hk
    obtain ⟨f1, f2⟩ := idxOf_of_getElem nbl hg
    unfold FlowMap.lengthBot
    rw [t1, t2, if_pos f2, f1, gbs k hk, e, width_mod]
  · intro i h1 h2
    obtain ⟨k, hk, e⟩ := idxt i h1 h2
    have hg : tl[k]? = some i := by rw [e]; exact gtl k hk
    obtain ⟨f1, f2⟩ := idxOf_of_getElem ntl hg
    unfold FlowMap.lengthTop
    rw [t3, t4, if_pos f2, f1, gts k hk, e, width_mod]

end Poly
end Flat
