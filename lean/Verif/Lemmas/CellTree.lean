import Verif.Lemmas.CellWord

/-!
# The triangles of a Delaunay cell form a tree
-/

namespace Flat
variable {L K : Type} [DecidableEq L] [Field K] [LinearOrder K] [IsStrictOrderedRing K]
namespace CellGeom
variable {op : L × ℕ → L × ℕ} {V J : L × ℕ → Prop} {μ : L × ℕ → K}

/-- The walk comes to an edge only once. -/
theorem path_unique (hG : CellGeom op V J μ) : ∀ (m n : ℕ) (s a b x : L × ℕ), Path op V J m s a → Path op V J n s b → Next op V J a x → Next op V J b x → a = b := by
  -- one of the paths is trivial
  have key : ∀ (n : ℕ) (s b x : L × ℕ), Path op V J n s b → Next op V J s x → Next op V J b x → s = b := by
    intro n s b x hp h1 h2
    rcases hp.cases_head with ⟨-, e⟩ | ⟨m, b1, -, h3, h4⟩
    · exact e.symm
    · exfalso
      by_cases hx : x = b1
      · subst hx
        exact absurd (h2.lt hG) (not_lt.2 (h4.le hG))
      · exact D.disjoint hG h1.2.2.1 h3.2.2.1 (h1.2.2.2.1.trans h3.2.2.2.1.symm) hx (D.refl x) (D.tail ⟨m, h4⟩ h2)
  intro m
  induction m with
  | zero =>
    intro n s a b x hp hq h1 h2
    rcases hp.cases_head with ⟨-, e⟩ | ⟨m', _, e, -, -⟩
    · subst e
      exact key n _ b x hq h1 h2
    · omega
  | succ m ih =>
    intro n s a b x hp hq h1 h2
    rcases hp.cases_head with ⟨e, -⟩ | ⟨m', a1, e, h3, h4⟩
    · omega
    · rcases hq.cases_head with ⟨-, e'⟩ | ⟨n', b1, e', h3', h4'⟩
      · subst e'
        exact (key _ _ a x hp h2 h1).symm
      · obtain rfl : m = m' := by omega
        by_cases hab : a1 = b1
        · subst hab
          exact ih n' a1 a b x h4 h4' h1 h2
        · exact absurd (D.tail ⟨m, h4⟩ h1) (fun hd => D.disjoint hG h3.2.2.1 h3'.2.2.1 (h3.2.2.2.1.trans h3'.2.2.2.1.symm) hab hd (D.tail ⟨n', h4'⟩ h2))

variable {S : RSurf L K}

/-- The walk never comes back to the triangle where it started. -/
theorem R.not_start (hG : CellGeom op V J μ) (hA : Agrees S op V J) {l : L} (hl : V (l, 0)) {a : L × ℕ} (ha : R op V J l a) (hv : V a) (hj : J a) :
    (op a).1 ≠ l := by
  intro e
  obtain ⟨i, hi, hd⟩ := ha
  have hc := hA.cross hG hv hj
  have v : ∀ i < 3, V (l, i) := fun i hi => hA.tri (l, 0) i hl hi
  have go : ∀ k, k < 3 → k ≠ i → Next op V J a (l, k) → False := by
    intro k hk hki hn
    exact D.disjoint hG (v k hk) (v i hi) rfl (fun e => hki (congrArg Prod.snd e)) (D.refl _) (D.tail hd hn)
  have n1 := hc.next1
  have n2 := hc.next2
  rw [e] at n1 n2
  have hlt := hA.lt3 _ (hG.opV a hv)
  by_cases hi1 : ((op a).2 + 1) % 3 = i
  · exact go _ (Nat.mod_lt _ (by omega)) (by omega) n2
  · exact go _ (Nat.mod_lt _ (by omega)) hi1 n1

/-- The walk enters every triangle at most once. -/
theorem R.unique (hG : CellGeom op V J μ) (hA : Agrees S op V J) {l : L} (hl : V (l, 0)) {a b : L × ℕ} (ha : R op V J l a) (hb : R op V J l b)
    (va : V a) (vb : V b) (ja : J a) (jb : J b) (e : (op a).1 = (op b).1) : a = b := by
  by_contra hne
  have oa := hG.opV a va
  have ob := hG.opV b vb
  have hop : op a ≠ op b := fun h => hne (by rw [← hG.opop a va, ← hG.opop b vb, h])
  have la := hA.lt3 _ oa
  have lb := hA.lt3 _ ob
  have h2 : (op a).2 ≠ (op b).2 := fun h => hop (Prod.ext e h)
  have hk : ∃ k, k < 3 ∧ k ≠ (op a).2 ∧ k ≠ (op b).2 := ⟨3 - (op a).2 - (op b).2, by omega, by omega, by omega⟩
  obtain ⟨k, k1, k2, k3⟩ := hk
  have vk := hA.tri (op a) k oa k1
  have s1 : Next op V J a ((op a).1, k) := ⟨va, ja, vk, rfl, fun h => k2 (congrArg Prod.snd h)⟩
  have s2 : Next op V J b ((op a).1, k) := ⟨vb, jb, vk, e, fun h => k3 (congrArg Prod.snd h)⟩
  obtain ⟨i, hi, m, hm⟩ := ha
  obtain ⟨j, hj, n, hn⟩ := hb
  by_cases hij : i = j
  · subst hij
    exact hne (path_unique hG m n _ a b _ hm hn s1 s2)
  · exact D.disjoint hG (hA.tri (l, 0) i hl hi) (hA.tri (l, 0) j hl hj) rfl (fun h => hij (congrArg Prod.snd h)) (D.tail ⟨m, hm⟩ s1) (D.tail ⟨n, hn⟩ s2)

/-- The triangles that have been entered, for a word of the walk that starts at `l`. -/
structure Entered (op : L × ℕ → L × ℕ) (V J : L × ℕ → Prop) (l : L) (w : List (L × ℕ)) (T : List L) : Prop where
  nodup : T.Nodup
  start : l ∈ T
  sep : Sep op V J w
  reach : ∀ k ∈ w, R op V J l k
  entry : ∀ t ∈ T, t = l ∨ ∃ y, R op V J l y ∧ V y ∧ J y ∧ (op y).1 = t ∧ ∀ k ∈ w, ¬ D op V J k y
  all : ∀ y, R op V J l y → V y → J y → (op y).1 ∈ T ∨ ∃ k ∈ w, D op V J k y

theorem Entered.new (hG : CellGeom op V J μ) (hA : Agrees S op V J) {l : L} (hl : V (l, 0)) {pre post : List (L × ℕ)} {h : L × ℕ} {T : List L}
    (hT : Entered op V J l (pre ++ h :: post) T) (hv : V h) (hj : J h) : (op h).1 ∉ T := by
  intro hm
  have hr := hT.reach h (by simp)
  rcases hT.entry _ hm with e | ⟨y, h1, h2, h3, h4, h5⟩
  · exact R.not_start hG hA hl hr hv hj e
  · have := R.unique hG hA hl h1 hr h2 hv h3 hj h4
    subst this
    exact h5 y (by simp) (D.refl y)

theorem Entered.step (hG : CellGeom op V J μ) (hA : Agrees S op V J) {l : L} (hl : V (l, 0)) {pre post : List (L × ℕ)} {h : L × ℕ} {T : List L}
    (hT : Entered op V J l (pre ++ h :: post) T) (hv : V h) (hj : J h) :
    Entered op V J l (pre ++ ((op h).1, ((op h).2 + 1) % 3) :: ((op h).1, ((op h).2 + 2) % 3) :: post) ((op h).1 :: T) := by
  have hc := hA.cross hG hv hj
  set k1 : L × ℕ := ((op h).1, ((op h).2 + 1) % 3)
  set k2 : L × ℕ := ((op h).1, ((op h).2 + 2) % 3)
  have hr := hT.reach h (by simp)
  have old : ∀ k ∈ pre ++ k1 :: k2 :: post, (k ∈ pre ++ h :: post ∧ (k ∈ pre ∨ k ∈ post)) ∨ k = k1 ∨ k = k2 := by
    intro k hk
    rcases List.mem_append.1 hk with hk | hk
    · exact Or.inl ⟨List.mem_append_left _ hk, Or.inl hk⟩
    · rcases List.mem_cons.1 hk with hk | hk
      · exact Or.inr (Or.inl hk)
      · rcases List.mem_cons.1 hk with hk | hk
        · exact Or.inr (Or.inr hk)
        · exact Or.inl ⟨List.mem_append_right _ (List.mem_cons_of_mem _ hk), Or.inr hk⟩
  refine ⟨List.nodup_cons.2 ⟨hT.new hG hA hl hv hj, hT.nodup⟩, List.mem_cons_of_mem _ hT.start, hT.sep.step hG hc, ?_, ?_, ?_⟩
  · intro k hk
    obtain ⟨i, hi, hd⟩ := hr
    rcases old k hk with ⟨hk, -⟩ | rfl | rfl
    · exact hT.reach k hk
    · exact ⟨i, hi, D.tail hd hc.next1⟩
    · exact ⟨i, hi, D.tail hd hc.next2⟩
  · intro t ht
    rcases List.mem_cons.1 ht with rfl | ht
    · refine Or.inr ⟨h, hr, hv, hj, rfl, ?_⟩
      intro k hk hd
      rcases old k hk with ⟨-, hk⟩ | rfl | rfl
      · have hs := hT.sep
        unfold Sep at hs
        rw [List.pairwise_append, List.pairwise_cons] at hs
        rcases hk with hk | hk
        · exact hs.2.2 k hk h (by simp) h hd (D.refl h)
        · exact hs.2.1.1 k hk h (D.refl h) hd
      · exact D.not_back hG hc.next1 hd
      · exact D.not_back hG hc.next2 hd
    · rcases hT.entry t ht with e | ⟨y, h1, h2, h3, h4, h5⟩
      · exact Or.inl e
      · refine Or.inr ⟨y, h1, h2, h3, h4, ?_⟩
        intro k hk hd
        rcases old k hk with ⟨hk, -⟩ | rfl | rfl
        · exact h5 k hk hd
        · exact h5 h (by simp) (D.head hc.next1 hd)
        · exact h5 h (by simp) (D.head hc.next2 hd)
  · intro y h1 h2 h3
    rcases hT.all y h1 h2 h3 with h4 | ⟨k, hk, hd⟩
    · exact Or.inl (List.mem_cons_of_mem _ h4)
    · rcases List.mem_append.1 hk with hk | hk
      · exact Or.inr ⟨k, List.mem_append_left _ hk, hd⟩
      · rcases List.mem_cons.1 hk with rfl | hk
        · rcases (hc.iff y).1 hd with rfl | hd | hd
          · exact Or.inl (List.mem_cons_self ..)
          · exact Or.inr ⟨k1, by simp, hd⟩
          · exact Or.inr ⟨k2, by simp, hd⟩
        · exact Or.inr ⟨k, by simp [hk], hd⟩

theorem Entered.start_word (hG : CellGeom op V J μ) (hA : Agrees S op V J) {l : L} (hl : V (l, 0)) :
    Entered op V J l [(l, 0), (l, 1), (l, 2)] [l] := by
  have v : ∀ i < 3, V (l, i) := fun i hi => hA.tri (l, 0) i hl hi
  have dis : ∀ i j, i < 3 → j < 3 → i ≠ j → ∀ x, D op V J (l, i) x → D op V J (l, j) x → False := by
    intro i j hi hj hij x h1 h2
    exact D.disjoint hG (v i hi) (v j hj) rfl (fun e => hij (congrArg Prod.snd e)) h1 h2
  refine ⟨by simp, by simp, ?_, ?_, ?_, ?_⟩
  · unfold Sep
    simp only [List.pairwise_cons, List.mem_cons, List.not_mem_nil, or_false, forall_eq_or_imp, forall_eq, List.Pairwise.nil, and_true,
      false_imp_iff, implies_true]
    exact ⟨⟨dis 0 1 (by omega) (by omega) (by omega), dis 0 2 (by omega) (by omega) (by omega)⟩, dis 1 2 (by omega) (by omega) (by omega)⟩
  · intro k hk
    simp only [List.mem_cons, List.not_mem_nil, or_false] at hk
    rcases hk with rfl | rfl | rfl
    · exact ⟨0, by omega, D.refl _⟩
    · exact ⟨1, by omega, D.refl _⟩
    · exact ⟨2, by omega, D.refl _⟩
  · intro t ht
    exact Or.inl (by simpa using ht)
  · rintro y ⟨i, hi, hd⟩ - -
    refine Or.inr ⟨(l, i), ?_, hd⟩
    have : i = 0 ∨ i = 1 ∨ i = 2 := by omega
    rcases this with rfl | rfl | rfl <;> simp

/-- In the end the triangles of the cell have been entered. -/
theorem Entered.mem_iff (hG : CellGeom op V J μ) (hA : Agrees S op V J) {l : L} (hl : V (l, 0)) {w : List (L × ℕ)} {T : List L}
    (hT : Entered op V J l w T) (hw : ∀ k ∈ w, ¬ J k) (t : L) : t ∈ T ↔ Comp op V J l t := by
  constructor
  · intro ht
    rcases hT.entry t ht with rfl | ⟨y, h1, h2, h3, rfl, -⟩
    · exact Relation.ReflTransGen.refl
    · refine Relation.ReflTransGen.tail ((comp_iff hG hA hl y.1).2 ⟨y, h1, rfl⟩) ⟨y.2, ?_, ?_, rfl⟩
      · exact h2
      · exact h3
  · intro h
    have go : ∀ y, R op V J l y → V y → J y → (op y).1 ∈ T := by
      intro y h1 h2 h3
      rcases hT.all y h1 h2 h3 with h4 | ⟨k, hk, hd⟩
      · exact h4
      · rw [D.of_not_join (hw k hk)] at hd
        subst hd
        exact absurd h3 (hw y hk)
    obtain ⟨x, ⟨i, hi, n, hp⟩, rfl⟩ := (comp_iff hG hA hl t).1 h
    cases hp with
    | zero => exact hT.start
    | @succ n _ y _ h1 h2 =>
      rw [h2.2.2.2.1]
      exact go y ⟨i, hi, n, h1⟩ h2.1 h2.2.1

end CellGeom

namespace RSurf
variable {S : RSurf L K} {valid : L → Prop}

/-- Twice the area of a closed word. -/
def wordArea (S : RSurf L K) : Vec K → List (L × ℕ) → K
  | _, [] => 0
  | v, h :: w => ccw v (v + S.vecOf h) + wordArea S (v + S.vecOf h) w

omit [DecidableEq L] [IsStrictOrderedRing K] [LinearOrder K] in
theorem wordArea_append (S : RSurf L K) (v : Vec K) (a b : List (L × ℕ)) :
    S.wordArea v (a ++ b) = S.wordArea v a + S.wordArea (v + (a.map S.vecOf).sum) b := by
  induction a generalizing v with
  | nil => simp [wordArea]
  | cons h a ih => simp only [List.cons_append, wordArea, ih, List.map_cons, List.sum_cons, add_assoc]

omit [DecidableEq L] [IsStrictOrderedRing K] [LinearOrder K] in
theorem wordArea_eq (S : RSurf L K) (v : Vec K) (w : List (L × ℕ)) : S.wordArea v w = pathSum ccw (Poly.partialSums v (w.map S.vecOf)) := by
  induction w generalizing v with
  | nil => simp [wordArea, Poly.partialSums, pathSum]
  | cons h w ih =>
    rw [wordArea, ih, List.map_cons, Poly.partialSums]
    cases w with
    | nil => simp [Poly.partialSums, pathSum]
    | cons g w => simp [Poly.partialSums, pathSum]

omit [DecidableEq L] in
theorem wordArea_start {l : L} (h3 : (S.triAt l).length = 3) : S.wordArea 0 [(l, 0), (l, 1), (l, 2)] = 2 * (S.triAt l).area := by
  have e3 : (S.triAt l).vertex 3 = (S.triAt l).vertex 0 := Poly.vertex_three h3 rfl
  have hc := MSurf.area_of_length_three _ h3 2
  rw [hc, Poly.edge_congr (S.triAt l) (i := 2 + 1) (j := 0) (by rw [h3]), Poly.edge_congr (S.triAt l) (i := 2 + 2) (j := 1) (by rw [h3])]
  have v2 : S.vecOf (l, 2) = (S.triAt l).vertex 0 - (S.triAt l).vertex 2 := by
    unfold vecOf Poly.edge
    dsimp only
    rw [show 2 + 1 = 3 from rfl, e3]
  have v0 : S.vecOf (l, 0) = (S.triAt l).vertex 1 - (S.triAt l).vertex 0 := rfl
  have v1 : S.vecOf (l, 1) = (S.triAt l).vertex 2 - (S.triAt l).vertex 1 := rfl
  simp only [wordArea, v0, v1, v2, Poly.edge, ccw, Prod.fst_sub, Prod.snd_sub, Prod.fst_add, Prod.snd_add, Prod.fst_zero, Prod.snd_zero]
  ring

theorem wordArea_step (hS : S.Closed valid) (h3 : ∀ l p, valid l → S.polygon l = .ok p → p.length = 3) (hT : S.GluedBy valid (fun u v => u = -v))
    {pre post : List (L × ℕ)} {h : L × ℕ} (hh : IsEdge3 valid h) :
    S.wordArea 0 (pre ++ ((S.oppAt h).1, ((S.oppAt h).2 + 1) % 3) :: ((S.oppAt h).1, ((S.oppAt h).2 + 2) % 3) :: post) =
      2 * (S.triAt (S.oppAt h).1).area + S.wordArea 0 (pre ++ h :: post) := by
  obtain ⟨ho, ho2, -⟩ := oppAt_spec hS h3 hh
  obtain ⟨hp1, hv1⟩ := triAt_spec hS hh.1
  obtain ⟨hp2, hv2⟩ := triAt_spec hS ho2.1
  have l1 := h3 _ _ hh.1 hp1
  have l2 := h3 _ _ ho2.1 hp2
  have hglue : S.vecOf h = -S.vecOf (S.oppAt h) := hT h.1 h.2 _ _ _ _ hh.1 hp1 (by rw [l1]; exact hh.2) ho hp2
  set c := S.oppAt h with hc
  have w1 : S.vecOf (c.1, (c.2 + 1) % 3) = (S.triAt c.1).edge (c.2 + 1) := Poly.edge_congr _ (by dsimp only; rw [l2, Nat.mod_mod])
  have w2 : S.vecOf (c.1, (c.2 + 2) % 3) = (S.triAt c.1).edge (c.2 + 2) := Poly.edge_congr _ (by dsimp only; rw [l2, Nat.mod_mod])
  have d : S.vecOf h = (S.triAt c.1).edge (c.2 + 1) + (S.triAt c.1).edge (c.2 + 2) := by
    rw [hglue]
    unfold vecOf Poly.edge
    rw [show c.2 + 2 + 1 = c.2 + 3 from rfl, Poly.vertex_three l2 (show (c.2 + 3) % 3 = c.2 % 3 by omega), show c.2 + 1 + 1 = c.2 + 2 from rfl]
    abel
  have ar := MSurf.area_of_length_three _ l2 c.2
  rw [wordArea_append, wordArea_append, wordArea, wordArea, wordArea, w1, w2, d, ar]
  generalize (S.triAt c.1).edge (c.2 + 1) = a
  generalize (S.triAt c.1).edge (c.2 + 2) = b
  generalize 0 + (List.map S.vecOf pre).sum = v
  rw [add_assoc v a b]
  simp only [ccw, Prod.fst_add, Prod.snd_add]
  ring

end RSurf
end Flat
