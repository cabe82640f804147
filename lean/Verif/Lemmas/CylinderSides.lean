import Verif.Lemmas.CylinderExtent

/-!
# The saddle connections on the two sides of a cylinder
-/

namespace Flat
variable {L K : Type} [Field K] [LinearOrder K] [IsStrictOrderedRing K]

namespace RSurf
open Poly
variable {S : RSurf L K} {valid : L → Prop}

/-- Two crossings at which the side of a strip has vertices, one after the other. -/
structure NextOn (p : ℤ → Poly K) (e : ℤ → ℕ) (G : ℤ → Similarity K) (v : Vec K) (y : K) (i j : ℤ) : Prop where
  lt : i < j
  left : ccw v (gateA p e G i) = y
  right : ccw v (gateA p e G j) = y
  between : ∀ m, i < m → m < j → ccw v (gateA p e G m) < y

/-- The saddle connections on the side of a strip between two crossings. -/
inductive SideOf (S : RSurf L K) (valid : L → Prop) (l : ℤ → L) (p : ℤ → Poly K) (e e' : ℤ → ℕ) (G : ℤ → Similarity K) (v : Vec K) (y : K) :
    ℤ → ℤ → List (Saddle L K) → Prop
  | nil (i : ℤ) : SideOf S valid l p e e' G v y i i []
  | skip {i j k : ℤ} {σs : List (Saddle L K)} (h : NextOn p e G v y i j) (he : gateA p e G i = gateA p e G j)
      (hs : SideOf S valid l p e e' G v y j k σs) : SideOf S valid l p e e' G v y i k σs
  | cons {i j k : ℤ} {σs : List (Saddle L K)} {b : L × ℕ} {w : Vec K} (h : NextOn p e G v y i j) (he : gateA p e G i ≠ gateA p e G j)
      (hsad : S.IsSaddle valid (l (i + 1), (e' i + 1) % (p (i + 1)).length) ((G (i + 1)).inv.derivative.mulVec (gateA p e G j - gateA p e G i)) b w)
      (hs : SideOf S valid l p e e' G v y j k σs) :
      SideOf S valid l p e e' G v y i k (saddleOf (l (i + 1), (e' i + 1) % (p (i + 1)).length)
        ((G (i + 1)).inv.derivative.mulVec (gateA p e G j - gateA p e G i)) b w :: σs)

section
variable {l : ℤ → L} {p : ℤ → Poly K} {e e' : ℤ → ℕ} {g G : ℤ → Similarity K} {v : Vec K} {y : K} {n : ℕ}

theorem SideOf.trans {i j k : ℤ} {σs τs : List (Saddle L K)} (h : SideOf S valid l p e e' G v y i j σs) (h' : SideOf S valid l p e e' G v y j k τs) :
    SideOf S valid l p e e' G v y i k (σs ++ τs) := by
  induction h with
  | nil i => exact h'
  | skip h he hs ih => exact .skip h he (ih h')
  | cons h he hsad hs ih => exact .cons h he hsad (ih h')

/-- One step along the side. -/
theorem side_step [DecidableEq L] (hS : S.Closed valid) (hA : S.AllStrict valid) {kinds : Kinds} (hk : kinds.positive = true → S.PositiveDilation valid)
    (h : S.Strip valid l p e e' g G) (hw : Strip.Wide p e G v y) {i j : ℤ} (hn : NextOn p e G v y i j) (hne : gateA p e G i ≠ gateA p e G j) {limit : ℕ}
    (hl : j - i ≤ limit + 1) :
    ∃ σ, S.saddleConnection kinds (l (i + 1), (e' i + 1) % (p (i + 1)).length) ((G (i + 1)).inv.derivative.mulVec (gateA p e G j - gateA p e G i))
        none none none none true limit = .ok σ ∧ SideOf S valid l p e e' G v y i j [σ] := by
  obtain ⟨m, rfl⟩ : ∃ m : ℕ, j = i + m + 1 := ⟨(j - i - 1).toNat, by have := hn.lt; omega⟩
  obtain ⟨ss, b, k, h1, h2⟩ := h.saddle_via hS hA hw hn.left hn.right (fun r r0 hr => hn.between _ (by omega) (by omega)) hne
  have hsg : (G (i + 1)).inv.sign = 1 := h.sign _
  rw [call_sub hsg] at h2
  refine ⟨_, ?_, .cons hn hne ⟨ss, h2⟩ (.nil _)⟩
  have := C68_constructor hS hk h2 (limit := limit) (by rw [h1]; omega) one_pos true
  rwa [one_smul] at this

theorem inv_deriv_sub {H : Similarity K} (hs : H.sign = 1) (a b : Vec K) : H.inv.call b - H.inv.call a = H.inv.derivative.mulVec (b - a) := by
  have : H.inv.sign = 1 := hs
  rw [call_sub this]

theorem rightSaddle_eq [DecidableEq L] (hS : S.Closed valid) (h : S.Strip valid l p e e' g G) (kinds : Kinds) (w : Vec K) (r : ℕ) (a b : Vec K) (limit : ℕ) :
    S.rightSaddle kinds w (crossAt l e G r) a b limit = S.saddleConnection kinds (l (r + 1), (e' r + 1) % (p (r + 1)).length)
      ((G (r + 1)).inv.derivative.mulVec (b - a)) none none none none true limit := by
  have hB := hS.bordered
  have h1 := planar_opp_of_glue hS (h.valid r) (h.glues r) ((Similarity.ofVec (-w)).mul (G r))
  have e1 : ((Similarity.ofVec (-w)).mul (G r)).mul (g r).inv = (Similarity.ofVec (-w)).mul (G (r + 1)) := by
    rw [h.step, Similarity.C01_mul_assoc _ _ _ (ofVec_wf _) (h.wf r)]
  rw [e1] at h1
  have hwf := Similarity.C01_mul_wf _ _ (ofVec_wf (-w)) (h.wf (r + 1))
  have hsg : ((Similarity.ofVec (-w)).mul (G (r + 1))).sign = 1 := mul_sign rfl (h.sign _)
  have h2 := planar_of_strip hB h (r + 1) hwf hsg
  unfold rightSaddle crossAt
  simp only [h1, h2, bind, Except.bind, List.length_map]
  congr 1
  rw [inv_deriv_sub hsg]
  apply deriv_inj (h.wf (r + 1)) (h.sign _)
  rw [(inv_deriv (h.wf _) (h.sign _) _).2]
  have h3 := (inv_deriv hwf hsg (b - a)).2
  rwa [mul_deriv rfl (h.sign _), ofVec_deriv] at h3

theorem leftSaddle_eq [DecidableEq L] (hB : S.Bordered valid) (h : S.Strip valid l p e e' g G) (kinds : Kinds) (r : ℕ) (a b : Vec K) :
    S.leftSaddle kinds (crossAt l e G r) a b = S.saddleConnection kinds (l r, (e r + 1) % (p r).length)
      ((G r).inv.derivative.mulVec (a - b)) none none none none true 1000 := by
  have h2 := planar_of_strip hB h r (h.wf r) (h.sign r)
  unfold leftSaddle crossAt
  simp only [h2, bind, Except.bind, List.length_map]
  rw [inv_deriv_sub (h.sign r)]

/-- The crossings from `s` on, up to `s + m`, at which the side has vertices. -/
def onSide (f : ℤ → K) (y : K) (s m : ℕ) : List ℕ := (List.range' s m).filter fun r => decide (f r = y)

theorem onSide_succ (f : ℤ → K) (y : K) (s m : ℕ) : onSide f y s (m + 1) = if f s = y then s :: onSide f y (s + 1) m else onSide f y (s + 1) m := by
  unfold onSide
  rw [List.range'_succ, List.filter_cons]
  simp

/-- The loop over the vertices on the right side. -/
theorem rightLoop_spec [DecidableEq L] (hS : S.Closed valid) (hA : S.AllStrict valid) {kinds : Kinds} (hk : kinds.positive = true → S.PositiveDilation valid)
    (h : S.Strip valid l p e e' g G) (hw : Strip.Wide p e G v y) (w : Vec K) (m : ℕ) : ∀ (s i : ℕ) (acc : List (Saddle L K)), i < s → ccw v (gateA p e G i) = y →
      (∀ r : ℕ, i < r → r < s → ccw v (gateA p e G r) < y) →
      ∃ (σs : List (Saddle L K)) (j : ℕ), S.rightLoop kinds w (crossAt l e G i, gateA p e G i)
          ((onSide (fun r => ccw v (gateA p e G r)) y s m).map fun r : ℕ => (crossAt l e G r, gateA p e G r)) acc = .ok (σs.foldl addSaddle acc) ∧
        SideOf S valid l p e e' G v y i j σs ∧ i ≤ j ∧ j < s + m ∧ (i :: onSide (fun r => ccw v (gateA p e G r)) y s m).getLast? = some j ∧
        ccw v (gateA p e G j) = y ∧ ∀ r : ℕ, j < r → r < s + m → ccw v (gateA p e G r) < y := by
  induction m with
  | zero =>
    intro s i acc his hi hb
    exact ⟨[], i, rfl, .nil _, le_rfl, by omega, rfl, hi, by simpa using hb⟩
  | succ m ih =>
    intro s i acc his hi hb
    rw [onSide_succ]
    by_cases hs : ccw v (gateA p e G s) = y
    · rw [if_pos hs]
      have hn : NextOn p e G v y i s := ⟨by omega, hi, hs, fun m h1 h2 => by
        have := hb m.toNat (by omega) (by omega)
        rwa [Int.toNat_of_nonneg (by omega)] at this⟩
      by_cases hne : gateA p e G i = gateA p e G s
      · obtain ⟨σs, j, h1, h2, h3, h4, h5, h6, h7⟩ := ih (s + 1) s acc (by omega) hs (by intro r h1 h2; omega)
        refine ⟨σs, j, ?_, .skip hn hne h2, by omega, by omega, ?_, h6, by intro r h1 h2; exact h7 r h1 (by omega)⟩
        · rw [List.map_cons, rightLoop, if_neg (by simpa using hne)]
          exact h1
        · rw [List.getLast?_cons_cons]; exact h5
      · obtain ⟨σ, k1, k2⟩ := side_step hS hA hk h hw hn hne (limit := s - i) (by omega)
        obtain ⟨σs, j, h1, h2, h3, h4, h5, h6, h7⟩ := ih (s + 1) s (addSaddle acc σ) (by omega) hs (by intro r h1 h2; omega)
        refine ⟨σ :: σs, j, ?_, k2.trans h2, by omega, by omega, ?_, h6, by intro r h1 h2; exact h7 r h1 (by omega)⟩
        · have hr := rightSaddle_eq hS h kinds w i (gateA p e G i) (gateA p e G s) (s - i)
          rw [k1] at hr
          rw [List.map_cons, rightLoop, if_pos (by simpa using hne)]
          simp only [crossAt] at hr h1 ⊢
          simp only [hr, bind, Except.bind, pure, Except.pure]
          exact h1
        · rw [List.getLast?_cons_cons]; exact h5
    · rw [if_neg hs]
      have hlt : ccw v (gateA p e G s) < y := lt_of_le_of_ne (hw s).1 hs
      obtain ⟨σs, j, h1, h2, h3, h4, h5, h6, h7⟩ := ih (s + 1) i acc (by omega) hi (by
        intro r h1 h2
        by_cases h3 : r = s
        · rw [h3]; exact hlt
        · exact hb r h1 (by omega))
      exact ⟨σs, j, h1, h2, h3, by omega, h5, h6, by intro r h1 h2; exact h7 r h1 (by omega)⟩

/-- The first crossing at which the side has a vertex. -/
theorem onSide_first (f : ℤ → K) (y : K) (m : ℕ) : ∀ s, onSide f y s m ≠ [] → ∃ j : ℕ, s ≤ j ∧ j < s + m ∧ f j = y ∧ (∀ r : ℕ, s ≤ r → r < j → f r ≠ y) ∧
    onSide f y s m = j :: onSide f y (j + 1) (s + m - j - 1) := by
  induction m with
  | zero => intro s h; exact absurd rfl h
  | succ m ih =>
    intro s hne
    rw [onSide_succ] at hne ⊢
    by_cases hs : f s = y
    · rw [if_pos hs]
      refine ⟨s, le_rfl, by omega, hs, by intro r h1 h2; omega, ?_⟩
      rw [show s + (m + 1) - s - 1 = m by omega]
    · rw [if_neg hs] at hne ⊢
      obtain ⟨j, h1, h2, h3, h4, h5⟩ := ih (s + 1) hne
      refine ⟨j, by omega, by omega, h3, ?_, ?_⟩
      · intro r k1 k2
        by_cases k3 : r = s
        · rw [k3]; exact hs
        · exact h4 r (by omega) k2
      · rw [h5, show s + 1 + m - j - 1 = s + (m + 1) - j - 1 by omega]

/-- The saddle connections on the right side. -/
theorem rightBoundary_spec [DecidableEq L] (hS : S.Closed valid) (hA : S.AllStrict valid) {kinds : Kinds} (hk : kinds.positive = true → S.PositiveDilation valid)
    (h : S.Loop valid n v l p e e' g G) (hw : Strip.Wide p e G v y) (hlim : n ≤ 1001) (hne : onSide (fun r => ccw v (gateA p e G r)) y 0 n ≠ []) :
    ∃ (σs : List (Saddle L K)) (j : ℕ), S.rightBoundary kinds v ((onSide (fun r => ccw v (gateA p e G r)) y 0 n).map fun r : ℕ => (crossAt l e G r, gateA p e G r)) =
        .ok (σs.foldl addSaddle []) ∧ j < n ∧ SideOf S valid l p e e' G v y (j - n) j σs := by
  obtain ⟨i, -, h2, h3, h4, h5⟩ := onSide_first (fun r => ccw v (gateA p e G r)) y n 0 hne
  have h4' : ∀ r : ℕ, r < i → ccw v (gateA p e G r) < y := fun r hr => lt_of_le_of_ne (hw r).1 (h4 r (by omega) hr)
  rw [h5]
  have hrest : ∀ acc, _ := fun acc => rightLoop_spec hS hA hk h.toStrip hw v (0 + n - i - 1) (i + 1) i acc (by omega) h3 (by intro r k1 k2; omega)
  obtain ⟨σs0, j, -, -, k3, k4, k5, k6, k7⟩ := hrest []
  have hlast : ∀ hne, ((crossAt l e G i, gateA p e G i) :: ((onSide (fun r => ccw v (gateA p e G r)) y (i + 1) (0 + n - i - 1)).map fun r : ℕ =>
      (crossAt l e G r, gateA p e G r))).getLast hne = (crossAt l e G j, gateA p e G j) := by
    intro hne
    have := congrArg (Option.map fun r : ℕ => (crossAt l e G r, gateA p e G r)) k5
    rw [← List.getLast?_map, List.map_cons, List.getLast?_eq_some_getLast hne] at this
    exact Option.some.inj this
  have hn : NextOn p e G v y (j - n) i := by
    refine ⟨by omega, ?_, h3, ?_⟩
    · rw [← h.ccwA_add, sub_add_cancel]; exact k6
    · intro m m1 m2
      by_cases hm : 0 ≤ m
      · have := h4' m.toNat (by omega)
        rwa [Int.toNat_of_nonneg hm] at this
      · have := k7 (m + n).toNat (by omega) (by omega)
        rwa [Int.toNat_of_nonneg (by omega), h.ccwA_add] at this
  have hA1 : gateA p e G (j - n) = gateA p e G j - v := by
    have := h.gateA_add (j - n)
    rw [sub_add_cancel] at this
    rw [this, add_sub_cancel_right]
  rw [List.map_cons]
  unfold rightBoundary
  simp only [hlast]
  by_cases hne2 : gateA p e G j - v = gateA p e G i
  · obtain ⟨σs, j', k1, k2, -, -, k5', -⟩ := hrest []
    rw [k5] at k5'; injection k5' with k5'; subst k5'
    refine ⟨σs, j, ?_, by omega, .skip hn (by rw [hA1]; exact hne2) k2⟩
    rw [if_neg (by simpa using hne2)]
    exact k1
  · obtain ⟨σ, m1, m2⟩ := side_step hS hA hk h.toStrip hw hn (by rw [hA1]; exact hne2) (limit := 1000) (by omega)
    obtain ⟨σs, j', k1, k2, -, -, k5', -⟩ := hrest [σ]
    rw [k5] at k5'; injection k5' with k5'; subst k5'
    refine ⟨σ :: σs, j, ?_, by omega, m2.trans k2⟩
    rw [if_pos (by simpa using hne2)]
    have hr := rightSaddle_eq hS h.toStrip kinds v j (gateA p e G j - v) (gateA p e G i) 1000
    have e1 : l (j - n + 1) = l (j + 1) := by rw [← h.per_l]; ring_nf
    have e2 : p (j - n + 1) = p (j + 1) := by rw [← h.per_p]; ring_nf
    have e3 : e' (j - n) = e' j := by rw [← h.per_e']; ring_nf
    have e4 : (G (j - n + 1)).inv.derivative.mulVec (gateA p e G i - gateA p e G (j - n)) = (G (j + 1)).inv.derivative.mulVec (gateA p e G i - gateA p e G (j - n)) := by
      have := h.dir_add (gateA p e G i - gateA p e G (j - n)) (j - n + 1)
      unfold Strip.dir at this
      rw [← this]
      ring_nf
    rw [e1, e2, e3, e4, hA1] at m1
    rw [m1] at hr
    simp only [hr, bind, Except.bind, pure, Except.pure]
    exact k1

theorem gateA_reverse (h : S.Strip valid l p e e' g G) (i : ℤ) :
    gateA (fun i => p (-i)) (fun i => e' (-i - 1)) (fun i => G (-i)) i = gateB p e G (-i - 1) := by
  have := h.gateB_next (-i - 1)
  rw [sub_add_cancel] at this
  exact this

theorem gateB_reverse (h : S.Strip valid l p e e' g G) (i : ℤ) :
    gateB (fun i => p (-i)) (fun i => e' (-i - 1)) (fun i => G (-i)) i = gateA p e G (-i - 1) := by
  have := h.gateA_next (-i - 1)
  rw [sub_add_cancel] at this
  exact this

omit [LinearOrder K] [IsStrictOrderedRing K] in
theorem ccw_neg_left (a b : Vec K) : ccw (-a) b = -ccw a b := by
  unfold ccw
  simp only [Prod.fst_neg, Prod.snd_neg]
  ring

/-- The line runs between the ends of all the edges; it may run through their ends. -/
def WideTop (p : ℤ → Poly K) (e : ℤ → ℕ) (G : ℤ → Similarity K) (v : Vec K) (y : K) : Prop :=
  ∀ i, ccw v (gateA p e G i) < y ∧ y ≤ ccw v (gateB p e G i)

theorem wide_reverse (h : S.Strip valid l p e e' g G) (hw : WideTop p e G v y) :
    Strip.Wide (fun i => p (-i)) (fun i => e' (-i - 1)) (fun i => G (-i)) (-v) (-y) := by
  intro i
  rw [gateA_reverse h, gateB_reverse h, ccw_neg_left, ccw_neg_left]
  obtain ⟨h1, h2⟩ := hw (-i - 1)
  exact ⟨neg_le_neg h2, neg_lt_neg h1⟩

/-- The saddle connections on the left side of a strip: those on the right side of the strip in the other direction. -/
def LeftOf (S : RSurf L K) (valid : L → Prop) (l : ℤ → L) (p : ℤ → Poly K) (e e' : ℤ → ℕ) (G : ℤ → Similarity K) (v : Vec K) (y : K) (j i : ℤ)
    (σs : List (Saddle L K)) : Prop :=
  SideOf S valid (fun i => l (-i)) (fun i => p (-i)) (fun i => e' (-i - 1)) (fun i => e (-i - 1)) (fun i => G (-i)) (-v) (-y) (-j - 1) (-i - 1) σs

theorem next_reverse (h : S.Strip valid l p e e' g G) {i j : ℤ} (hij : i < j) (hi : ccw v (gateB p e G i) = y) (hj : ccw v (gateB p e G j) = y)
    (hm : ∀ m, i < m → m < j → y < ccw v (gateB p e G m)) :
    NextOn (fun i => p (-i)) (fun i => e' (-i - 1)) (fun i => G (-i)) (-v) (-y) (-j - 1) (-i - 1) := by
  refine ⟨by omega, ?_, ?_, fun m h1 h2 => ?_⟩
  · rw [gateA_reverse h, ccw_neg_left, show -(-j - 1) - 1 = j by ring, hj]
  · rw [gateA_reverse h, ccw_neg_left, show -(-i - 1) - 1 = i by ring, hi]
  · rw [gateA_reverse h, ccw_neg_left]
    exact neg_lt_neg (hm _ (by omega) (by omega))

theorem left_step [DecidableEq L] (hS : S.Closed valid) (hA : S.AllStrict valid) {kinds : Kinds} (hk : kinds.positive = true → S.PositiveDilation valid)
    (h : S.Strip valid l p e e' g G) (hw : WideTop p e G v y) {i j : ℤ} (hij : i < j) (hi : ccw v (gateB p e G i) = y) (hj : ccw v (gateB p e G j) = y)
    (hm : ∀ m, i < m → m < j → y < ccw v (gateB p e G m)) (hl : j - i ≤ 1001) :
    (gateB p e G i = gateB p e G j → LeftOf S valid l p e e' G v y j i []) ∧ (gateB p e G i ≠ gateB p e G j →
    ∃ σ, S.saddleConnection kinds (l j, (e j + 1) % (p j).length) ((G j).inv.derivative.mulVec (gateB p e G i - gateB p e G j))
        none none none none true 1000 = .ok σ ∧ LeftOf S valid l p e e' G v y j i [σ]) := by
  have hn := next_reverse h hij hi hj hm
  have e0 : -(-j - 1) - 1 = j := by ring
  have e1 : -(-i - 1) - 1 = i := by ring
  have e2 : -(-j - 1 + 1) = j := by ring
  constructor
  · intro he
    exact .skip hn (by rw [gateA_reverse h, gateA_reverse h, e0, e1, he]) (.nil _)
  · intro hne
    obtain ⟨σ, h1, h2⟩ := side_step hS hA hk (h.reverse hS.bordered) (wide_reverse h hw) hn (by rw [gateA_reverse h, gateA_reverse h, e0, e1]; exact hne.symm)
      (limit := 1000) (by push_cast; omega)
    refine ⟨σ, ?_, h2⟩
    rw [gateA_reverse h, gateA_reverse h, e0, e1] at h1
    simp only [e0, e2] at h1
    exact h1

/-- The loop over the vertices on the left side. -/
theorem leftLoop_spec [DecidableEq L] (hS : S.Closed valid) (hA : S.AllStrict valid) {kinds : Kinds} (hk : kinds.positive = true → S.PositiveDilation valid)
    (h : S.Strip valid l p e e' g G) (hw : WideTop p e G v y) (m : ℕ) : ∀ (s i : ℕ) (acc : List (Saddle L K)), s + m ≤ 1001 → i < s → ccw v (gateB p e G i) = y →
      (∀ r : ℕ, i < r → r < s → y < ccw v (gateB p e G r)) →
      ∃ (σs : List (Saddle L K)) (j : ℕ), S.leftLoop kinds (gateB p e G i)
          ((onSide (fun r => ccw v (gateB p e G r)) y s m).map fun r : ℕ => (crossAt l e G r, gateB p e G r)) acc = .ok (σs.foldl addSaddle acc) ∧
        LeftOf S valid l p e e' G v y j i σs.reverse ∧ i ≤ j ∧ j < s + m ∧ (i :: onSide (fun r => ccw v (gateB p e G r)) y s m).getLast? = some j ∧
        ccw v (gateB p e G j) = y ∧ ∀ r : ℕ, j < r → r < s + m → y < ccw v (gateB p e G r) := by
  induction m with
  | zero =>
    intro s i acc hsm his hi hb
    exact ⟨[], i, rfl, .nil _, le_rfl, by omega, rfl, hi, by simpa using hb⟩
  | succ m ih =>
    intro s i acc hsm his hi hb
    rw [onSide_succ]
    by_cases hs : ccw v (gateB p e G s) = y
    · rw [if_pos hs]
      obtain ⟨g1, g2⟩ := left_step hS hA hk h hw (i := i) (j := s) (by omega) hi hs (fun m h1 h2 => by
        have := hb m.toNat (by omega) (by omega)
        rwa [Int.toNat_of_nonneg (by omega)] at this) (by omega)
      by_cases hne : gateB p e G i = gateB p e G s
      · obtain ⟨σs, j, h1, h2, h3, h4, h5, h6, h7⟩ := ih (s + 1) s acc (by omega) (by omega) hs (by intro r h1 h2; omega)
        have k2 := SideOf.trans h2 (g1 hne)
        rw [List.append_nil] at k2
        refine ⟨σs, j, ?_, k2, by omega, by omega, ?_, h6, by intro r h1 h2; exact h7 r h1 (by omega)⟩
        · rw [List.map_cons, leftLoop, if_neg (by simpa using hne)]
          exact h1
        · rw [List.getLast?_cons_cons]; exact h5
      · obtain ⟨σ, k1, k2⟩ := g2 hne
        obtain ⟨σs, j, h1, h2, h3, h4, h5, h6, h7⟩ := ih (s + 1) s (addSaddle acc σ) (by omega) (by omega) hs (by intro r h1 h2; omega)
        refine ⟨σ :: σs, j, ?_, ?_, by omega, by omega, ?_, h6, by intro r h1 h2; exact h7 r h1 (by omega)⟩
        · have hr := leftSaddle_eq hS.bordered h kinds s (gateB p e G i) (gateB p e G s)
          rw [k1] at hr
          rw [List.map_cons, leftLoop, if_pos (by simpa using hne)]
          simp only [hr, bind, Except.bind, pure, Except.pure]
          exact h1
        · rw [List.reverse_cons]
          exact SideOf.trans h2 k2
        · rw [List.getLast?_cons_cons]; exact h5
    · rw [if_neg hs]
      have hlt : y < ccw v (gateB p e G s) := lt_of_le_of_ne (hw s).2 (Ne.symm hs)
      obtain ⟨σs, j, h1, h2, h3, h4, h5, h6, h7⟩ := ih (s + 1) i acc (by omega) (by omega) hi (by
        intro r h1 h2
        by_cases h3 : r = s
        · rw [h3]; exact hlt
        · exact hb r h1 (by omega))
      exact ⟨σs, j, h1, h2, h3, by omega, h5, h6, by intro r h1 h2; exact h7 r h1 (by omega)⟩

/-- The saddle connections on the left side. -/
theorem leftBoundary_spec [DecidableEq L] (hS : S.Closed valid) (hA : S.AllStrict valid) {kinds : Kinds} (hk : kinds.positive = true → S.PositiveDilation valid)
    (h : S.Loop valid n v l p e e' g G) (hw : WideTop p e G v y) (hlim : n ≤ 1001) (hne : onSide (fun r => ccw v (gateB p e G r)) y 0 n ≠ []) :
    ∃ (σs : List (Saddle L K)) (j : ℕ), S.leftBoundary kinds v ((onSide (fun r => ccw v (gateB p e G r)) y 0 n).map fun r : ℕ => (crossAt l e G r, gateB p e G r)) =
        .ok (σs.foldl addSaddle []) ∧ j < n ∧ LeftOf S valid l p e e' G v y j (j - n) σs.reverse := by
  obtain ⟨i, -, h2, h3, h4, h5⟩ := onSide_first (fun r => ccw v (gateB p e G r)) y n 0 hne
  have h4' : ∀ r : ℕ, r < i → y < ccw v (gateB p e G r) := fun r hr => lt_of_le_of_ne (hw r).2 (Ne.symm (h4 r (by omega) hr))
  rw [h5]
  have hrest : ∀ acc, _ := fun acc => leftLoop_spec hS hA hk h.toStrip hw (0 + n - i - 1) (i + 1) i acc (by omega) (by omega) h3 (by intro r k1 k2; omega)
  obtain ⟨σs0, j, -, -, k3, k4, k5, k6, k7⟩ := hrest []
  have hlast : ∀ hne, ((crossAt l e G i, gateB p e G i) :: ((onSide (fun r => ccw v (gateB p e G r)) y (i + 1) (0 + n - i - 1)).map fun r : ℕ =>
      (crossAt l e G r, gateB p e G r))).getLast hne = (crossAt l e G j, gateB p e G j) := by
    intro hne
    have := congrArg (Option.map fun r : ℕ => (crossAt l e G r, gateB p e G r)) k5
    rw [← List.getLast?_map, List.map_cons, List.getLast?_eq_some_getLast hne] at this
    exact Option.some.inj this
  have hA1 : gateB p e G (j - n) = gateB p e G j - v := by
    have := h.gateB_add (j - n)
    rw [sub_add_cancel] at this
    rw [this, add_sub_cancel_right]
  obtain ⟨g1, g2⟩ := left_step hS hA hk h.toStrip hw (i := j - n) (j := i) (by omega) (by rw [← h.ccwB_add, sub_add_cancel]; exact k6) h3 (by
      intro m m1 m2
      by_cases hm : 0 ≤ m
      · have := h4' m.toNat (by omega)
        rwa [Int.toNat_of_nonneg hm] at this
      · have := k7 (m + n).toNat (by omega) (by omega)
        rwa [Int.toNat_of_nonneg (by omega), h.ccwB_add] at this) (by omega)
  rw [hA1] at g1 g2
  rw [List.map_cons]
  unfold leftBoundary
  simp only [hlast]
  by_cases hne2 : gateB p e G j - v = gateB p e G i
  · obtain ⟨σs, j', k1, k2, -, -, k5', -⟩ := hrest []
    rw [k5] at k5'; injection k5' with k5'; subst k5'
    have k3 := SideOf.trans k2 (g1 hne2)
    rw [List.append_nil] at k3
    refine ⟨σs, j, ?_, by omega, k3⟩
    rw [if_neg (by simpa using hne2)]
    exact k1
  · obtain ⟨σ, m1, m2⟩ := g2 hne2
    obtain ⟨σs, j', k1, k2, -, -, k5', -⟩ := hrest [σ]
    rw [k5] at k5'; injection k5' with k5'; subst k5'
    refine ⟨σ :: σs, j, ?_, by omega, ?_⟩
    · rw [if_pos (by simpa using hne2)]
      have hr := leftSaddle_eq hS.bordered h.toStrip kinds i (gateB p e G j - v) (gateB p e G i)
      rw [m1] at hr
      simp only [hr, bind, Except.bind, pure, Except.pure]
      exact k1
    · rw [List.reverse_cons]
      exact SideOf.trans k2 m2

end

end RSurf
end Flat
