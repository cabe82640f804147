import Verif.Lemmas.CylinderMain

/-!
# The sides of cylinders on translation surfaces
-/

namespace Flat
variable {L K : Type} [Field K] [LinearOrder K] [IsStrictOrderedRing K]

namespace RSurf
open Poly
variable {S : RSurf L K} {valid : L → Prop} {l : ℤ → L} {p : ℤ → Poly K} {e e' : ℤ → ℕ} {g G : ℤ → Similarity K} {v : Vec K} {y : K} {n : ℕ}

theorem gluesTo_translation (hS : S.Closed valid) (ht : S.Translation valid) {l l' : L} {e e' : ℕ} {g : Similarity K} (hl : valid l) (h : S.GluesTo l e l' e' g) (w : Vec K) :
    g.derivative.mulVec w = w := by
  have hB := hS.bordered
  have hpd : S.PositiveDilation valid := fun l e l' e' p p' x1 x2 x3 x4 x5 => ⟨1, one_pos, by rw [one_smul]; exact ht l e l' e' p p' x1 x2 x3 x4 x5⟩
  obtain ⟨d, d0, hd⟩ := gluesTo_positive hB hpd hl h
  obtain ⟨p, p', hp, hp', he, g1, g2⟩ := h.ends
  have e1 := derivative_edge h.sign g1 g2
  rw [hd, ht _ _ _ _ _ _ hl hp he h.opp hp', neg_neg] at e1
  have hne := (hB.valid_of_polygon hl hp).edge_ne e
  have e2 : (d - 1) • p.edge e = 0 := by rw [sub_smul, e1, one_smul, sub_self]
  have d1 : d = 1 := sub_eq_zero.1 ((smul_eq_zero.1 e2).resolve_right hne)
  rw [hd, d1, one_smul]

theorem strip_dir (hS : S.Closed valid) (ht : S.Translation valid) (h : S.Strip valid l p e e' g G) (h0 : G 0 = .one) (w : Vec K) (i : ℤ) : Strip.dir G w i = w := by
  have step : ∀ i, Strip.dir G w (i + 1) = Strip.dir G w i := by
    intro i
    rw [← h.dir_next, gluesTo_translation hS ht (h.valid i) (h.glues i)]
  induction i using Int.induction_on with
  | zero =>
    unfold Strip.dir
    rw [h0]
    simp [Similarity.one, Similarity.inv, Similarity.derivative, Mat2.mulVec, Similarity.det]
  | succ i ih => rw [step, ih]
  | pred i ih =>
    have := step (-(i : ℤ) - 1)
    rw [sub_add_cancel, ih] at this
    exact this.symm

theorem strip_scale (h : S.Strip valid l p e e' g G) (hd : ∀ w i, Strip.dir G w i = w) (i : ℤ) : (G i).a * (G i).a + (G i).b * (G i).b = 1 := by
  have h1 := h.ccw_dir (1, 0) (0, 1) 0 i
  rw [hd, sub_zero] at h1
  have h2 : ccw (1, 0) ((G i).call (0, 1)) - ccw (1, 0) ((G i).call 0) = (1 : K) := by
    have h3 : ccw ((1, 0) : Vec K) ((G i).call (0, 1)) - ccw (1, 0) ((G i).call 0) = ccw (1, 0) ((G i).call (0, 1) - (G i).call 0) := by
      unfold ccw; simp only [Prod.fst_sub, Prod.snd_sub]; ring
    rw [h3, call_sub (h.sign i), sub_zero]
    have h4 := (inv_deriv (h.wf i) (h.sign i) ((0, 1) : Vec K)).2
    have h5 : (G i).inv.derivative.mulVec (0, 1) = (0, 1) := hd (0, 1) i
    rw [h5] at h4
    rw [h4]
    simp [ccw]
  rw [h2] at h1
  simpa [ccw] using h1

/-- Crossings of the same edge at the same distance from its end. -/
theorem same_start (hS : S.Closed valid) (h : S.Strip valid l p e e' g G) (hd : ∀ w i, Strip.dir G w i = w) {i j : ℤ} (hl : l i = l j) (he : e i = e j)
    (hy : ccw v (gateA p e G i) = ccw v (gateA p e G j) ∨ ccw v (gateB p e G i) = ccw v (gateB p e G j)) :
    (Strip.seg l p e G v y i).start.label = (Strip.seg l p e G v y j).start.label ∧ (Strip.seg l p e G v y i).start.point = (Strip.seg l p e G v y j).start.point := by
  have hp : p i = p j := by
    have h1 := h.polygon i
    rw [hl, h.polygon j] at h1
    injection h1 with h1
    exact h1.symm
  have hg := h.glues i
  rw [hl, he] at hg
  obtain ⟨g1, g2, g3⟩ := glueTo_ext hS.bordered (h.valid j) (h.glues j) hg
  have hgap : ∀ i, ccw v (gateB p e G i) - ccw v (gateA p e G i) = ccw v ((p i).edge (e i)) := by
    intro i
    have h1 := h.ccw_dir v ((p i).vertex (e i + 1)) ((p i).vertex (e i)) i
    rw [hd, strip_scale h hd, one_mul] at h1
    exact h1.symm
  have hgapij := hgap i
  rw [hp, he, ← hgap j] at hgapij
  have hA : ccw v (gateA p e G i) = ccw v (gateA p e G j) := by
    rcases hy with hy | hy
    · exact hy
    · rw [hy] at hgapij
      exact sub_right_inj.1 hgapij
  have hr : Strip.ratio p e G v y i = Strip.ratio p e G v y j := by
    unfold Strip.ratio
    rw [hgapij, hA]
  unfold Strip.seg
  dsimp only
  refine ⟨g1, ?_⟩
  rw [← h.inv_next, ← h.inv_next, h.hit_before, h.hit_before, hr, hp, he, g3]

theorem SideOf.le {i k : ℤ} {σs : List (Saddle L K)} (h : SideOf S valid l p e e' G v y i k σs) : i ≤ k := by
  induction h with
  | nil i => exact le_rfl
  | skip h he hs ih => exact h.lt.le.trans ih
  | cons h he hsad hs ih => exact h.lt.le.trans ih

theorem SideOf.mem {i k : ℤ} {σs : List (Saddle L K)} (h : SideOf S valid l p e e' G v y i k σs) :
    ∀ σ ∈ σs, ∃ m m', i ≤ m ∧ m < k ∧ NextOn p e G v y m m' ∧ gateA p e G m ≠ gateA p e G m' ∧
      ∃ b w, S.IsSaddle valid (l (m + 1), (e' m + 1) % (p (m + 1)).length) ((G (m + 1)).inv.derivative.mulVec (gateA p e G m' - gateA p e G m)) b w ∧
      σ = saddleOf (l (m + 1), (e' m + 1) % (p (m + 1)).length) ((G (m + 1)).inv.derivative.mulVec (gateA p e G m' - gateA p e G m)) b w := by
  induction h with
  | nil i => intro σ hσ; cases hσ
  | skip h he hs ih =>
    intro σ hσ
    obtain ⟨m, m', h1, h2, h3⟩ := ih σ hσ
    exact ⟨m, m', h.lt.le.trans h1, h2, h3⟩
  | @cons i j k σs b w h he hsad hs ih =>
    intro σ hσ
    rcases List.mem_cons.1 hσ with rfl | hσ
    · exact ⟨i, j, le_rfl, h.lt.trans_le hs.le, h, he, b, w, hsad, rfl⟩
    · obtain ⟨m, m', h1, h2, h3⟩ := ih σ hσ
      exact ⟨m, m', h.lt.le.trans h1, h2, h3⟩

theorem SideOf.starts {i k : ℤ} {σs : List (Saddle L K)} (h : SideOf S valid l p e e' G v y i k σs)
    (hne : ∀ m m', i ≤ m → m < m' → m' < k → ccw v (gateA p e G m) = y → ccw v (gateA p e G m') = y →
      (l (m + 1), (e' m + 1) % (p (m + 1)).length) ≠ (l (m' + 1), (e' m' + 1) % (p (m' + 1)).length)) :
    σs.Pairwise fun a b => a.start ≠ b.start := by
  induction h with
  | nil i => exact .nil
  | skip h he hs ih => exact ih fun m m' h1 => hne m m' (h.lt.le.trans h1)
  | @cons i j k σs b w h he hsad hs ih =>
    refine .cons (fun σ hσ => ?_) (ih fun m m' h1 => hne m m' (h.lt.le.trans h1))
    obtain ⟨m, m', h1, h2, h3, -, b', w', -, rfl⟩ := hs.mem σ hσ
    exact hne i m le_rfl (h.lt.trans_le h1) h2 h.left h3.left

theorem SideOf.sum (hd : ∀ w i, Strip.dir G w i = w) {i k : ℤ} {σs : List (Saddle L K)} (h : SideOf S valid l p e e' G v y i k σs) :
    (σs.map Saddle.holonomy).sum = gateA p e G k - gateA p e G i := by
  induction h with
  | nil i => simp
  | skip h he hs ih => rw [ih, he]
  | @cons i j k σs b w h he hsad hs ih =>
    rw [List.map_cons, List.sum_cons, ih]
    have e1 : (G (i + 1)).inv.derivative.mulVec (gateA p e G j - gateA p e G i) = gateA p e G j - gateA p e G i := hd _ _
    unfold saddleOf
    dsimp only
    rw [e1]
    abel

theorem addSaddle_all [DecidableEq L] (σs : List (Saddle L K)) : ∀ acc : List (Saddle L K), (acc ++ σs).Pairwise (fun a b => a.start ≠ b.start) →
    σs.foldl addSaddle acc = acc ++ σs := by
  induction σs with
  | nil => intro acc _; simp
  | cons σ σs ih =>
    intro acc h
    have h1 : addSaddle acc σ = acc ++ [σ] := by
      unfold addSaddle
      rw [if_neg]
      intro hany
      obtain ⟨d, hd, hd'⟩ := List.any_eq_true.1 hany
      rw [decide_eq_true_eq] at hd'
      exact (List.pairwise_append.1 h).2.2 d hd σ (by simp) hd'.2
    rw [List.foldl_cons, h1, ih _ (by simpa using h)]
    simp

theorem addSaddle_subset [DecidableEq L] (σs : List (Saddle L K)) : ∀ acc : List (Saddle L K), ∀ σ ∈ σs.foldl addSaddle acc, σ ∈ acc ∨ σ ∈ σs := by
  induction σs with
  | nil => intro acc σ h; exact .inl h
  | cons a σs ih =>
    intro acc σ h
    rcases ih _ σ h with h | h
    · unfold addSaddle at h
      split_ifs at h with hc
      · exact .inl h
      · rcases List.mem_append.1 h with h | h
        · exact .inl h
        · rw [List.mem_singleton] at h; subst h; exact .inr (by simp)
    · exact .inr (List.mem_cons_of_mem _ h)

theorem seg_pos (h : S.Loop valid n v l p e e' g G) (hn : 0 < n) (y : K) (i : ℤ) : Strip.seg l p e G v y i = Strip.seg l p e G v y ((pos n (i + 1) : ℕ) - 1) := by
  refine Loop.all_of_range hn (Q := fun i => Strip.seg l p e G v y i = Strip.seg l p e G v y ((pos n (i + 1) : ℕ) - 1)) (fun i => ?_) (fun r hr => ?_) i
  · rw [h.seg_add, show i + (n : ℤ) + 1 = i + 1 + n by ring, pos_add]
  · by_cases h1 : r + 1 < n
    · have := pos_of_lt h1
      push_cast at this
      rw [this]
      push_cast
      rw [add_sub_cancel_right]
    · have h2 : ((r : ℤ) + 1) = 0 + n := by omega
      rw [h2, pos_add]
      have h3 : pos n 0 = 0 := pos_of_lt hn
      rw [h3]
      have h4 := h.seg_add y (-1)
      rw [show (-1 : ℤ) + n = r by omega] at h4
      rw [h4]
      rfl

theorem pos_ne {i j : ℤ} (hij : i < j) (hj : j < i + n) : pos n i ≠ pos n j := by
  intro h
  have hn : (0 : ℤ) < n := by omega
  have h1 := Int.emod_nonneg i hn.ne'
  have h2 := Int.emod_nonneg j hn.ne'
  have h3 : i % n = j % n := by unfold pos at h; omega
  have h5 : (n : ℤ) ∣ j - i := Int.dvd_of_emod_eq_zero (Int.emod_eq_emod_iff_emod_sub_eq_zero.1 h3.symm)
  obtain ⟨c, hc⟩ := h5
  have hc0 : 0 < c := by
    by_contra hcn
    have : (n : ℤ) * c ≤ 0 := mul_nonpos_of_nonneg_of_nonpos hn.le (by omega)
    omega
  have : (n : ℤ) ≤ n * c := by nlinarith
  omega

/-- Segments that start at different points come from different crossings. -/
theorem sides_distinct (hS : S.Closed valid) (h : S.Loop valid n v l p e e' g G) (hn : 0 < n) (hd : ∀ w i, Strip.dir G w i = w)
    (hdist : ∀ r r' : ℕ, r < n → r' < n → r ≠ r' → ((Strip.seg l p e G v y (r - 1)).start.label, (Strip.seg l p e G v y (r - 1)).start.point) ≠
      ((Strip.seg l p e G v y (r' - 1)).start.label, (Strip.seg l p e G v y (r' - 1)).start.point)) {i j : ℤ} (hij : i < j) (hj : j < i + n) (hl : l i = l j) (he : e i = e j)
    (hy : ccw v (gateA p e G i) = ccw v (gateA p e G j) ∨ ccw v (gateB p e G i) = ccw v (gateB p e G j)) : False := by
  obtain ⟨h1, h2⟩ := same_start (y := y) hS h.toStrip hd hl he hy
  rw [seg_pos h hn y i, seg_pos h hn y j] at h1 h2
  exact hdist _ _ (pos_lt hn _) (pos_lt hn _) (pos_ne (by omega) (by omega)) (Prod.ext h1 h2)

theorem mod_inj {a b m : ℕ} (ha : a < m) (hb : b < m) (h : (a + 1) % m = (b + 1) % m) : a = b := by
  rcases Nat.lt_or_ge (a + 1) m with h1 | h1 <;> rcases Nat.lt_or_ge (b + 1) m with h2 | h2
  · rw [Nat.mod_eq_of_lt h1, Nat.mod_eq_of_lt h2] at h; omega
  · rw [Nat.mod_eq_of_lt h1, show b + 1 = m by omega, Nat.mod_self] at h; omega
  · rw [Nat.mod_eq_of_lt h2, show a + 1 = m by omega, Nat.mod_self] at h; omega
  · omega

/-- The holonomy of the sides of a cylinder. -/
theorem sides_holonomy [DecidableEq L] (hS : S.Closed valid) (h : S.Loop valid n v l p e e' g G) (hn : 0 < n) (hd : ∀ w i, Strip.dir G w i = w)
    (hdist : ∀ r r' : ℕ, r < n → r' < n → r ≠ r' → ((Strip.seg l p e G v y (r - 1)).start.label, (Strip.seg l p e G v y (r - 1)).start.point) ≠
      ((Strip.seg l p e G v y (r' - 1)).start.label, (Strip.seg l p e G v y (r' - 1)).start.point))
    {lo hi : K} {j k : ℕ} {σs τs : List (Saddle L K)} (h1 : SideOf S valid l p e e' G v lo (j - n) j σs) (h2 : LeftOf S valid l p e e' G v hi k (k - n) τs.reverse) :
    ((σs.foldl addSaddle []).map Saddle.holonomy).sum = v ∧ ((τs.foldl addSaddle []).map Saddle.holonomy).sum = -v := by
  have hB := hS.bordered
  constructor
  · rw [addSaddle_all σs [] (by
      rw [List.nil_append]
      refine h1.starts fun m m' a1 a2 a3 a4 a5 a6 => ?_
      obtain ⟨b1, b2⟩ := Prod.mk.inj a6
      have hp : p (m + 1) = p (m' + 1) := by
        have c1 := h.polygon (m + 1)
        rw [b1, h.polygon (m' + 1)] at c1
        injection c1 with c1
        exact c1.symm
      rw [hp] at b2
      have b3 : e' m = e' m' := mod_inj (hp ▸ h.lt' m) (h.lt' m') b2
      have g1 := (gluesTo_symm hB (h.valid m) (h.glues m)).1
      have g2 := (gluesTo_symm hB (h.valid m') (h.glues m')).1
      rw [b1, b3] at g1
      obtain ⟨c1, c2, -⟩ := glueTo_ext hB (h.valid _) g2 g1
      exact sides_distinct hS h hn hd hdist a2 (by omega) c1 c2 (.inl (a4.trans a5.symm))), List.nil_append, h1.sum hd]
    have := h.gateA_add ((j : ℤ) - n)
    rw [sub_add_cancel] at this
    rw [this]
    abel
  · have hrev : τs.reverse.Pairwise fun a b => a.start ≠ b.start := by
      refine SideOf.starts h2 fun m m' a1 a2 a3 a4 a5 a6 => ?_
      obtain ⟨b1, b2⟩ := Prod.mk.inj a6
      rw [gateA_reverse h.toStrip, ccw_neg_left] at a4 a5
      have e1 : ∀ m : ℤ, -(m + 1) = -m - 1 := fun m => by ring
      rw [e1, e1] at b1 b2
      have hp : p (-m - 1) = p (-m' - 1) := by
        have c1 := h.polygon (-m - 1)
        rw [b1, h.polygon (-m' - 1)] at c1
        injection c1 with c1
        exact c1.symm
      rw [hp] at b2
      have b3 : e (-m - 1) = e (-m' - 1) := mod_inj (hp ▸ h.lt _) (h.lt _) b2
      exact sides_distinct hS h hn hd hdist (i := -m' - 1) (j := -m - 1) (by omega) (by omega) b1.symm b3.symm (.inr (neg_injective (a5.trans a4.symm)))
    rw [List.pairwise_reverse] at hrev
    rw [addSaddle_all τs [] (by rw [List.nil_append]; exact hrev.imp fun h => h.symm), List.nil_append]
    have hd' : ∀ w i, Strip.dir (fun i => G (-i)) w i = w := fun w i => hd w (-i)
    have := SideOf.sum hd' h2
    rw [List.map_reverse, List.sum_reverse, gateA_reverse h.toStrip, gateA_reverse h.toStrip] at this
    rw [this, show -(-((k : ℤ) - n) - 1) - 1 = k - n by ring, show -(-(k : ℤ) - 1) - 1 = k by ring]
    have h3 := h.gateB_add ((k : ℤ) - n)
    rw [sub_add_cancel] at h3
    rw [h3]
    abel

end RSurf
end Flat
