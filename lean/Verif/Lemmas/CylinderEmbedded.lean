import Verif.Lemmas.CylinderHolonomy

/-!
# Lines of a cylinder that meet
-/

namespace Flat
variable {L K : Type} [Field K] [LinearOrder K] [IsStrictOrderedRing K]

namespace RSurf
open Poly
variable {S : RSurf L K} {valid : L → Prop} {l : ℤ → L} {p : ℤ → Poly K} {e e' : ℤ → ℕ} {g G : ℤ → Similarity K} {v : Vec K} {y y' : K} {n : ℕ}

theorem seg_ext_start (hB : S.Bordered valid) (h : S.Strip valid l p e e' g G) (hy : Loop.Open p e G v y) (hy' : Loop.Open p e G v y') {i j : ℤ}
    (hs : (Strip.seg l p e G v y i).start = (Strip.seg l p e G v y' j).start) : Strip.seg l p e G v y i = Strip.seg l p e G v y' j := by
  obtain ⟨τ, h1, -⟩ := h.seg_chord hB hy.wide (i := i) (.inl (hy i).1)
  obtain ⟨τ', h2, -⟩ := h.seg_chord hB hy'.wide (i := j) (.inl (hy' j).1)
  have f1 := forward_chord' hB h1
  have f2 := forward_chord' hB h2
  rw [hs, f2] at f1
  injection f1 with f1
  generalize Strip.seg l p e G v y i = a at *
  generalize Strip.seg l p e G v y' j = b at *
  obtain ⟨a1, a2⟩ := a
  obtain ⟨b1, b2⟩ := b
  dsimp only at hs f1
  rw [hs, f1]

/-- Lines that have one segment in common have all further segments in common. -/
theorem seg_coincide (hS : S.Closed valid) (h : S.Strip valid l p e e' g G) (hy : Loop.Open p e G v y) (hy' : Loop.Open p e G v y') {i j : ℤ}
    (hs : Strip.seg l p e G v y i = Strip.seg l p e G v y' j) (k : ℕ) : Strip.seg l p e G v y (i + k) = Strip.seg l p e G v y' (j + k) := by
  induction k with
  | zero => simpa using hs
  | succ k ih =>
    push_cast
    rw [← add_assoc, ← add_assoc]
    obtain ⟨-, f1⟩ := h.seg_follows hS hy.wide (hy (i + k + 1)).1
    obtain ⟨-, f2⟩ := h.seg_follows hS hy'.wide (hy' (j + k + 1)).1
    rw [ih, f2] at f1
    injection f1 with f1
    exact seg_ext_start hS.bordered h hy hy' f1.symm

/-- What lines with a common segment have in common. -/
theorem seg_eq_data (hS : S.Closed valid) (h : S.Strip valid l p e e' g G) (hd : ∀ w i, Strip.dir G w i = w) (hy : Loop.Open p e G v y) (hy' : Loop.Open p e G v y') {i j : ℤ}
    (hs : Strip.seg l p e G v y i = Strip.seg l p e G v y' j) :
    l i = l j ∧ e i = e j ∧ y - ccw v (gateA p e G i) = y' - ccw v (gateA p e G j) := by
  have hB := hS.bordered
  have p1 := h.seg_start hB hy.wide (hy i).1
  have p2 := h.seg_start hB hy'.wide (hy' j).1
  rw [hs, p2] at p1
  injection p1 with p1
  have q1 : l (i + 1) = l (j + 1) := congrArg (fun s : Seg L K => s.start.label) hs
  have hp : p (i + 1) = p (j + 1) := by
    have c1 := h.polygon (i + 1)
    rw [q1, h.polygon (j + 1)] at c1
    injection c1 with c1
    exact c1.symm
  have g1 := (gluesTo_symm hB (h.valid i) (h.glues i)).1
  have g2 := (gluesTo_symm hB (h.valid j) (h.glues j)).1
  rw [q1, ← p1] at g1
  obtain ⟨c1, c2, -⟩ := glueTo_ext hB (h.valid _) g2 g1
  refine ⟨c1, c2, ?_⟩
  have hpt : (G (i + 1)).inv.call (Strip.hit p e G v y i) = (G (j + 1)).inv.call (Strip.hit p e G v y' j) := congrArg (fun s : Seg L K => s.start.point) hs
  rw [h.hit_after, h.hit_after, hp, ← p1] at hpt
  have hne := (h.valid_poly hB (j + 1)).edge_ne (e' j)
  have hr : Strip.ratio p e G v y i = Strip.ratio p e G v y' j := by
    have h1 : (Strip.ratio p e G v y' j - Strip.ratio p e G v y i) • (p (j + 1)).edge (e' j) = 0 := by
      have := sub_eq_zero.2 hpt
      rw [← this]
      module
    exact (sub_eq_zero.1 ((smul_eq_zero.1 h1).resolve_right hne)).symm
  have hgap : ∀ i, ccw v (gateB p e G i) - ccw v (gateA p e G i) = ccw v ((p i).edge (e i)) := by
    intro i
    have h1 := h.ccw_dir v ((p i).vertex (e i + 1)) ((p i).vertex (e i)) i
    rw [hd, strip_scale h hd, one_mul] at h1
    exact h1.symm
  have hpij : p i = p j := by
    have h1 := h.polygon i
    rw [c1, h.polygon j] at h1
    injection h1 with h1
    exact h1.symm
  have hgapij := hgap i
  rw [hpij, c2, ← hgap j] at hgapij
  have hne2 : ccw v (gateB p e G j) - ccw v (gateA p e G j) ≠ 0 := by
    have := hy j
    intro h0
    linarith [this.1, this.2]
  unfold Strip.ratio at hr
  rw [hgapij, div_left_inj' hne2] at hr
  exact hr

/-- Lines that meet inside of a polygon have a segment in common. -/
theorem seg_of_meet (hS : S.Closed valid) (h : S.Strip valid l p e e' g G) (hd : ∀ w i, Strip.dir G w i = w) (hy : Loop.Open p e G v y) (hy' : Loop.Open p e G v y') {i j : ℤ}
    (hl : l (i + 1) = l (j + 1)) {s t : K} (s0 : 0 < s) (s1 : s < 1) (t0 : 0 < t) (t1 : t < 1)
    (hX : (Strip.seg l p e G v y i).start.point + s • ((Strip.seg l p e G v y i).stop.point - (Strip.seg l p e G v y i).start.point) =
      (Strip.seg l p e G v y' j).start.point + t • ((Strip.seg l p e G v y' j).stop.point - (Strip.seg l p e G v y' j).start.point)) :
    Strip.seg l p e G v y i = Strip.seg l p e G v y' j := by
  have hB := hS.bordered
  obtain ⟨τ, h1, -⟩ := h.seg_chord hB hy.wide (i := i) (.inl (hy i).1)
  obtain ⟨τ', h2, -⟩ := h.seg_chord hB hy'.wide (i := j) (.inl (hy' j).1)
  have p1 := h.seg_start hB hy.wide (hy i).1
  have p2 := h.seg_start hB hy'.wide (hy' j).1
  have hp : p (i + 1) = p (j + 1) := by
    have c1 := h.polygon (i + 1)
    rw [hl, h.polygon (j + 1)] at c1
    injection c1 with c1
    exact c1.symm
  rw [h1.position] at p1
  rw [h2.position] at p2
  have v1 : (Strip.seg l p e G v y i).start.vector = v := hd v (i + 1)
  have v2 : (Strip.seg l p e G v y' j).start.vector = v := hd v (j + 1)
  have τ0 := h1.pos
  have τ0' := h2.pos
  rw [h1.stop, h2.stop, add_sub_cancel_left, add_sub_cancel_left, v1, v2, smul_smul, smul_smul] at hX
  have i1 := h1.interior
  have i2 := h2.interior
  rw [v1] at i1
  rw [v2] at i2
  rw [hp] at p1 i1
  have hab : s * τ < τ := by nlinarith
  have hab' : t * τ' < τ' := by nlinarith
  have hpos1 : 0 < s * τ := mul_pos s0 τ0
  have hpos2 : 0 < t * τ' := mul_pos t0 τ0'
  have hstart : (Strip.seg l p e G v y i).start.point = (Strip.seg l p e G v y' j).start.point := by
    rcases lt_trichotomy (s * τ) (t * τ') with hlt | heq | hlt
    · have : (Strip.seg l p e G v y i).start.point = (Strip.seg l p e G v y' j).start.point + (t * τ' - s * τ) • v := by
        rw [sub_smul, ← add_sub_assoc, ← hX]; abel
      rw [this, i2 _ (by linarith) (by linarith)] at p1
      cases p1
    · rw [heq] at hX
      exact add_right_cancel hX
    · have : (Strip.seg l p e G v y' j).start.point = (Strip.seg l p e G v y i).start.point + (s * τ - t * τ') • v := by
        rw [sub_smul, ← add_sub_assoc, hX]; abel
      rw [this, i1 _ (by linarith) (by linarith)] at p2
      cases p2
  apply seg_ext_start hB h hy hy'
  have hlab : (Strip.seg l p e G v y i).start.label = (Strip.seg l p e G v y' j).start.label := hl
  have hpos := h1.position
  have hpos' := h2.position
  rw [hp, hstart] at hpos
  generalize (Strip.seg l p e G v y i).start = a at *
  generalize (Strip.seg l p e G v y' j).start = b at *
  obtain ⟨a1, a2, a3, a4⟩ := a
  obtain ⟨b1, b2, b3, b4⟩ := b
  dsimp only at *
  rw [hlab, hstart, v1, v2, hpos, hpos']

/-- The lines of a cylinder on a translation surface do not meet. -/
theorem lines_disjoint (hS : S.Closed valid) (h : S.Loop valid n v l p e e' g G) (hn : 0 < n) (hd : ∀ w i, Strip.dir G w i = w) {y0 : K}
    (hdist : ∀ r r' : ℕ, r < n → r' < n → r ≠ r' → ((Strip.seg l p e G v y0 (r - 1)).start.label, (Strip.seg l p e G v y0 (r - 1)).start.point) ≠
      ((Strip.seg l p e G v y0 (r' - 1)).start.label, (Strip.seg l p e G v y0 (r' - 1)).start.point))
    (hy : Loop.Open p e G v y) (hy' : Loop.Open p e G v y') {i j : ℤ} (hij : i < j) (hj : j < i + n)
    (hs : Strip.seg l p e G v y i = Strip.seg l p e G v y' j) : False := by
  obtain ⟨m, rfl⟩ : ∃ m : ℕ, j = i + m := ⟨(j - i).toNat, by omega⟩
  have key : ∀ k : ℕ, ccw v (gateA p e G (i + k + m)) = ccw v (gateA p e G (i + k)) + (y' - y) := by
    intro k
    have := (seg_eq_data hS h.toStrip hd hy hy' (seg_coincide hS h.toStrip hy hy' hs k)).2.2
    rw [show i + (m : ℤ) + k = i + k + m by ring] at this
    linarith
  have key2 : ∀ q : ℕ, ccw v (gateA p e G (i + (q * m : ℕ))) = ccw v (gateA p e G i) + q * (y' - y) := by
    intro q
    induction q with
    | zero => simp
    | succ q ih =>
      have h1 := key (q * m)
      rw [ih] at h1
      rw [show i + ((q + 1) * m : ℕ) = i + (q * m : ℕ) + m by push_cast; ring, h1]
      push_cast
      ring
  have key3 : ∀ q : ℕ, ccw v (gateA p e G (i + (n * q : ℕ))) = ccw v (gateA p e G i) := by
    intro q
    induction q with
    | zero => simp
    | succ q ih => rw [show i + (n * (q + 1) : ℕ) = i + (n * q : ℕ) + n by push_cast; ring, h.ccwA_add, ih]
  have h0 : (n : K) * (y' - y) = 0 := by
    have a1 := key2 n
    rw [key3 m] at a1
    linarith
  have hyy : y' - y = 0 := (mul_eq_zero.1 h0).resolve_left (by exact_mod_cast hn.ne')
  obtain ⟨c1, c2, c3⟩ := seg_eq_data hS h.toStrip hd hy hy' hs
  exact sides_distinct hS h hn hd hdist hij hj c1 c2 (.inl (by linarith))

end RSurf
end Flat
