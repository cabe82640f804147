import Verif.Props.Circle
import Verif.Props.Similarity
import Verif.Props.TriangleFlip
import Mathlib.Tactic.Abel
import Mathlib.Tactic.LinearCombination

/-!
# Empty disks in triangulated surfaces

A disk is developed along a triangulated surface, starting at a triangle and crossing all edges that meet the disk.  When no
vertex is strictly inside of the disk, then this does not change when edges are flipped elsewhere.
-/

namespace Flat
namespace Disk
variable {L K : Type} [LinearOrder L] [Field K] [LinearOrder K] [IsStrictOrderedRing K]

/-- The point is strictly inside of the circle. -/
def In (c : Circle K) (v : Vec K) : Prop := Circle.distSq v c.center < c.radiusSq

/-- The open segment meets the inside of the circle. -/
def Crosses (c : Circle K) (p q : Vec K) : Prop := ∃ t : K, 0 < t ∧ t < 1 ∧ In c (p + t • (q - p))

/-- An orientation preserving similarity. -/
def Pos (g : Similarity K) : Prop := g.WF ∧ g.sign = 1

theorem Pos.norm {g : Similarity K} (h : Pos g) : 0 < g.a ^ 2 + g.b ^ 2 := by
  have h1 := h.1.1
  apply lt_of_le_of_ne (by positivity)
  intro h'
  apply h1
  linear_combination -h'

omit [LinearOrder K] [IsStrictOrderedRing K] in
theorem Pos.mul {g h : Similarity K} (hg : Pos g) (hh : Pos h) : Pos (g.mul h) :=
  ⟨Similarity.C01_mul_wf g h hg.1 hh.1, by simp [Similarity.mul, hg.2, hh.2]⟩

omit [LinearOrder K] [IsStrictOrderedRing K] in
theorem Pos.inv {g : Similarity K} (hg : Pos g) : Pos g.inv := ⟨Similarity.C01_inv_wf g hg.1, by simp [Similarity.inv, hg.2]⟩

omit [LinearOrder K] [IsStrictOrderedRing K] in
theorem Pos.mul_call {g h : Similarity K} (hg : Pos g) (hh : Pos h) (v : Vec K) : (g.mul h).call v = g.call (h.call v) :=
  Similarity.C01_mul_call g h (Or.inl hg.2) (Or.inl hh.2) v

omit [LinearOrder K] [IsStrictOrderedRing K] in
theorem Pos.inv_call {g : Similarity K} (hg : Pos g) (v : Vec K) : g.inv.call (g.call v) = v := by
  rw [← hg.inv.mul_call hg, Similarity.C01_inv_mul g hg.1, Similarity.C01_one_call]

omit [LinearOrder K] [IsStrictOrderedRing K] in
theorem Pos.call_inv {g : Similarity K} (hg : Pos g) (v : Vec K) : g.call (g.inv.call v) = v := by
  rw [← hg.mul_call hg.inv, Similarity.C01_mul_inv g hg.1, Similarity.C01_one_call]

omit [LinearOrder K] [IsStrictOrderedRing K] in
theorem Pos.rmul_mul {g h : Similarity K} (hg : Pos g) (hh : Pos h) (c : Circle K) :
    Circle.rmul g (Circle.rmul h c) = Circle.rmul (g.mul h) c := by
  unfold Circle.rmul
  rw [hg.mul_call hh]
  congr 1
  simp only [Similarity.det, Similarity.mul, hg.2, hh.2]
  push_cast
  ring

omit [LinearOrder K] [IsStrictOrderedRing K] in
theorem rmul_one (c : Circle K) : Circle.rmul Similarity.one c = c := by
  unfold Circle.rmul
  rw [Similarity.C01_one_call]
  simp [Similarity.det, Similarity.one]

omit [LinearOrder K] [IsStrictOrderedRing K] in
theorem Pos.rmul_inv {g : Similarity K} (hg : Pos g) (c : Circle K) : Circle.rmul g (Circle.rmul g.inv c) = c := by
  rw [hg.rmul_mul hg.inv, Similarity.C01_mul_inv g hg.1, rmul_one]

omit [LinearOrder K] [IsStrictOrderedRing K] in
theorem Pos.inv_rmul {g : Similarity K} (hg : Pos g) (c : Circle K) : Circle.rmul g.inv (Circle.rmul g c) = c := by
  rw [hg.inv.rmul_mul hg, Similarity.C01_inv_mul g hg.1, rmul_one]

theorem Pos.in_iff {g : Similarity K} (hg : Pos g) (c : Circle K) (v : Vec K) : In (Circle.rmul g c) (g.call v) ↔ In c v := by
  unfold In
  have hr : (Circle.rmul g c).radiusSq = (g.a ^ 2 + g.b ^ 2) * c.radiusSq := by
    simp only [Circle.rmul, Similarity.det, hg.2, Int.cast_one]; ring
  rw [hr, show (Circle.rmul g c).center = g.call c.center from rfl, Circle.distSq_call g (Or.inl hg.2), mul_lt_mul_iff_right₀ hg.norm]

omit [LinearOrder K] [IsStrictOrderedRing K] in
theorem Pos.affine {g : Similarity K} (hg : Pos g) (a b : Vec K) (t : K) :
    g.call (a + t • (b - a)) = g.call a + t • (g.call b - g.call a) := by
  unfold Similarity.call
  rw [hg.2]
  ext <;> simp <;> ring

theorem Pos.crosses_iff {g : Similarity K} (hg : Pos g) (c : Circle K) (p q : Vec K) :
    Crosses (Circle.rmul g c) (g.call p) (g.call q) ↔ Crosses c p q := by
  unfold Crosses
  simp only [← hg.affine, hg.in_iff]

theorem Crosses.symm {c : Circle K} {p q : Vec K} (h : Crosses c p q) : Crosses c q p := by
  obtain ⟨t, h0, h1, h2⟩ := h
  refine ⟨1 - t, by linarith, by linarith, ?_⟩
  have : q + (1 - t) • (p - q) = p + t • (q - p) := by
    ext <;> simp <;> ring
  rw [this]
  exact h2

omit [LinearOrder K] [IsStrictOrderedRing K] in
/-- Orientation preserving similarities are determined by the images of two points. -/
theorem Pos.ext {g h : Similarity K} (hg : Pos g) (hh : Pos h) {p q : Vec K} (hn : (q.1 - p.1) * (q.1 - p.1) + (q.2 - p.2) * (q.2 - p.2) ≠ 0)
    (h1 : g.call p = h.call p) (h2 : g.call q = h.call q) : g = h := by
  unfold Similarity.call at h1 h2
  rw [hg.2, hh.2] at h1 h2
  simp only [if_true, Prod.mk.injEq] at h1 h2
  obtain ⟨x1, x2⟩ := h1
  obtain ⟨y1, y2⟩ := h2
  have ha : g.a = h.a := by
    apply mul_left_cancel₀ hn
    linear_combination (q.1 - p.1) * (y1 - x1) + (q.2 - p.2) * (y2 - x2)
  have hb : g.b = h.b := by
    apply mul_left_cancel₀ hn
    linear_combination (q.1 - p.1) * (y2 - x2) - (q.2 - p.2) * (y1 - x1)
  refine Similarity.ext ha hb ?_ ?_ (hg.2.trans hh.2.symm)
  · rw [ha, hb] at x1
    linear_combination x1
  · rw [ha, hb] at x2
    linear_combination x2

/-- The inside of a circle is convex. -/
theorem in_convex {c : Circle K} {a b : Vec K} (ha : In c a) (hb : In c b) {t : K} (h0 : 0 ≤ t) (h1 : t ≤ 1) : In c (a + t • (b - a)) := by
  unfold In Circle.distSq at *
  have e : (a + t • (b - a)).1 = a.1 + t * (b.1 - a.1) := by simp
  have e' : (a + t • (b - a)).2 = a.2 + t * (b.2 - a.2) := by simp
  rw [e, e']
  have key : (a.1 + t * (b.1 - a.1) - c.center.1) ^ 2 + (a.2 + t * (b.2 - a.2) - c.center.2) ^ 2 =
      (1 - t) * ((a.1 - c.center.1) ^ 2 + (a.2 - c.center.2) ^ 2) + t * ((b.1 - c.center.1) ^ 2 + (b.2 - c.center.2) ^ 2) -
        t * (1 - t) * ((b.1 - a.1) ^ 2 + (b.2 - a.2) ^ 2) := by ring
  rw [key]
  have k1 : 0 ≤ t * (1 - t) * ((b.1 - a.1) ^ 2 + (b.2 - a.2) ^ 2) := by
    have : 0 ≤ 1 - t := by linarith
    positivity
  rcases h0.eq_or_lt with h | h
  · subst h
    linarith
  · have k2 := mul_lt_mul_of_pos_left hb h
    have k3 := mul_le_mul_of_nonneg_left ha.le (by linarith : (0 : K) ≤ 1 - t)
    linarith

omit [LinearOrder K] [IsStrictOrderedRing K] in
theorem ccw_seg (w o u v : Vec K) (t : K) : ccw w (u + t • (v - u) - o) = (1 - t) * ccw w (u - o) + t * ccw w (v - o) := by
  simp [ccw]; ring

theorem ccw_seg_nonneg {w o u v : Vec K} {t : K} (h0 : 0 ≤ t) (h1 : t ≤ 1) (hu : 0 ≤ ccw w (u - o)) (hv : 0 ≤ ccw w (v - o)) :
    0 ≤ ccw w (u + t • (v - u) - o) := by
  rw [ccw_seg]
  have := mul_nonneg (sub_nonneg.2 h1) hu
  have := mul_nonneg h0 hv
  linarith

/-- A circle with points inside on both sides of a segment also crosses the segment, if the points are not too far away. -/
theorem crosses_diagonal {p q z : Vec K} (hT : 0 < ccw (z - p) (q - z)) {c : Circle K}
    (hp : ¬ In c p) (hq : ¬ In c q) {a b : Vec K} (ha : In c a) (hb : In c b)
    (hA : 0 ≤ ccw (q - p) (a - p)) (hA1 : 0 ≤ ccw (z - p) (a - p)) (hA2 : 0 ≤ ccw (q - z) (a - z))
    (hB : ccw (q - p) (b - p) ≤ 0) (hB1 : 0 ≤ ccw (z - p) (b - p)) (hB2 : 0 ≤ ccw (q - z) (b - z)) : Crosses c p q := by
  obtain ⟨s, s0, s1, hs⟩ : ∃ s : K, 0 ≤ s ∧ s ≤ 1 ∧ ccw (q - p) (a + s • (b - a) - p) = 0 := by
    by_cases h : ccw (q - p) (a - p) - ccw (q - p) (b - p) = 0
    · refine ⟨0, le_rfl, zero_le_one, ?_⟩
      rw [zero_smul, add_zero]
      linarith
    · have hpos : 0 < ccw (q - p) (a - p) - ccw (q - p) (b - p) := lt_of_le_of_ne (by linarith) (Ne.symm h)
      refine ⟨ccw (q - p) (a - p) / (ccw (q - p) (a - p) - ccw (q - p) (b - p)), div_nonneg hA hpos.le, (div_le_one hpos).2 (by linarith), ?_⟩
      rw [ccw_seg]
      field_simp
      ring
  set m := a + s • (b - a) with hm
  have hin : In c m := in_convex ha hb s0 s1
  have m1 : 0 ≤ ccw (z - p) (m - p) := ccw_seg_nonneg s0 s1 hA1 hB1
  have m2 : 0 ≤ ccw (q - z) (m - z) := ccw_seg_nonneg s0 s1 hA2 hB2
  have hne : (q.1 - p.1) ^ 2 + (q.2 - p.2) ^ 2 ≠ 0 := by
    intro h
    have x1 : q.1 - p.1 = 0 := by nlinarith [sq_nonneg (q.1 - p.1), sq_nonneg (q.2 - p.2)]
    have x2 : q.2 - p.2 = 0 := by nlinarith [sq_nonneg (q.1 - p.1), sq_nonneg (q.2 - p.2)]
    have : ccw (z - p) (q - z) = 0 := by
      simp only [ccw, Prod.fst_sub, Prod.snd_sub]
      linear_combination (z.1 - p.1) * x2 - (z.2 - p.2) * x1
    linarith
  set lam := ((m.1 - p.1) * (q.1 - p.1) + (m.2 - p.2) * (q.2 - p.2)) / ((q.1 - p.1) ^ 2 + (q.2 - p.2) ^ 2) with hlam
  have hl : lam * ((q.1 - p.1) ^ 2 + (q.2 - p.2) ^ 2) = (m.1 - p.1) * (q.1 - p.1) + (m.2 - p.2) * (q.2 - p.2) := by
    rw [hlam]; exact div_mul_cancel₀ _ hne
  have hs' : (q.1 - p.1) * (m.2 - p.2) - (q.2 - p.2) * (m.1 - p.1) = 0 := hs
  have hmm : m = p + lam • (q - p) := by
    ext
    · simp only [Prod.fst_add, Prod.smul_fst, Prod.fst_sub, smul_eq_mul]
      apply mul_left_cancel₀ hne
      linear_combination -(q.1 - p.1) * hl - (q.2 - p.2) * hs'
    · simp only [Prod.snd_add, Prod.smul_snd, Prod.snd_sub, smul_eq_mul]
      apply mul_left_cancel₀ hne
      linear_combination -(q.2 - p.2) * hl + (q.1 - p.1) * hs'
  have k1 : 0 ≤ lam * ccw (z - p) (q - z) := by
    have : ccw (z - p) (m - p) = lam * ccw (z - p) (q - z) := by
      rw [hmm]; simp [ccw]; ring
    rwa [← this]
  have k2 : 0 ≤ (1 - lam) * ccw (z - p) (q - z) := by
    have : ccw (q - z) (m - z) = (1 - lam) * ccw (z - p) (q - z) := by
      rw [hmm]; simp [ccw]; ring
    rwa [← this]
  have l0 : 0 ≤ lam := nonneg_of_mul_nonneg_left k1 hT
  have l1 : 0 ≤ 1 - lam := nonneg_of_mul_nonneg_left k2 hT
  rw [hmm] at hin
  refine ⟨lam, lt_of_le_of_ne l0 ?_, lt_of_le_of_ne (by linarith) ?_, hin⟩
  · intro h
    rw [← h, zero_smul, add_zero] at hin
    exact hp hin
  · intro h
    rw [h, one_smul, add_sub_cancel] at hin
    exact hq hin

/-- The vertex `v` or a point of the two outer edges of the triangle `u v w` is inside of the circle. -/
def Touches (c : Circle K) (u v w : Vec K) : Prop := In c v ∨ Crosses c u v ∨ Crosses c v w

/-- A circle that meets both outer sides of a convex quadrilateral crosses the diagonal. -/
theorem crosses_of_touches {p q r z : Vec K} (hT : Poly.Turns (z - p) (q - z) (r - q) (p - r)) {c : Circle K}
    (hp : ¬ In c p) (hq : ¬ In c q) (hr : Touches c q r p) (hz : Touches c p z q) : Crosses c p q := by
  obtain ⟨t1, t2, t3, t4⟩ := hT
  have hA : 0 < ccw (q - p) (r - p) := by
    have : ccw (q - p) (r - p) = ccw (r - q) (p - r) := by simp [ccw]; ring
    rwa [this]
  have hz0 : ccw (q - p) (z - p) < 0 := by
    have : ccw (q - p) (z - p) = - ccw (z - p) (q - z) := by simp [ccw]; ring
    rw [this]; linarith
  have hr1 : 0 < ccw (z - p) (r - p) := by
    have : ccw (z - p) (r - p) = ccw (p - r) (z - p) := by simp [ccw]; ring
    rwa [this]
  have hr2 : 0 < ccw (q - z) (r - z) := by
    have : ccw (q - z) (r - z) = ccw (q - z) (r - q) := by simp [ccw]; ring
    rwa [this]
  have hq1 : 0 < ccw (z - p) (q - p) := by
    have : ccw (z - p) (q - p) = ccw (z - p) (q - z) := by simp [ccw]; ring
    rwa [this]
  have hp2 : 0 < ccw (q - z) (p - z) := by
    have : ccw (q - z) (p - z) = ccw (z - p) (q - z) := by simp [ccw]; ring
    rwa [this]
  have zero : ∀ w v : Vec K, ccw w (v - v) = 0 := fun w v => by simp [ccw]
  have self : ∀ w : Vec K, ccw w w = 0 := fun w => by simp [ccw]; ring
  obtain ⟨a, ha, a0, a1, a2⟩ : ∃ a, In c a ∧ 0 ≤ ccw (q - p) (a - p) ∧ 0 ≤ ccw (z - p) (a - p) ∧ 0 ≤ ccw (q - z) (a - z) := by
    rcases hr with h | ⟨t, h0, h1, h⟩ | ⟨t, h0, h1, h⟩
    · exact ⟨r, h, hA.le, hr1.le, hr2.le⟩
    · exact ⟨_, h, ccw_seg_nonneg h0.le h1.le (self _).ge hA.le, ccw_seg_nonneg h0.le h1.le hq1.le hr1.le,
        ccw_seg_nonneg h0.le h1.le (self _).ge hr2.le⟩
    · exact ⟨_, h, ccw_seg_nonneg h0.le h1.le hA.le (zero _ _).ge, ccw_seg_nonneg h0.le h1.le hr1.le (zero _ _).ge,
        ccw_seg_nonneg h0.le h1.le hr2.le hp2.le⟩
  obtain ⟨b, hb, b0, b1, b2⟩ : ∃ b, In c b ∧ ccw (q - p) (b - p) ≤ 0 ∧ 0 ≤ ccw (z - p) (b - p) ∧ 0 ≤ ccw (q - z) (b - z) := by
    have neg : ∀ x : Vec K, ccw (q - p) x = - ccw (-(q - p)) x := fun x => by simp [ccw]; ring
    rcases hz with h | ⟨t, h0, h1, h⟩ | ⟨t, h0, h1, h⟩
    · exact ⟨z, h, hz0.le, (self _).ge, (zero _ _).ge⟩
    · refine ⟨_, h, ?_, ccw_seg_nonneg h0.le h1.le (zero _ _).ge (self _).ge, ccw_seg_nonneg h0.le h1.le hp2.le (zero _ _).ge⟩
      rw [neg]
      have := ccw_seg_nonneg (w := -(q - p)) (o := p) (u := p) (v := z) h0.le h1.le (zero _ _).ge (by rw [neg] at hz0; linarith)
      linarith
    · refine ⟨_, h, ?_, ccw_seg_nonneg h0.le h1.le (self _).ge hq1.le, ccw_seg_nonneg h0.le h1.le (zero _ _).ge (self _).ge⟩
      rw [neg]
      have := ccw_seg_nonneg (w := -(q - p)) (o := p) (u := z) (v := q) h0.le h1.le (by rw [neg] at hz0; linarith)
        (by have := self (q - p); rw [neg] at this; linarith)
      linarith
  exact crosses_diagonal t1 hp hq ha hb a0 a1 a2 b0 b1 b2

/-- The circle in the coordinates of the polygons of the surface with vertices `V` and gluings `G`: starting with the circle `c0`
in the polygon `l0`, cross all edges which meet its inside. -/
inductive Sees (V : L → ℕ → Vec K) (G : L × ℕ → L × ℕ → Prop) (l0 : L) (c0 : Circle K) : L → Circle K → Prop
  | start : Sees V G l0 c0 l0 c0
  | step {c : Circle K} {x y : L × ℕ} {g : Similarity K} : Sees V G l0 c0 x.1 c → Crosses c (V x.1 x.2) (V x.1 (x.2 + 1)) → G x y →
      Pos g → g.call (V x.1 x.2) = V y.1 (y.2 + 1) → g.call (V x.1 (x.2 + 1)) = V y.1 y.2 → Sees V G l0 c0 y.1 (Circle.rmul g c)

/-- No vertex is strictly inside of the circle. -/
def Empty (V : L → ℕ → Vec K) (G : L × ℕ → L × ℕ → Prop) (l0 : L) (c0 : Circle K) : Prop :=
  ∀ l c, Sees V G l0 c0 l c → ∀ i, ¬ In c (V l i)

/-- The surface with vertices `V'` and gluings `G'` is obtained by flipping the edge `(l0, d0)`, glued to `(l1, d1)`: in the
coordinates of the old polygon `l0`, the triangles are `p q r` and `q p z`, and then `z r p` and `r z q`. -/
structure Flip (V V' : L → ℕ → Vec K) (G G' : L × ℕ → L × ℕ → Prop) (l0 l1 : L) (d0 d1 : ℕ) where
  (p q r z : Vec K)
  (g σ0 σ1 : Similarity K)
  turns : Poly.Turns (z - p) (q - z) (r - q) (p - r)
  hg : Pos g
  h0 : Pos σ0
  h1 : Pos σ1
  lt0 : d0 < 3
  lt1 : d1 < 3
  fold : l0 = l1 → d0 = d1
  per : ∀ l i, V l (i + 3) = V l i
  per' : ∀ l i, V' l (i + 3) = V' l i
  a0 : V l0 d0 = p
  a1 : V l0 (d0 + 1) = q
  a2 : V l0 (d0 + 2) = r
  b0 : g.call (V l1 d1) = q
  b1 : g.call (V l1 (d1 + 1)) = p
  b2 : g.call (V l1 (d1 + 2)) = z
  n0 : V' l0 d0 = σ0.call z
  n1 : V' l0 (d0 + 1) = σ0.call r
  n2 : V' l0 (d0 + 2) = σ0.call p
  m0 : V' l1 d1 = σ1.call r
  m1 : V' l1 (d1 + 1) = σ1.call z
  m2 : V' l1 (d1 + 2) = σ1.call q
  other : ∀ l, l ≠ l0 → l ≠ l1 → V' l = V l
  glued : G (l0, d0) (l1, d1)
  glued' : G (l1, d1) (l0, d0)
  glue : ∀ x y, G' x y → (x = (l0, d0) ∧ y = (l1, d1)) ∨ (x = (l1, d1) ∧ y = (l0, d0)) ∨
    (MSurf.FlipEdge l0 d0 l1 d1 x ∧ MSurf.FlipEdge l0 d0 l1 d1 y ∧ G (MSurf.flipOld l0 d0 l1 d1 x) (MSurf.flipOld l0 d0 l1 d1 y))

theorem per_mod {V : L → ℕ → Vec K} (per : ∀ l i, V l (i + 3) = V l i) (l : L) (i : ℕ) : V l (i % 3) = V l i := by
  induction i using Nat.strong_induction_on with
  | _ i ih =>
    by_cases h : i < 3
    · rw [Nat.mod_eq_of_lt h]
    · have := ih (i - 3) (by omega)
      rw [← per l (i - 3), show i - 3 + 3 = i by omega] at this
      rw [← this, show (i - 3) % 3 = i % 3 by omega]

namespace Flip
variable {V V' : L → ℕ → Vec K} {G G' : L × ℕ → L × ℕ → Prop} {l0 l1 : L} {d0 d1 : ℕ} (F : Flip V V' G G' l0 l1 d0 d1)
include F

/-- A circle, in the coordinates of the old polygon `l0`, that is reached in the old surface by all edges of the quadrilateral that
it crosses. -/
structure Quad (T : L → Circle K → Prop) (c : Circle K) : Prop where
  p : ¬ In c F.p
  q : ¬ In c F.q
  r : ¬ In c F.r
  z : ¬ In c F.z
  a : Crosses c F.q F.r ∨ Crosses c F.r F.p → T l0 c
  b : Crosses c F.p F.z ∨ Crosses c F.z F.q → ∃ c1, T l1 c1 ∧ c = Circle.rmul F.g c1

theorem quad_of_a {s0 : L} {c0 : Circle K} (hE : Empty V G s0 c0) {c : Circle K} (hT : Sees V G s0 c0 l0 c)
    (hc : Crosses c F.q F.r ∨ Crosses c F.r F.p) : F.Quad (Sees V G s0 c0) c := by
  have hp : ¬ In c F.p := by have := hE _ _ hT d0; rwa [F.a0] at this
  have hq : ¬ In c F.q := by have := hE _ _ hT (d0 + 1); rwa [F.a1] at this
  have hr : ¬ In c F.r := by have := hE _ _ hT (d0 + 2); rwa [F.a2] at this
  have hto : Crosses c F.p F.q → Sees V G s0 c0 l1 (Circle.rmul F.g.inv c) := fun h =>
    Sees.step (x := (l0, d0)) (y := (l1, d1)) (g := F.g.inv) hT (by rw [F.a0, F.a1]; exact h) F.glued F.hg.inv
      (by dsimp only; rw [F.a0, ← F.b1, F.hg.inv_call]) (by dsimp only; rw [F.a1, ← F.b0, F.hg.inv_call])
  have hside : Touches c F.p F.z F.q → Crosses c F.p F.q := crosses_of_touches F.turns hp hq (Or.inr hc)
  refine ⟨hp, hq, hr, ?_, fun _ => hT, ?_⟩
  · intro hz
    have h5 := hE _ _ (hto (hside (Or.inl hz))) (d1 + 2)
    apply h5
    rw [← F.hg.in_iff, F.hg.rmul_inv, F.b2]
    exact hz
  · intro h
    exact ⟨_, hto (hside (Or.inr h)), (F.hg.rmul_inv c).symm⟩

theorem quad_of_b {s0 : L} {c0 : Circle K} (hE : Empty V G s0 c0) {c : Circle K} (hT : Sees V G s0 c0 l1 c)
    (hc : Crosses (Circle.rmul F.g c) F.p F.z ∨ Crosses (Circle.rmul F.g c) F.z F.q) :
    F.Quad (Sees V G s0 c0) (Circle.rmul F.g c) := by
  have hq : ¬ In (Circle.rmul F.g c) F.q := by have := hE _ _ hT d1; rwa [← F.hg.in_iff, F.b0] at this
  have hp : ¬ In (Circle.rmul F.g c) F.p := by have := hE _ _ hT (d1 + 1); rwa [← F.hg.in_iff, F.b1] at this
  have hz : ¬ In (Circle.rmul F.g c) F.z := by have := hE _ _ hT (d1 + 2); rwa [← F.hg.in_iff, F.b2] at this
  have hto : Crosses (Circle.rmul F.g c) F.p F.q → Sees V G s0 c0 l0 (Circle.rmul F.g c) := fun h =>
    Sees.step (x := (l1, d1)) (y := (l0, d0)) (g := F.g) hT (by
      dsimp only
      rw [← F.hg.crosses_iff, F.b0, F.b1]
      exact h.symm) F.glued' F.hg
      (by dsimp only; rw [F.b0, F.a1]) (by dsimp only; rw [F.b1, F.a0])
  have hside : Touches (Circle.rmul F.g c) F.q F.r F.p → Crosses (Circle.rmul F.g c) F.p F.q := fun h =>
    crosses_of_touches F.turns hp hq h (Or.inr hc)
  refine ⟨hp, hq, ?_, hz, ?_, fun _ => ⟨c, hT, rfl⟩⟩
  · intro hr
    have h5 := hE _ _ (hto (hside (Or.inl hr))) (d0 + 2)
    rw [F.a2] at h5
    exact h5 hr
  · intro h
    exact hto (hside (Or.inr h))

/-- What is seen in the new surface. -/
def Inv (T : L → Circle K → Prop) (x : L) (c : Circle K) : Prop :=
  (x ≠ l0 ∧ x ≠ l1 ∧ T x c) ∨ (∃ c', F.Quad T c' ∧ ((x = l0 ∧ c = Circle.rmul F.σ0 c') ∨ (x = l1 ∧ c = Circle.rmul F.σ1 c')))

omit F in
theorem per_mod1 {V : L → ℕ → Vec K} (per : ∀ l i, V l (i + 3) = V l i) (l : L) (i : ℕ) : V l (i % 3 + 1) = V l (i + 1) := by
  rw [← per_mod per l (i % 3 + 1), ← per_mod per l (i + 1)]
  congr 1
  omega

theorem fo1 : MSurf.flipOld l0 d0 l1 d1 (l0, (d0 + 1) % 3) = (l0, (d0 + 2) % 3) := by
  unfold MSurf.flipOld; rw [if_pos rfl]

theorem fo2 : MSurf.flipOld l0 d0 l1 d1 (l0, (d0 + 2) % 3) = (l1, (d1 + 1) % 3) := by
  unfold MSurf.flipOld
  rw [if_neg (by intro h; injection h with _ h; omega), if_pos rfl]

theorem fo3 : MSurf.flipOld l0 d0 l1 d1 (l1, (d1 + 1) % 3) = (l1, (d1 + 2) % 3) := by
  by_cases h : l0 = l1
  · have hd := F.fold h
    subst h hd
    exact F.fo1
  · unfold MSurf.flipOld
    rw [if_neg (by intro h'; injection h' with h' _; exact h h'.symm), if_neg (by intro h'; injection h' with h' _; exact h h'.symm), if_pos rfl]

theorem fo4 : MSurf.flipOld l0 d0 l1 d1 (l1, (d1 + 2) % 3) = (l0, (d0 + 1) % 3) := by
  by_cases h : l0 = l1
  · have hd := F.fold h
    subst h hd
    exact F.fo2
  · unfold MSurf.flipOld
    rw [if_neg (by intro h'; injection h' with h' _; exact h h'.symm), if_neg (by intro h'; injection h' with h' _; exact h h'.symm),
      if_neg (by intro h'; injection h' with _ h'; omega), if_pos rfl]

omit F in
theorem fo5 {x : L × ℕ} (h0 : x.1 ≠ l0) (h1 : x.1 ≠ l1) : MSurf.flipOld l0 d0 l1 d1 x = x := by
  unfold MSurf.flipOld
  rw [if_neg (by rintro rfl; exact h0 rfl), if_neg (by rintro rfl; exact h0 rfl), if_neg (by rintro rfl; exact h1 rfl),
    if_neg (by rintro rfl; exact h1 rfl)]

/-- The outer edges of the new triangles. -/
theorem edge_cases {x : L × ℕ} (hx : MSurf.FlipEdge l0 d0 l1 d1 x) :
    (x.1 ≠ l0 ∧ x.1 ≠ l1) ∨ x = (l0, (d0 + 1) % 3) ∨ x = (l0, (d0 + 2) % 3) ∨ x = (l1, (d1 + 1) % 3) ∨ x = (l1, (d1 + 2) % 3) := by
  obtain ⟨l, e⟩ := x
  obtain ⟨k0, k1⟩ := hx
  dsimp only at k0 k1
  have := F.lt0
  have := F.lt1
  by_cases h0 : l = l0
  · subst h0
    obtain ⟨k2, k3⟩ := k0 rfl
    have : e = (d0 + 1) % 3 ∨ e = (d0 + 2) % 3 := by omega
    rcases this with h | h <;> simp [h]
  · by_cases h1 : l = l1
    · subst h1
      obtain ⟨k2, k3⟩ := k1 rfl
      have : e = (d1 + 1) % 3 ∨ e = (d1 + 2) % 3 := by omega
      rcases this with h | h <;> simp [h]
    · exact Or.inl ⟨h0, h1⟩

/-- The old edge is placed on the new one. -/
structure Moves (V V' : L → ℕ → Vec K) (l0 l1 : L) (d0 d1 : ℕ) (κ : Similarity K) (x : L × ℕ) : Prop where
  pos : Pos κ
  start : κ.call (V (MSurf.flipOld l0 d0 l1 d1 x).1 (MSurf.flipOld l0 d0 l1 d1 x).2) = V' x.1 x.2
  stop : κ.call (V (MSurf.flipOld l0 d0 l1 d1 x).1 ((MSurf.flipOld l0 d0 l1 d1 x).2 + 1)) = V' x.1 (x.2 + 1)

theorem moves1 : Moves V V' l0 l1 d0 d1 F.σ0 (l0, (d0 + 1) % 3) := by
  refine ⟨F.h0, ?_, ?_⟩ <;> rw [F.fo1]
  · rw [per_mod F.per, F.a2, per_mod F.per', F.n1]
  · rw [per_mod1 F.per, F.per, F.a0, per_mod1 F.per', F.n2]

theorem moves2 : Moves V V' l0 l1 d0 d1 (F.σ0.mul F.g) (l0, (d0 + 2) % 3) := by
  refine ⟨F.h0.mul F.hg, ?_, ?_⟩ <;> rw [F.fo2, F.h0.mul_call F.hg]
  · rw [per_mod F.per, F.b1, per_mod F.per', F.n2]
  · rw [per_mod1 F.per, F.b2, per_mod1 F.per', F.per', F.n0]

theorem moves3 : Moves V V' l0 l1 d0 d1 (F.σ1.mul F.g) (l1, (d1 + 1) % 3) := by
  refine ⟨F.h1.mul F.hg, ?_, ?_⟩ <;> rw [F.fo3, F.h1.mul_call F.hg]
  · rw [per_mod F.per, F.b2, per_mod F.per', F.m1]
  · rw [per_mod1 F.per, F.per, F.b0, per_mod1 F.per', F.m2]

theorem moves4 : Moves V V' l0 l1 d0 d1 F.σ1 (l1, (d1 + 2) % 3) := by
  refine ⟨F.h1, ?_, ?_⟩ <;> rw [F.fo4]
  · rw [per_mod F.per, F.a1, per_mod F.per', F.m2]
  · rw [per_mod1 F.per, F.a2, per_mod1 F.per', F.per', F.m0]

omit F in
theorem moves5 (F : Flip V V' G G' l0 l1 d0 d1) {x : L × ℕ} (h0 : x.1 ≠ l0) (h1 : x.1 ≠ l1) : Moves V V' l0 l1 d0 d1 Similarity.one x := by
  refine ⟨⟨⟨by simp [Similarity.one], Or.inl rfl⟩, rfl⟩, ?_, ?_⟩ <;> rw [fo5 h0 h1, Similarity.C01_one_call, F.other _ h0 h1]

theorem out0 {T : L → Circle K → Prop} {c : Circle K} (hc : F.Quad T c) {e : ℕ} (he : e = (d0 + 1) % 3 ∨ e = (d0 + 2) % 3)
    (hX : Crosses (Circle.rmul F.σ0 c) (V' l0 e) (V' l0 (e + 1))) :
    ∃ c' κ, T (MSurf.flipOld l0 d0 l1 d1 (l0, e)).1 c' ∧ Circle.rmul F.σ0 c = Circle.rmul κ c' ∧ Moves V V' l0 l1 d0 d1 κ (l0, e) := by
  rcases he with rfl | rfl
  · refine ⟨c, _, ?_, rfl, F.moves1⟩
    rw [F.fo1]
    refine hc.a (Or.inr ?_)
    rwa [per_mod F.per', per_mod1 F.per', F.n1, F.n2, F.h0.crosses_iff] at hX
  · rw [per_mod F.per', per_mod1 F.per', F.n2, F.per', F.n0, F.h0.crosses_iff] at hX
    obtain ⟨c1, k1, k2⟩ := hc.b (Or.inl hX)
    refine ⟨c1, _, ?_, ?_, F.moves2⟩
    · rw [F.fo2]; exact k1
    · rw [← F.h0.rmul_mul F.hg, k2]

theorem out1 {T : L → Circle K → Prop} {c : Circle K} (hc : F.Quad T c) {e : ℕ} (he : e = (d1 + 1) % 3 ∨ e = (d1 + 2) % 3)
    (hX : Crosses (Circle.rmul F.σ1 c) (V' l1 e) (V' l1 (e + 1))) :
    ∃ c' κ, T (MSurf.flipOld l0 d0 l1 d1 (l1, e)).1 c' ∧ Circle.rmul F.σ1 c = Circle.rmul κ c' ∧ Moves V V' l0 l1 d0 d1 κ (l1, e) := by
  rcases he with rfl | rfl
  · rw [per_mod F.per', per_mod1 F.per', F.m1, F.m2, F.h1.crosses_iff] at hX
    obtain ⟨c1, k1, k2⟩ := hc.b (Or.inr hX)
    refine ⟨c1, _, ?_, ?_, F.moves3⟩
    · rw [F.fo3]; exact k1
    · rw [← F.h1.rmul_mul F.hg, k2]
  · refine ⟨c, _, ?_, rfl, F.moves4⟩
    rw [F.fo4]
    refine hc.a (Or.inl ?_)
    rwa [per_mod F.per', per_mod1 F.per', F.m2, F.per', F.m0, F.h1.crosses_iff] at hX

theorem out {T : L → Circle K → Prop} {x : L × ℕ} {c : Circle K} (hI : F.Inv T x.1 c) (hx : MSurf.FlipEdge l0 d0 l1 d1 x)
    (hX : Crosses c (V' x.1 x.2) (V' x.1 (x.2 + 1))) :
    ∃ c' κ, T (MSurf.flipOld l0 d0 l1 d1 x).1 c' ∧ c = Circle.rmul κ c' ∧ Moves V V' l0 l1 d0 d1 κ x := by
  obtain ⟨l, e⟩ := x
  dsimp only at hI hX
  have := F.lt0
  have := F.lt1
  rcases hI with ⟨k0, k1, k2⟩ | ⟨c', hq, ⟨rfl, rfl⟩ | ⟨rfl, rfl⟩⟩
  · refine ⟨c, Similarity.one, ?_, (rmul_one c).symm, moves5 F k0 k1⟩
    rw [fo5 (x := (l, e)) k0 k1]; exact k2
  · obtain ⟨h1, h2⟩ := hx.1 rfl
    exact F.out0 hq (by dsimp only at h1 h2; omega) hX
  · obtain ⟨h1, h2⟩ := hx.2 rfl
    exact F.out1 hq (by dsimp only at h1 h2; omega) hX

theorem enter {s0 : L} {c0 : Circle K} (hE : Empty V G s0 c0) {y : L × ℕ} (hy : MSurf.FlipEdge l0 d0 l1 d1 y) :
    ∃ κ, Moves V V' l0 l1 d0 d1 κ y ∧ ∀ c, Sees V G s0 c0 (MSurf.flipOld l0 d0 l1 d1 y).1 c →
      Crosses c (V (MSurf.flipOld l0 d0 l1 d1 y).1 (MSurf.flipOld l0 d0 l1 d1 y).2)
        (V (MSurf.flipOld l0 d0 l1 d1 y).1 ((MSurf.flipOld l0 d0 l1 d1 y).2 + 1)) → F.Inv (Sees V G s0 c0) y.1 (Circle.rmul κ c) := by
  rcases F.edge_cases hy with ⟨k0, k1⟩ | rfl | rfl | rfl | rfl
  · refine ⟨_, moves5 F k0 k1, fun c hT hX => Or.inl ⟨k0, k1, ?_⟩⟩
    rw [rmul_one]
    rwa [fo5 k0 k1] at hT
  · refine ⟨_, F.moves1, fun c hT hX => Or.inr ⟨c, ?_, Or.inl ⟨rfl, rfl⟩⟩⟩
    rw [F.fo1] at hT hX
    refine F.quad_of_a hE hT (Or.inr ?_)
    rwa [per_mod F.per, per_mod1 F.per, F.a2, F.per, F.a0] at hX
  · refine ⟨_, F.moves2, fun c hT hX => Or.inr ⟨Circle.rmul F.g c, ?_, Or.inl ⟨rfl, (F.h0.rmul_mul F.hg c).symm⟩⟩⟩
    rw [F.fo2] at hT hX
    refine F.quad_of_b hE hT (Or.inl ?_)
    rwa [per_mod F.per, per_mod1 F.per, ← F.hg.crosses_iff, F.b1, F.b2] at hX
  · refine ⟨_, F.moves3, fun c hT hX => Or.inr ⟨Circle.rmul F.g c, ?_, Or.inr ⟨rfl, (F.h1.rmul_mul F.hg c).symm⟩⟩⟩
    rw [F.fo3] at hT hX
    refine F.quad_of_b hE hT (Or.inr ?_)
    rwa [per_mod F.per, per_mod1 F.per, F.per, ← F.hg.crosses_iff, F.b2, F.b0] at hX
  · refine ⟨_, F.moves4, fun c hT hX => Or.inr ⟨c, ?_, Or.inr ⟨rfl, rfl⟩⟩⟩
    rw [F.fo4] at hT hX
    refine F.quad_of_a hE hT (Or.inl ?_)
    rwa [per_mod F.per, per_mod1 F.per, F.a1, F.a2] at hX

theorem rz_ne : (F.z.1 - F.r.1) * (F.z.1 - F.r.1) + (F.z.2 - F.r.2) * (F.z.2 - F.r.2) ≠ 0 := by
  intro h
  have x1 : F.z.1 - F.r.1 = 0 := by nlinarith [mul_self_nonneg (F.z.1 - F.r.1), mul_self_nonneg (F.z.2 - F.r.2)]
  have x2 : F.z.2 - F.r.2 = 0 := by nlinarith [mul_self_nonneg (F.z.1 - F.r.1), mul_self_nonneg (F.z.2 - F.r.2)]
  have h4 := F.turns.2.2.2
  have : ccw (F.p - F.r) (F.z - F.p) = 0 := by
    simp only [ccw, Prod.fst_sub, Prod.snd_sub]
    linear_combination (F.p.1 - F.r.1) * x2 - (F.p.2 - F.r.2) * x1
  linarith

/-- Crossing the diagonal. -/
theorem diag01 {T : L → Circle K → Prop} {c : Circle K} {h : Similarity K} (hc : F.Quad T c) (hh : Pos h)
    (e1 : h.call (V' l0 d0) = V' l1 (d1 + 1)) (e2 : h.call (V' l0 (d0 + 1)) = V' l1 d1) : F.Inv T l1 (Circle.rmul h (Circle.rmul F.σ0 c)) := by
  refine Or.inr ⟨c, hc, Or.inr ⟨rfl, ?_⟩⟩
  rw [hh.rmul_mul F.h0]
  congr 1
  refine (hh.mul F.h0).ext F.h1 F.rz_ne ?_ ?_
  · rw [hh.mul_call F.h0, ← F.n1, e2, F.m0]
  · rw [hh.mul_call F.h0, ← F.n0, e1, F.m1]

theorem diag10 {T : L → Circle K → Prop} {c : Circle K} {h : Similarity K} (hc : F.Quad T c) (hh : Pos h)
    (e1 : h.call (V' l1 d1) = V' l0 (d0 + 1)) (e2 : h.call (V' l1 (d1 + 1)) = V' l0 d0) : F.Inv T l0 (Circle.rmul h (Circle.rmul F.σ1 c)) := by
  refine Or.inr ⟨c, hc, Or.inl ⟨rfl, ?_⟩⟩
  rw [hh.rmul_mul F.h1]
  congr 1
  refine (hh.mul F.h1).ext F.h0 F.rz_ne ?_ ?_
  · rw [hh.mul_call F.h1, ← F.m0, e1, F.n1]
  · rw [hh.mul_call F.h1, ← F.m1, e2, F.n0]

theorem inv_of_sees {s0 : L} {c0 : Circle K} (hE : Empty V G s0 c0) (n0 : s0 ≠ l0) (n1 : s0 ≠ l1) {x : L} {c : Circle K}
    (hS : Sees V' G' s0 c0 x c) : F.Inv (Sees V G s0 c0) x c := by
  induction hS with
  | start => exact Or.inl ⟨n0, n1, Sees.start⟩
  | @step c x y h _ hX hG hh e1 e2 ih =>
    rcases F.glue x y hG with ⟨rfl, rfl⟩ | ⟨rfl, rfl⟩ | ⟨hx, hy, hG'⟩
    · dsimp only at *
      rcases ih with ⟨k, -⟩ | ⟨c', hq, ⟨-, rfl⟩ | ⟨hl, rfl⟩⟩
      · exact absurd rfl k
      · exact F.diag01 hq hh e1 e2
      · have hd := F.fold hl
        have := F.diag10 hq hh (by rw [← hl, ← hd]; rwa [← hl, ← hd] at e1) (by rw [← hl, ← hd]; rwa [← hl, ← hd] at e2)
        exact hl ▸ this
    · dsimp only at *
      rcases ih with ⟨-, k, -⟩ | ⟨c', hq, ⟨hl, rfl⟩ | ⟨-, rfl⟩⟩
      · exact absurd rfl k
      · have hd := F.fold hl.symm
        have := F.diag01 hq hh (by rw [hl, ← hd]; rwa [hl, ← hd] at e1) (by rw [hl, ← hd]; rwa [hl, ← hd] at e2)
        exact hl ▸ this
      · exact F.diag10 hq hh e1 e2
    · obtain ⟨c', κ, hT, rfl, hκ⟩ := F.out ih hx hX
      obtain ⟨κ', hκ', henter⟩ := F.enter hE hy
      have hX' := hX
      rw [← hκ.start, ← hκ.stop, hκ.pos.crosses_iff] at hX'
      have hh' : Pos (κ'.inv.mul (h.mul κ)) := hκ'.pos.inv.mul (hh.mul hκ.pos)
      have m1 : (κ'.inv.mul (h.mul κ)).call (V (MSurf.flipOld l0 d0 l1 d1 x).1 (MSurf.flipOld l0 d0 l1 d1 x).2) =
          V (MSurf.flipOld l0 d0 l1 d1 y).1 ((MSurf.flipOld l0 d0 l1 d1 y).2 + 1) := by
        rw [hκ'.pos.inv.mul_call (hh.mul hκ.pos), hh.mul_call hκ.pos, hκ.start, e1, ← hκ'.stop, hκ'.pos.inv_call]
      have m2 : (κ'.inv.mul (h.mul κ)).call (V (MSurf.flipOld l0 d0 l1 d1 x).1 ((MSurf.flipOld l0 d0 l1 d1 x).2 + 1)) =
          V (MSurf.flipOld l0 d0 l1 d1 y).1 (MSurf.flipOld l0 d0 l1 d1 y).2 := by
        rw [hκ'.pos.inv.mul_call (hh.mul hκ.pos), hh.mul_call hκ.pos, hκ.stop, e2, ← hκ'.start, hκ'.pos.inv_call]
      have hS := Sees.step hT hX' hG' hh' m1 m2
      have := henter _ hS (by rw [← m1, ← m2, hh'.crosses_iff]; exact hX'.symm)
      rwa [← hκ'.pos.inv.rmul_mul (hh.mul hκ.pos), hκ'.pos.rmul_inv, ← hh.rmul_mul hκ.pos] at this

/-- A flip elsewhere does not put a vertex into an empty circle. -/
theorem empty {s0 : L} {c0 : Circle K} (hE : Empty V G s0 c0) (n0 : s0 ≠ l0) (n1 : s0 ≠ l1) : Empty V' G' s0 c0 := by
  intro l c hS i
  have hi : ∀ d, d < 3 → i % 3 = d ∨ i % 3 = (d + 1) % 3 ∨ i % 3 = (d + 2) % 3 := by intro d hd; omega
  rw [← per_mod F.per']
  rcases F.inv_of_sees hE n0 n1 hS with ⟨k0, k1, k2⟩ | ⟨c', hq, ⟨rfl, rfl⟩ | ⟨rfl, rfl⟩⟩
  · rw [F.other _ k0 k1]
    exact hE _ _ k2 _
  · rcases hi d0 F.lt0 with h | h | h <;> rw [h]
    · rw [F.n0, F.h0.in_iff]; exact hq.z
    · rw [per_mod F.per', F.n1, F.h0.in_iff]; exact hq.r
    · rw [per_mod F.per', F.n2, F.h0.in_iff]; exact hq.p
  · rcases hi d1 F.lt1 with h | h | h <;> rw [h]
    · rw [F.m0, F.h1.in_iff]; exact hq.r
    · rw [per_mod F.per', F.m1, F.h1.in_iff]; exact hq.z
    · rw [per_mod F.per', F.m2, F.h1.in_iff]; exact hq.q

end Flip
end Disk
end Flat
