import Verif.Model.HyperbolicPolygon
import Verif.Props.Hyperbolic

/-!
# The order of half spaces

Helper lemmas about `Verif.Model.HyperbolicPolygon`: the order of half spaces by the direction of their normal vectors, sorting, and half spaces that are trivially redundant.
-/

namespace Flat
namespace Hyp

variable {K : Type} [Field K] [LinearOrder K]

/-- The value of the equation of a geodesic at a point. -/
def Geo.val (g : Geo K) (z : K × K) : K := g.a + g.b * z.1 + g.c * z.2
/-- The determinant of two normal vectors. -/
def Geo.cross (g h : Geo K) : K := g.b * h.c - g.c * h.b
/-- The scalar product of two normal vectors. -/
def Geo.ndot (g h : Geo K) : K := g.b * h.b + g.c * h.c

/-- The normal vector is not zero. -/
def Geo.Proper (g : Geo K) : Prop := g.b ≠ 0 ∨ g.c ≠ 0
/-- The normal vector points to the left or down. -/
def Geo.Left (g : Geo K) : Prop := g.b < 0 ∨ (g.b = 0 ∧ g.c < 0)

/-- The second half space is a larger half space with the same normal direction. -/
def Geo.Inside (g h : Geo K) : Prop := ∃ s, 0 < s ∧ h.b = s * g.b ∧ h.c = s * g.c ∧ s * g.a < h.a

/-- The direction of the normal vector of the first half space comes first. -/
def DirLt (g h : Geo K) : Prop := (g.Left ∧ ¬h.Left) ∨ ((g.Left ↔ h.Left) ∧ 0 < g.cross h)

/-- Half spaces whose normals do not have the same direction. -/
def Distinct (g h : Geo K) : Prop := g.cross h = 0 → g.ndot h < 0

/-- Three normal directions in counterclockwise order. -/
def Tri (x a b : Geo K) : Prop :=
  (x.cross a ≤ 0 → x.cross b < 0) ∧ (a.cross b ≤ 0 → a.cross x < 0) ∧ (b.cross x ≤ 0 → b.cross a < 0)

theorem normalPointsLeft_iff (g : Geo K) : normalPointsLeft g.b g.c = true ↔ g.Left := by
  simp [normalPointsLeft, Geo.Left]

variable [IsStrictOrderedRing K]

omit [LinearOrder K] [IsStrictOrderedRing K] in
theorem cross_swap (g h : Geo K) : g.cross h = -h.cross g := by simp only [Geo.cross]; ring
omit [LinearOrder K] [IsStrictOrderedRing K] in
theorem ndot_swap (g h : Geo K) : g.ndot h = h.ndot g := by simp only [Geo.ndot]; ring

theorem Geo.Valid.proper {g : Geo K} (hg : g.Valid) : g.Proper := by
  by_contra h
  simp only [Geo.Proper, not_or, not_not] at h
  simp only [Geo.Valid, h.1, h.2, mul_zero, add_zero] at hg
  nlinarith [mul_self_nonneg g.a]

theorem Geo.Proper.norm {g : Geo K} (hg : g.Proper) : 0 < g.b * g.b + g.c * g.c := by
  rcases hg with h | h
  · nlinarith [mul_self_pos.mpr h, mul_self_nonneg g.c]
  · nlinarith [mul_self_pos.mpr h, mul_self_nonneg g.b]

/-- Parallel normals are multiples of each other. -/
theorem parallel_smul {g h : Geo K} (hg : g.Proper) (h0 : g.cross h = 0) :
    h.b = (g.ndot h / (g.b * g.b + g.c * g.c)) * g.b ∧ h.c = (g.ndot h / (g.b * g.b + g.c * g.c)) * g.c := by
  have hn := hg.norm
  simp only [Geo.cross] at h0
  simp only [Geo.ndot]
  constructor
  · rw [div_mul_eq_mul_div, eq_div_iff hn.ne']; linear_combination -g.c * h0
  · rw [div_mul_eq_mul_div, eq_div_iff hn.ne']; linear_combination g.b * h0

theorem ndot_ne {g h : Geo K} (hg : g.Proper) (hh : h.Proper) (h0 : g.cross h = 0) : g.ndot h ≠ 0 := by
  intro hd
  obtain ⟨h1, h2⟩ := parallel_smul hg h0
  rw [hd, zero_div, zero_mul] at h1 h2
  exact hh.elim (· h1) (· h2)

theorem sgn_mul_lt {x y : K} : sgn x * sgn y < 0 ↔ x * y < 0 := by
  rcases lt_trichotomy x 0 with hx | hx | hx <;> rcases lt_trichotomy y 0 with hy | hy | hy <;>
    simp [sgn_pos, sgn_neg, sgn_zero, *, mul_pos_of_neg_of_neg, mul_neg_of_neg_of_pos, mul_neg_of_pos_of_neg, mul_pos, le_of_lt]

theorem sgn_mul_zero {x y : K} : sgn x * sgn y = 0 ↔ x * y = 0 := by
  rw [mul_eq_zero, mul_eq_zero, sgn_eq_zero_iff, sgn_eq_zero_iff]

/-- Directions on the same side: parallel means a positive multiple. -/
theorem same_side_smul {g h : Geo K} (hg : g.Proper) (hh : h.Proper) (hl : g.Left ↔ h.Left) (h0 : g.cross h = 0) :
    ∃ s, 0 < s ∧ h.b = s * g.b ∧ h.c = s * g.c := by
  obtain ⟨h1, h2⟩ := parallel_smul hg h0
  refine ⟨_, ?_, h1, h2⟩
  generalize g.ndot h / (g.b * g.b + g.c * g.c) = s at h1 h2
  by_contra hs
  push Not at hs
  rcases hs.lt_or_eq with hs | hs
  · simp only [Geo.Left] at hl
    rw [h1, h2] at hl
    rcases lt_trichotomy g.b 0 with hb | hb | hb
    · have := hl.1 (.inl hb)
      rcases this with h | ⟨h, -⟩
      · nlinarith
      · nlinarith
    · rcases lt_trichotomy g.c 0 with hc | hc | hc
      · have := hl.1 (.inr ⟨hb, hc⟩)
        rcases this with h | ⟨-, h⟩
        · rw [hb] at h; simp at h
        · nlinarith
      · exact hg.elim (· hb) (· hc)
      · have := hl.2 (.inr ⟨by rw [hb]; ring, by nlinarith⟩)
        rcases this with h | ⟨-, h⟩
        · rw [hb] at h; simp at h
        · exact absurd h hc.not_gt
    · have := hl.2 (.inl (by nlinarith))
      rcases this with h | ⟨h, -⟩
      · exact absurd h hb.not_gt
      · exact absurd h hb.ne'
  · rw [hs, zero_mul] at h1 h2
    exact hh.elim (· h1) (· h2)

theorem ltParallel_iff {g h : Geo K} (hg : g.Proper) {s : K} (hs : 0 < s) (hb : h.b = s * g.b) (hc : h.c = s * g.c) :
    ltParallel g h = true ↔ s * g.a < h.a := by
  unfold ltParallel
  rw [hb, hc]
  by_cases h0 : g.c = 0
  · have hb0 : g.b ≠ 0 := hg.elim id (fun h => absurd h0 h)
    rw [if_neg (by simp [h0]), decide_eq_true_iff, sgn_mul_lt]
    have : g.b * (g.a * (s * g.b) - h.a * g.b) = (g.b * g.b) * (s * g.a - h.a) := by ring
    rw [this]
    have hp := mul_self_pos.mpr hb0
    constructor
    · intro h; by_contra hn; push Not at hn; nlinarith
    · intro h; nlinarith
  · rw [if_pos (by simp [h0, hs.ne']), decide_eq_true_iff, sgn_mul_lt]
    have : g.c * (g.a * (s * g.c) - h.a * g.c) = (g.c * g.c) * (s * g.a - h.a) := by ring
    rw [this]
    have hp := mul_self_pos.mpr h0
    constructor
    · intro h; by_contra hn; push Not at hn; nlinarith
    · intro h; nlinarith

theorem not_cross_of_smul {g h : Geo K} {s : K} (hb : h.b = s * g.b) (hc : h.c = s * g.c) : g.cross h = 0 := by
  simp only [Geo.cross, hb, hc]; ring

theorem inside_iff {g h : Geo K} (hg : g.Proper) (hh : h.Proper) (hl : g.Left ↔ h.Left) (h0 : g.cross h = 0) :
    ltParallel g h = true ↔ g.Inside h := by
  obtain ⟨s, hs, hb, hc⟩ := same_side_smul hg hh hl h0
  rw [ltParallel_iff hg hs hb hc]
  constructor
  · intro h; exact ⟨s, hs, hb, hc, h⟩
  · rintro ⟨t, ht, hb', hc', h⟩
    have : s = t := by
      rcases hg with h | h
      · exact mul_right_cancel₀ h (hb ▸ hb')
      · exact mul_right_cancel₀ h (hc ▸ hc')
    rwa [this]

/-- The order of half spaces: by the direction of the normal, and parallel ones by inclusion. -/
theorem halfSpaceLt_iff {g h : Geo K} (hg : g.Proper) (hh : h.Proper) :
    halfSpaceLt g h = true ↔ DirLt g h ∨ ((g.Left ↔ h.Left) ∧ g.Inside h) := by
  have hin : g.Inside h → g.cross h = 0 := fun ⟨s, _, hb, hc, _⟩ => not_cross_of_smul hb hc
  unfold halfSpaceLt
  by_cases hl : g.Left ↔ h.Left
  · rw [if_neg (by
      rw [ne_eq, not_not, Bool.eq_iff_iff, normalPointsLeft_iff, normalPointsLeft_iff]; exact hl)]
    have hD : DirLt g h ↔ 0 < g.cross h := by
      refine ⟨fun h' => ?_, fun h' => .inr ⟨hl, h'⟩⟩
      rcases h' with ⟨a, b⟩ | ⟨-, h'⟩
      · exact absurd (hl.1 a) b
      · exact h'
    rw [hD]
    by_cases hb : g.b * h.b = 0
    · rw [if_pos hb]
      by_cases hbb : g.b = h.b
      · have hg0 : g.b = 0 := by rw [← hbb] at hb; exact mul_self_eq_zero.mp hb
        have hh0 : h.b = 0 := hbb ▸ hg0
        have hc : g.cross h = 0 := by simp [Geo.cross, hg0, hh0]
        rw [if_pos hbb, inside_iff hg hh hl hc, hc]
        simp [hl]
      · rw [if_neg hbb, decide_eq_true_iff]
        rcases mul_eq_zero.mp hb with h0 | h0
        · have hh0 : h.b ≠ 0 := fun h => hbb (h0.trans h.symm)
          have hc0 : g.c ≠ 0 := hg.elim (fun h => absurd h0 h) id
          have hcr : g.cross h = -(g.c * h.b) := by simp [Geo.cross, h0]
          have hne : g.cross h ≠ 0 := by rw [hcr]; simp [hc0, hh0]
          have : ¬0 < g.cross h := by
            rw [hcr]
            simp only [Geo.Left, h0, lt_irrefl, false_or, true_and] at hl
            rcases lt_or_gt_of_ne hc0 with hc | hc
            · rcases hl.1 hc with h | ⟨h, -⟩
              · nlinarith [mul_pos_of_neg_of_neg hc h]
              · exact absurd h hh0
            · rcases lt_or_gt_of_ne hh0 with h | h
              · exact absurd (hl.2 (.inl h)) hc.not_gt
              · nlinarith [mul_pos hc h]
          constructor
          · intro h; exact absurd h hh0
          · rintro (h | ⟨-, h⟩)
            · exact absurd h this
            · exact absurd (hin h) hne
        · have hg0 : g.b ≠ 0 := fun h => hbb (h.trans h0.symm)
          have hc0 : h.c ≠ 0 := hh.elim (fun h => absurd h0 h) id
          have hcr : g.cross h = g.b * h.c := by simp [Geo.cross, h0]
          refine iff_of_true h0 (.inl ?_)
          rw [hcr]
          simp only [Geo.Left, h0, lt_irrefl, false_or, true_and] at hl
          rcases lt_or_gt_of_ne hc0 with hc | hc
          · rcases hl.2 hc with h | ⟨h, -⟩
            · exact mul_pos_of_neg_of_neg h hc
            · exact absurd h hg0
          · rcases lt_or_gt_of_ne hg0 with h | h
            · exact absurd (hl.1 (.inl h)) hc.not_gt
            · exact mul_pos h hc
    · rw [if_neg hb]
      have hpos : 0 < g.b * h.b := by
        rcases lt_or_gt_of_ne hb with h | h
        · exfalso
          rcases mul_neg_iff.mp h with ⟨h1, h2⟩ | ⟨h1, h2⟩
          · rcases hl.2 (.inl h2) with h | ⟨h, -⟩
            · exact absurd h h1.not_gt
            · exact absurd h h1.ne'
          · rcases hl.1 (.inl h1) with h | ⟨h, -⟩
            · exact absurd h h2.not_gt
            · exact absurd h h2.ne'
        · exact h
      have hcr : g.c * h.b - h.c * g.b = -g.cross h := by simp only [Geo.cross]; ring
      rw [hcr]
      by_cases hc : g.cross h = 0
      · rw [if_pos (by rw [hc]; simp [sgn_zero]), inside_iff hg hh hl hc, hc]
        simp [hl]
      · rw [if_neg (by rw [sgn_mul_zero]; simp [hpos.ne', hc]), decide_eq_true_iff, sgn_mul_lt]
        constructor
        · intro h; left; by_contra hn; push Not at hn; nlinarith
        · rintro (h | ⟨-, h⟩)
          · nlinarith
          · exact absurd (hin h) hc
  · rw [if_pos (by
      rw [ne_eq, Bool.eq_iff_iff, normalPointsLeft_iff, normalPointsLeft_iff]; exact hl), normalPointsLeft_iff]
    constructor
    · intro h'; exact .inl (.inl ⟨h', fun h2 => hl (iff_of_true h' h2)⟩)
    · rintro ((⟨h', -⟩ | ⟨h', -⟩) | ⟨h', -⟩)
      · exact h'
      · exact absurd h' hl
      · exact absurd h' hl

theorem DirLt.distinct {g h : Geo K} (hg : g.Proper) (hh : h.Proper) (h1 : DirLt g h) : Distinct g h := by
  intro h0
  rcases h1 with ⟨hl, hr⟩ | ⟨-, h⟩
  · obtain ⟨hb, hc⟩ := parallel_smul hg h0
    by_contra hn
    push Not at hn
    have hp : 0 < g.ndot h / (g.b * g.b + g.c * g.c) := div_pos (lt_of_le_of_ne hn (ndot_ne hg hh h0).symm) hg.norm
    generalize g.ndot h / (g.b * g.b + g.c * g.c) = s at hb hc hp
    apply hr
    rcases hl with h | ⟨h, h'⟩
    · left; rw [hb]; nlinarith
    · right; rw [hb, hc, h]; exact ⟨by ring, by nlinarith⟩
  · exact absurd h0 h.ne'

/-- On the same side, the order by determinant is transitive. -/
theorem cross_trans_left {g h k : Geo K} (hg : g.Left) (hh : h.Left) (hk : k.Left) (h1 : 0 < g.cross h) (h2 : 0 < h.cross k) : 0 < g.cross k := by
  simp only [Geo.cross, Geo.Left] at *
  have e1 : h.b * (g.b * k.c - g.c * k.b) = g.b * (h.b * k.c - h.c * k.b) + k.b * (g.b * h.c - g.c * h.b) := by ring
  rcases hh with hb | ⟨hb, hc⟩
  · have hgk : g.b ≤ 0 := by rcases hg with h | ⟨h, -⟩ <;> linarith
    have hkk : k.b ≤ 0 := by rcases hk with h | ⟨h, -⟩ <;> linarith
    rcases hg with h | ⟨h, h'⟩
    · nlinarith [mul_neg_of_neg_of_pos h h2, mul_nonneg (neg_nonneg.mpr hkk) h1.le]
    · rw [h] at h1; nlinarith [mul_pos_of_neg_of_neg h' hb]
  · rw [hb] at h2
    rcases hk with h | ⟨h, -⟩
    · nlinarith [mul_pos_of_neg_of_neg hc h]
    · rw [h] at h2; simp at h2

theorem left_neg {g : Geo K} (hp : g.Proper) (hg : ¬g.Left) : Geo.Left g.neg := by
  simp only [Geo.Left, Geo.neg, not_or, not_and, not_lt] at *
  rcases hg.1.lt_or_eq with h | h
  · left; linarith
  · have := hg.2 h.symm
    right
    refine ⟨by linarith, ?_⟩
    have hc : g.c ≠ 0 := hp.elim (fun h' => absurd h.symm h') id
    have : 0 < g.c := lt_of_le_of_ne this hc.symm
    linarith

omit [LinearOrder K] [IsStrictOrderedRing K] in
theorem cross_neg_neg (g h : Geo K) : Geo.cross g.neg h.neg = g.cross h := by simp only [Geo.cross, Geo.neg]; ring
omit [LinearOrder K] [IsStrictOrderedRing K] in
theorem cross_neg_right (g h : Geo K) : g.cross h.neg = -g.cross h := by simp only [Geo.cross, Geo.neg]; ring
omit [LinearOrder K] [IsStrictOrderedRing K] in
theorem cross_neg_left (g h : Geo K) : Geo.cross g.neg h = -g.cross h := by simp only [Geo.cross, Geo.neg]; ring

theorem cross_trans {g h k : Geo K} (pg : g.Proper) (ph : h.Proper) (pk : k.Proper) (l1 : g.Left ↔ h.Left) (l2 : h.Left ↔ k.Left) (h1 : 0 < g.cross h) (h2 : 0 < h.cross k) : 0 < g.cross k := by
  by_cases hl : h.Left
  · exact cross_trans_left (l1.2 hl) hl (l2.1 hl) h1 h2
  · rw [← cross_neg_neg]
    exact cross_trans_left (left_neg pg (fun h => hl (l1.1 h))) (left_neg ph hl) (left_neg pk (fun h => hl (l2.2 h))) (by rwa [cross_neg_neg]) (by rwa [cross_neg_neg])

theorem DirLt.trans {g h k : Geo K} (pg : g.Proper) (ph : h.Proper) (pk : k.Proper) (h1 : DirLt g h) (h2 : DirLt h k) : DirLt g k := by
  rcases h1 with ⟨a, b⟩ | ⟨a, b⟩ <;> rcases h2 with ⟨c, d⟩ | ⟨c, d⟩
  · exact absurd c b
  · exact .inl ⟨a, fun h => b (c.2 h)⟩
  · exact .inl ⟨a.2 c, d⟩
  · exact .inr ⟨a.trans c, cross_trans pg ph pk a c b d⟩

/-- Three directions in the order of the half spaces are in counterclockwise order. -/
theorem DirLt.tri {x a b : Geo K} (px : x.Proper) (pa : a.Proper) (pb : b.Proper) (h1 : DirLt x a) (h2 : DirLt a b) : Tri x a b := by
  have d1 := h1.distinct px pa
  have d2 := h2.distinct pa pb
  have h3 := h1.trans px pa pb h2
  have d3 := h3.distinct px pb
  unfold Tri
  rcases h1 with ⟨lx, la⟩ | ⟨lxa, c1⟩
  · rcases h2 with ⟨la', -⟩ | ⟨lab, c2⟩
    · exact absurd la' la
    · have lb : ¬b.Left := fun h => la (lab.2 h)
      have nx : ∀ y : Geo K, y.Proper → ¬y.Left → x.cross y ≤ 0 → Distinct x y → 0 ≤ Geo.cross x y.neg := by
        intro y _ _ h _; rw [cross_neg_right]; linarith
      refine ⟨fun h => ?_, fun h => absurd c2 h.not_gt, fun h => by rw [cross_swap]; linarith⟩
      have na := left_neg pa la
      have nb := left_neg pb lb
      have c2' : 0 < Geo.cross a.neg b.neg := by rwa [cross_neg_neg]
      rcases h.lt_or_eq with h | h
      · have : 0 < Geo.cross x a.neg := by rw [cross_neg_right]; linarith
        have := cross_trans_left lx na nb this c2'
        rw [cross_neg_right] at this; linarith
      · obtain ⟨hb, hc⟩ := parallel_smul px h
        have hs : x.ndot a / (x.b * x.b + x.c * x.c) < 0 := div_neg_of_neg_of_pos (d1 h) px.norm
        generalize x.ndot a / (x.b * x.b + x.c * x.c) = s at hb hc hs
        have : a.cross b = s * x.cross b := by simp only [Geo.cross, hb, hc]; ring
        rw [this] at c2
        by_contra hn; push Not at hn; nlinarith
  · rcases h2 with ⟨la, lb⟩ | ⟨lab, c2⟩
    · have lx := lxa.2 la
      have nb := left_neg pb lb
      refine ⟨fun h => absurd c1 h.not_gt, fun h => by rw [cross_swap]; linarith, fun h => ?_⟩
      rcases h.lt_or_eq with h | h
      · have hxb : 0 < x.cross b := by rw [cross_swap]; linarith
        by_contra hn
        push Not at hn
        have hab : a.cross b ≤ 0 := by rw [cross_swap]; linarith
        rcases hab.lt_or_eq with hab | hab
        · have h5 : 0 < a.cross b.neg := by rw [cross_neg_right]; linarith
          have := cross_trans_left lx la nb c1 h5
          rw [cross_neg_right] at this; linarith
        · obtain ⟨hb, hc⟩ := parallel_smul pa hab
          have hs : a.ndot b / (a.b * a.b + a.c * a.c) < 0 := div_neg_of_neg_of_pos (d2 hab) pa.norm
          generalize a.ndot b / (a.b * a.b + a.c * a.c) = s at hb hc hs
          have : x.cross b = s * x.cross a := by simp only [Geo.cross, hb, hc]; ring
          rw [this] at hxb
          nlinarith
      · have h0 : x.cross b = 0 := by rw [cross_swap, h, neg_zero]
        obtain ⟨hb, hc⟩ := parallel_smul px h0
        have hs : x.ndot b / (x.b * x.b + x.c * x.c) < 0 := div_neg_of_neg_of_pos (d3 h0) px.norm
        generalize x.ndot b / (x.b * x.b + x.c * x.c) = s at hb hc hs
        have : b.cross a = s * x.cross a := by simp only [Geo.cross, hb, hc]; ring
        rw [this]; nlinarith
    · have c3 := cross_trans px pa pb lxa lab c1 c2
      exact ⟨fun h => absurd c1 h.not_gt, fun h => absurd c2 h.not_gt, fun _ => by rw [cross_swap]; linarith⟩

theorem Distinct.symm {g h : Geo K} (hd : Distinct g h) : Distinct h g := by
  intro h0
  rw [ndot_swap]
  exact hd (by rw [cross_swap, h0, neg_zero])

omit [IsStrictOrderedRing K] in
theorem Tri.rotate {x a b : Geo K} (h : Tri x a b) : Tri a b x := ⟨h.2.1, h.2.2, h.1⟩

theorem Geo.Inside.trans {g h k : Geo K} (h1 : g.Inside h) (h2 : h.Inside k) : g.Inside k := by
  obtain ⟨s, hs, a, b, c⟩ := h1
  obtain ⟨t, ht, a', b', c'⟩ := h2
  exact ⟨t * s, mul_pos ht hs, by rw [a', a]; ring, by rw [b', b]; ring, by nlinarith⟩

theorem halfSpaceLt_trans {g h k : Geo K} (pg : g.Proper) (ph : h.Proper) (pk : k.Proper) (h1 : halfSpaceLt g h = true) (h2 : halfSpaceLt h k = true) : halfSpaceLt g k = true := by
  rw [halfSpaceLt_iff pg ph] at h1
  rw [halfSpaceLt_iff ph pk] at h2
  rw [halfSpaceLt_iff pg pk]
  have key : ∀ {x y : Geo K} {s : K}, 0 < s → y.b = s * x.b → y.c = s * x.c → ∀ z : Geo K, (0 < y.cross z ↔ 0 < x.cross z) ∧ (0 < z.cross y ↔ 0 < z.cross x) := by
    intro x y s hs hb hc z
    have e1 : y.cross z = s * x.cross z := by simp only [Geo.cross, hb, hc]; ring
    have e2 : z.cross y = s * z.cross x := by simp only [Geo.cross, hb, hc]; ring
    rw [e1, e2]
    exact ⟨mul_pos_iff_of_pos_left hs, mul_pos_iff_of_pos_left hs⟩
  rcases h1 with h1 | ⟨l1, i1⟩ <;> rcases h2 with h2 | ⟨l2, i2⟩
  · exact .inl (h1.trans pg ph pk h2)
  · left
    obtain ⟨s, hs, hb, hc, -⟩ := i2
    rcases h1 with ⟨a, b⟩ | ⟨a, b⟩
    · exact .inl ⟨a, fun h => b (l2.2 h)⟩
    · exact .inr ⟨a.trans l2, (key hs hb hc g).2.2 b⟩
  · left
    obtain ⟨s, hs, hb, hc, -⟩ := i1
    rcases h2 with ⟨a, b⟩ | ⟨a, b⟩
    · exact .inl ⟨l1.2 a, b⟩
    · exact .inr ⟨l1.trans a, (key hs hb hc k).1.1 b⟩
  · exact .inr ⟨l1.trans l2, i1.trans i2⟩

/-- Half spaces that are not ordered are equal. -/
theorem halfSpaceLt_total {g h : Geo K} (pg : g.Proper) (ph : h.Proper) (h1 : ¬halfSpaceLt g h = true) (h2 : ¬halfSpaceLt h g = true) : ∃ s, 0 < s ∧ h = g.smul s := by
  rw [halfSpaceLt_iff pg ph] at h1
  rw [halfSpaceLt_iff ph pg] at h2
  simp only [DirLt, not_or, not_and] at h1 h2
  have hl : g.Left ↔ h.Left := ⟨fun h => not_not.mp (h1.1.1 h), fun h => not_not.mp (h2.1.1 h)⟩
  have c1 := h1.1.2 hl
  have c2 := h2.1.2 hl.symm
  rw [cross_swap] at c2
  have h0 : g.cross h = 0 := by linarith
  obtain ⟨s, hs, hb, hc⟩ := same_side_smul pg ph hl h0
  refine ⟨s, hs, Geo.ext ?_ hb hc⟩
  have n1 := h1.2 hl
  have n2 := h2.2 hl.symm
  by_contra hne
  rcases lt_or_gt_of_ne hne with h | h
  · apply n2
    refine ⟨s⁻¹, inv_pos.mpr hs, ?_, ?_, ?_⟩
    · rw [hb]; field_simp
    · rw [hc]; field_simp
    · rw [inv_mul_lt_iff₀ hs]; exact h
  · exact n1 ⟨s, hs, hb, hc, h⟩

end Hyp
end Flat
