import Verif.Props.Lazy

/-!
# C34: minimal covers
-/

namespace Flat
namespace RSurf
variable {L K : Type} [Field K] [LinearOrder K] [IsStrictOrderedRing K]

/-- The base surface, two glued edges and their edge matrices. -/
theorem edgeMatrix_ok {S : RSurf L K} {l l' : L} {e e' : ℕ} {p p' : Poly K} (ho : S.opp l e = .ok (some (l', e')))
    (hp : S.polygon l = .ok p) (hp' : S.polygon l' = .ok p') (hv : p.edge e ≠ 0) :
    ∃ m, S.edgeMatrix l e = .ok m ∧ m.IsRotScale ∧ m.mulVec (p.edge e) = -p'.edge e' := by
  obtain ⟨m, h1, h2, h3, -⟩ := C03_similarityFromVectors (p.edge e) (-p'.edge e') hv
  refine ⟨m, ?_, h2, h3⟩
  unfold edgeMatrix
  simp only [hp, opp!_ok ho, hp', bind, Except.bind, MSurf.simFromVectors, h1]

theorem labelMatrix_det (l : L × K × K) : (labelMatrix l).det = l.2.1 * l.2.1 + l.2.2 * l.2.2 := by
  simp [labelMatrix, Mat2.det]

theorem labelMatrix_det_pos {l : L × K × K} (h : (l.2.1, l.2.2) ≠ 0) : 0 < (labelMatrix l).det := by
  rw [labelMatrix_det]
  exact normSq_pos h

/-- Two rotation-scalings such that the product fixes a vector are inverse to each other. -/
theorem rotScale_inverse {m m' : Mat2 K} (h : m.IsRotScale) (h' : m'.IsRotScale) {u : Vec K} (hu : u ≠ 0)
    (huu : m'.mulVec (m.mulVec u) = u) : m.a * m'.a - m.c * m'.c = 1 ∧ m.a * m'.c + m.c * m'.a = 0 := by
  obtain ⟨a, b, c, d⟩ := m
  obtain ⟨a', b', c', d'⟩ := m'
  obtain ⟨h1, h2⟩ := h
  obtain ⟨h1', h2'⟩ := h'
  simp only at h1 h2 h1' h2'
  subst h1 h2 h1' h2'
  have hn := (normSq_pos hu).ne'
  obtain ⟨x, y⟩ := u
  simp only [normSq] at hn
  simp only [Mat2.mulVec, Prod.mk.injEq] at huu
  obtain ⟨e1, e2⟩ := huu
  constructor
  · apply mul_right_cancel₀ hn
    linear_combination x * e1 + y * e2
  · apply mul_right_cancel₀ hn
    linear_combination x * e2 - y * e1

theorem cover_polygon {S : RSurf L K} {l : L × K × K} {p : Poly K} (hp : S.polygon l.1 = .ok p) (hv : p.Valid)
    (hl : (l.2.1, l.2.2) ≠ 0) : ∃ q, (do mulE (labelMatrix l) (← S.polygon l.1)) = .ok q ∧ q.Valid ∧ q.length = p.length ∧
      (∀ e, q.vertex e = (labelMatrix l).mulVec (p.vertex e)) ∧ ∀ e, q.edge e = (labelMatrix l).mulVec (p.edge e) := by
  have hd := labelMatrix_det_pos hl
  obtain ⟨q, h1, h2⟩ := mulE_ok (p := p) hd.ne'
  obtain ⟨k1, _, k2, _⟩ := Poly.C10_vertices _ p q hv.ne_nil h2
  refine ⟨q, ?_, Poly.C10_mul_valid hv h2, k1, k2 hd, fun e => ?_⟩
  · simp only [hp, bind, Except.bind, h1]
  · unfold Poly.edge
    rw [k2 hd, k2 hd, Poly.mulVec_sub]

/-- What a glued edge of the translation cover looks like. -/
theorem translationCover_opp {S : RSurf L K} {valid : L → Prop} (hS : S.Closed valid) {l : L × K × K} {p : Poly K} {e : ℕ}
    (hl : valid l.1) (hp : S.polygon l.1 = .ok p) (he : e < p.length) (hz : (l.2.1, l.2.2) ≠ 0) :
    ∃ (l' : L) (e' : ℕ) (p' : Poly K) (m : Mat2 K), S.opp l.1 e = .ok (some (l', e')) ∧ valid l' ∧ S.polygon l' = .ok p' ∧ e' < p'.length ∧
      S.opp l' e' = .ok (some (l.1, e)) ∧ m.IsRotScale ∧ m.mulVec (p'.edge e') = -p.edge e ∧
      (translationCover S).opp l e = .ok (some ((l', l.2.1 * m.a - l.2.2 * m.c, l.2.2 * m.a + l.2.1 * m.c), e')) ∧
      (l.2.1 * m.a - l.2.2 * m.c, l.2.2 * m.a + l.2.1 * m.c) ≠ (0 : Vec K) ∧
      ∀ v, (labelMatrix (l', l.2.1 * m.a - l.2.2 * m.c, l.2.2 * m.a + l.2.1 * m.c)).mulVec v = (labelMatrix l).mulVec (m.mulVec v) := by
  obtain ⟨l', e', p', ho, hl', hp', he', hback⟩ := hS.glue _ p e hl hp he
  obtain ⟨p0, hp0, hv⟩ := hS.poly _ hl
  obtain ⟨p1, hp1, hv'⟩ := hS.poly _ hl'
  rw [hp] at hp0
  rw [hp'] at hp1
  injection hp0 with hp0
  injection hp1 with hp1
  subst hp0 hp1
  obtain ⟨m, h1, h2, h3⟩ := edgeMatrix_ok hback hp' hp (hv'.edge_ne e')
  have hmul : ∀ v, (labelMatrix (l', l.2.1 * m.a - l.2.2 * m.c, l.2.2 * m.a + l.2.1 * m.c)).mulVec v =
      (labelMatrix l).mulVec (m.mulVec v) := by
    intro v
    obtain ⟨k1, k2⟩ := h2
    ext <;> simp only [labelMatrix, Mat2.mulVec, k1, k2] <;> ring
  refine ⟨l', e', p', m, ho, hl', hp', he', hback, h2, h3, ?_, fun h0 => ?_, hmul⟩
  · simp only [translationCover, opp!_ok ho, h1, bind, Except.bind, pure, Except.pure]
  · have := hmul (p'.edge e')
    rw [h3, Mat2.mulVec_neg] at this
    simp only [Prod.mk_eq_zero] at h0
    rw [show (labelMatrix (l', l.2.1 * m.a - l.2.2 * m.c, l.2.2 * m.a + l.2.1 * m.c)).mulVec (p'.edge e') = 0 by
      ext <;> simp [labelMatrix, Mat2.mulVec, h0.1, h0.2]] at this
    have h4 := neg_eq_zero.1 this.symm
    exact hv.edge_ne e (Mat2.mulVec_inj (labelMatrix_det_pos hz).ne' (by rw [h4, Mat2.mulVec_zero]))

/-- **C34.** The minimal translation cover of a closed similarity surface is a closed surface, its polygons are the images of
the polygons of the surface under the matrix in the label, crossing an edge lifts crossing the edge of the surface, and glued
edges are translates of each other. -/
theorem C34_translation_cover {S : RSurf L K} {valid : L → Prop} (hS : S.Closed valid) :
    (translationCover S).Closed (fun l => valid l.1 ∧ (l.2.1, l.2.2) ≠ 0) ∧
    (translationCover S).GluedBy (fun l => valid l.1 ∧ (l.2.1, l.2.2) ≠ 0) (fun u v => v = -u) ∧
    ∀ l p e, valid l.1 → (l.2.1, l.2.2) ≠ (0 : Vec K) → S.polygon l.1 = .ok p → e < p.length →
      ∃ l' e' a b, S.opp l.1 e = .ok (some (l', e')) ∧ (translationCover S).opp l e = .ok (some ((l', a, b), e')) := by
  refine ⟨⟨?_, ?_⟩, ?_, ?_⟩
  · rintro l ⟨hl, hz⟩
    obtain ⟨p, hp, hv⟩ := hS.poly _ hl
    obtain ⟨q, h1, h2, _⟩ := cover_polygon hp hv hz
    exact ⟨q, h1, h2⟩
  · rintro l q e ⟨hl, hz⟩ hq he
    obtain ⟨p, hp, hv⟩ := hS.poly _ hl
    obtain ⟨q0, h1, h2, h3, h4, h5⟩ := cover_polygon hp hv hz
    have : q0 = q := by
      have h6 : (translationCover S).polygon l = .ok q0 := h1
      rw [hq] at h6; injection h6 with h6; exact h6.symm
    subst this
    rw [h3] at he
    obtain ⟨l', e', p', m, ho, hl', hp', he', hback, hm, hme, hopp, hz', -⟩ := translationCover_opp hS hl hp he hz
    obtain ⟨p1, hp1, hv'⟩ := hS.poly _ hl'
    rw [hp'] at hp1
    injection hp1 with hp1
    subst hp1
    obtain ⟨q', k1, k2, k3, k4, k5⟩ := cover_polygon (l := (l', l.2.1 * m.a - l.2.2 * m.c, l.2.2 * m.a + l.2.1 * m.c)) hp' hv' hz'
    obtain ⟨l'', e'', p'', m', ho2, -, hp2, -, -, hm', hme', hopp', -⟩ := translationCover_opp
      (l := (l', l.2.1 * m.a - l.2.2 * m.c, l.2.2 * m.a + l.2.1 * m.c)) hS hl' hp' he' hz'
    dsimp only at ho2
    rw [hback] at ho2
    simp only [Except.ok.injEq, Option.some.injEq, Prod.mk.injEq] at ho2
    obtain ⟨rfl, rfl⟩ := ho2
    rw [hp] at hp2
    injection hp2 with hp2
    subst hp2
    refine ⟨_, e', q', hopp, ⟨hl', hz'⟩, k1, by rw [k3]; exact he', ?_⟩
    rw [hopp']
    have := rotScale_inverse hm' hm (hv.edge_ne e) (by rw [hme', Mat2.mulVec_neg, hme, neg_neg])
    obtain ⟨r1, r2⟩ := this
    simp only [Except.ok.injEq, Option.some.injEq, Prod.mk.injEq, and_true]
    ext
    · rfl
    · linear_combination l.2.1 * r1 - l.2.2 * r2
    · linear_combination l.2.2 * r1 + l.2.1 * r2
  · rintro l e l2 e2 q q2 ⟨hl, hz⟩ hq he ho2 hq2
    obtain ⟨p, hp, hv⟩ := hS.poly _ hl
    obtain ⟨q0, h1, h2, h3, h4, h5⟩ := cover_polygon hp hv hz
    have : q0 = q := by
      have h6 : (translationCover S).polygon l = .ok q0 := h1
      rw [hq] at h6; injection h6 with h6; exact h6.symm
    subst this
    rw [h3] at he
    obtain ⟨l', e', p', m, ho, hl', hp', he', hback, hm, hme, hopp, hz', hmul⟩ := translationCover_opp hS hl hp he hz
    rw [hopp] at ho2
    simp only [Except.ok.injEq, Option.some.injEq, Prod.mk.injEq] at ho2
    obtain ⟨rfl, rfl⟩ := ho2
    obtain ⟨p1, hp1, hv'⟩ := hS.poly _ hl'
    rw [hp'] at hp1
    injection hp1 with hp1
    subst hp1
    obtain ⟨q', k1, k2, k3, k4, k5⟩ := cover_polygon (l := (l', l.2.1 * m.a - l.2.2 * m.c, l.2.2 * m.a + l.2.1 * m.c)) hp' hv' hz'
    have : q' = q2 := by
      have h6 : (translationCover S).polygon (l', l.2.1 * m.a - l.2.2 * m.c, l.2.2 * m.a + l.2.1 * m.c) = .ok q' := k1
      rw [hq2] at h6; injection h6 with h6; exact h6.symm
    subst this
    rw [k5, h5, hmul, hme, Mat2.mulVec_neg]
  · intro l p e hl hz hp he
    obtain ⟨l', e', p', m, ho, -, -, -, -, -, -, hopp, -⟩ := translationCover_opp hS hl hp he hz
    exact ⟨l', e', _, _, ho, hopp⟩

example : (translationCover (ofMSurf MSurf.exTorus)).Closed (fun l => (∃ p, MSurf.exTorus.polygon l.1 = .ok p) ∧ (l.2.1, l.2.2) ≠ 0) :=
  (C34_translation_cover exTorus_closed).1

/-! ### The half-translation cover -/

/-- The labels of the half-translation cover are normalized up to sign. -/
def NormalLabel (a b : K) : Prop := 0 < a ∨ a = 0 ∧ 0 < b

theorem normalLabel_ne {a b : K} (h : NormalLabel a b) : (a, b) ≠ (0 : Vec K) := by
  rintro h0
  simp only [Prod.mk_eq_zero] at h0
  rcases h with h | h
  · exact h.ne' h0.1
  · exact h.2.ne' h0.2

theorem normalLabel_neg {a b : K} (h0 : (a, b) ≠ (0 : Vec K)) (h : ¬ NormalLabel a b) : NormalLabel (-a) (-b) := by
  unfold NormalLabel at *
  push Not at h
  rcases lt_or_eq_of_le h.1 with h1 | h1
  · exact Or.inl (neg_pos.2 h1)
  · refine Or.inr ⟨by rw [h1, neg_zero], ?_⟩
    rcases lt_or_eq_of_le (h.2 h1) with h2 | h2
    · exact neg_pos.2 h2
    · exact absurd (by rw [h1, h2]; rfl) h0

theorem not_normalLabel_neg {a b : K} (h : NormalLabel a b) : ¬ NormalLabel (-a) (-b) := by
  unfold NormalLabel at *
  rintro (h1 | ⟨h1, h2⟩)
  · rcases h with h | h
    · linarith
    · rw [h.1] at h1; simp at h1
  · rcases h with h | h
    · linarith
    · linarith [h.2]

theorem halfCover_opp {S : RSurf L K} {valid : L → Prop} (hS : S.Closed valid) {l : L × K × K} {p : Poly K} {e : ℕ}
    (hl : valid l.1) (hp : S.polygon l.1 = .ok p) (he : e < p.length) (hz : (l.2.1, l.2.2) ≠ 0) :
    ∃ (l' : L) (e' : ℕ) (p' : Poly K) (m : Mat2 K) (s : K), S.opp l.1 e = .ok (some (l', e')) ∧ valid l' ∧ S.polygon l' = .ok p' ∧ e' < p'.length ∧
      S.opp l' e' = .ok (some (l.1, e)) ∧ m.IsRotScale ∧ m.mulVec (p.edge e) = -p'.edge e' ∧ (s = 1 ∨ s = (-1 : K)) ∧
      NormalLabel (s * (l.2.1 * m.a + l.2.2 * m.c)) (s * (l.2.2 * m.a - l.2.1 * m.c)) ∧
      (halfTranslationCover S).opp l e = .ok (some ((l', s * (l.2.1 * m.a + l.2.2 * m.c), s * (l.2.2 * m.a - l.2.1 * m.c)), e')) := by
  obtain ⟨l', e', p', ho, hl', hp', he', hback⟩ := hS.glue _ p e hl hp he
  obtain ⟨p0, hp0, hv⟩ := hS.poly _ hl
  obtain ⟨p1, hp1, hv'⟩ := hS.poly _ hl'
  rw [hp] at hp0
  rw [hp'] at hp1
  injection hp0 with hp0
  injection hp1 with hp1
  subst hp0 hp1
  obtain ⟨m, h1, h2, h3⟩ := edgeMatrix_ok ho hp hp' (hv.edge_ne e)
  have hne : (l.2.1 * m.a + l.2.2 * m.c, l.2.2 * m.a - l.2.1 * m.c) ≠ (0 : Vec K) := by
    intro h0
    simp only [Prod.mk_eq_zero] at h0
    obtain ⟨k1, k2⟩ := h0
    have hn := (normSq_pos hz).ne'
    simp only [normSq] at hn
    have ha : m.a = 0 := (mul_eq_zero.1 (show m.a * (l.2.1 * l.2.1 + l.2.2 * l.2.2) = 0 by
      linear_combination l.2.1 * k1 + l.2.2 * k2)).resolve_right hn
    have hc : m.c = 0 := (mul_eq_zero.1 (show m.c * (l.2.1 * l.2.1 + l.2.2 * l.2.2) = 0 by
      linear_combination l.2.2 * k1 - l.2.1 * k2)).resolve_right hn
    obtain ⟨j1, j2⟩ := h2
    have : m.mulVec (p.edge e) = 0 := by
      have hd : m.d = 0 := by rw [j1]; exact ha
      have hb : m.b = 0 := by rw [j2, hc]; simp
      ext <;> simp [Mat2.mulVec, ha, hb, hc, hd]
    rw [this] at h3
    exact hv'.edge_ne e' (neg_eq_zero.1 h3.symm)
  by_cases hN : NormalLabel (l.2.1 * m.a + l.2.2 * m.c) (l.2.2 * m.a - l.2.1 * m.c)
  · refine ⟨l', e', p', m, 1, ho, hl', hp', he', hback, h2, h3, Or.inl rfl, by rwa [one_mul, one_mul], ?_⟩
    simp only [halfTranslationCover, opp!_ok ho, h1, bind, Except.bind, pure, Except.pure]
    rw [one_mul, one_mul]
    exact if_pos hN
  · refine ⟨l', e', p', m, -1, ho, hl', hp', he', hback, h2, h3, Or.inr rfl, by
      rw [neg_one_mul, neg_one_mul]; exact normalLabel_neg hne hN, ?_⟩
    simp only [halfTranslationCover, opp!_ok ho, h1, bind, Except.bind, pure, Except.pure]
    rw [neg_one_mul, neg_one_mul]
    exact if_neg hN

/-- **C34.** The minimal half-translation cover of a closed similarity surface is a closed surface, and crossing an edge lifts
crossing the edge of the surface. -/
theorem C34_half_translation_cover {S : RSurf L K} {valid : L → Prop} (hS : S.Closed valid) :
    (halfTranslationCover S).Closed (fun l => valid l.1 ∧ NormalLabel l.2.1 l.2.2) ∧
    ∀ l p e, valid l.1 → NormalLabel l.2.1 l.2.2 → S.polygon l.1 = .ok p → e < p.length →
      ∃ l' e' a b, S.opp l.1 e = .ok (some (l', e')) ∧ (halfTranslationCover S).opp l e = .ok (some ((l', a, b), e')) := by
  refine ⟨⟨?_, ?_⟩, ?_⟩
  · rintro l ⟨hl, hz⟩
    obtain ⟨p, hp, hv⟩ := hS.poly _ hl
    obtain ⟨q, h1, h2, _⟩ := cover_polygon hp hv (normalLabel_ne hz)
    exact ⟨q, h1, h2⟩
  · rintro l q e ⟨hl, hz⟩ hq he
    obtain ⟨p, hp, hv⟩ := hS.poly _ hl
    obtain ⟨q0, h1, h2, h3, h4, h5⟩ := cover_polygon hp hv (normalLabel_ne hz)
    have : q0 = q := by
      have h6 : (halfTranslationCover S).polygon l = .ok q0 := h1
      rw [hq] at h6; injection h6 with h6; exact h6.symm
    subst this
    rw [h3] at he
    obtain ⟨l', e', p', m, s, ho, hl', hp', he', hback, hm, hme, hs, hz', hopp⟩ := halfCover_opp hS hl hp he (normalLabel_ne hz)
    obtain ⟨p1, hp1, hv'⟩ := hS.poly _ hl'
    rw [hp'] at hp1
    injection hp1 with hp1
    subst hp1
    obtain ⟨q', k1, k2, k3, k4, k5⟩ := cover_polygon (l := (l', s * (l.2.1 * m.a + l.2.2 * m.c), s * (l.2.2 * m.a - l.2.1 * m.c)))
      hp' hv' (normalLabel_ne hz')
    obtain ⟨l'', e'', p'', m', s', ho2, -, hp2, -, -, hm', hme', hs', hz2, hopp'⟩ := halfCover_opp
      (l := (l', s * (l.2.1 * m.a + l.2.2 * m.c), s * (l.2.2 * m.a - l.2.1 * m.c))) hS hl' hp' he' (normalLabel_ne hz')
    dsimp only at ho2
    rw [hback] at ho2
    simp only [Except.ok.injEq, Option.some.injEq, Prod.mk.injEq] at ho2
    obtain ⟨rfl, rfl⟩ := ho2
    rw [hp] at hp2
    injection hp2 with hp2
    subst hp2
    refine ⟨_, e', q', hopp, ⟨hl', hz'⟩, k1, by rw [k3]; exact he', ?_⟩
    rw [hopp']
    obtain ⟨r1, r2⟩ := rotScale_inverse hm hm' (hv.edge_ne e) (by rw [hme, Mat2.mulVec_neg, hme', neg_neg])
    -- the label, up to sign
    have x1 : s * (l.2.1 * m.a + l.2.2 * m.c) * m'.a + s * (l.2.2 * m.a - l.2.1 * m.c) * m'.c = s * l.2.1 := by
      linear_combination s * l.2.1 * r1 + s * l.2.2 * r2
    have x2 : s * (l.2.2 * m.a - l.2.1 * m.c) * m'.a - s * (l.2.1 * m.a + l.2.2 * m.c) * m'.c = s * l.2.2 := by
      linear_combination s * l.2.2 * r1 - s * l.2.1 * r2
    dsimp only at hz2 ⊢
    rw [x1, x2] at hz2 ⊢
    have hss : s' * s = 1 := by
      rcases hs with rfl | rfl <;> rcases hs' with rfl | rfl
      · simp
      · exfalso
        simp only [one_mul, neg_one_mul] at hz2
        exact not_normalLabel_neg hz hz2
      · exfalso
        simp only [one_mul, neg_one_mul] at hz2
        exact not_normalLabel_neg hz hz2
      · simp
    rw [← mul_assoc, ← mul_assoc, hss, one_mul, one_mul]
  · intro l p e hl hz hp he
    obtain ⟨l', e', p', m, s, ho, -, -, -, -, -, -, -, -, hopp⟩ := halfCover_opp hS hl hp he (normalLabel_ne hz)
    exact ⟨l', e', _, _, ho, hopp⟩

/-- **C34.** Glued edges of the half-translation cover are equal up to sign if, and only if, the edges of the surface have the
same length.  In particular the half-translation cover of a surface with isometric gluings is glued by half-translations. -/
theorem C34_half_translation_glued_iff {S : RSurf L K} {valid : L → Prop} (hS : S.Closed valid) {l : L × K × K} {p p' : Poly K} {e : ℕ}
    {l' : L} {e' : ℕ} (hl : valid l.1) (hz : NormalLabel l.2.1 l.2.2) (hp : S.polygon l.1 = .ok p) (he : e < p.length)
    (ho : S.opp l.1 e = .ok (some (l', e'))) (hp' : S.polygon l' = .ok p') :
    ∃ l2 q q2, (halfTranslationCover S).opp l e = .ok (some (l2, e')) ∧ (halfTranslationCover S).polygon l = .ok q ∧
      (halfTranslationCover S).polygon l2 = .ok q2 ∧
      ((q2.edge e' = -q.edge e ∨ q2.edge e' = q.edge e) ↔ normSq (p.edge e) = normSq (p'.edge e')) := by
  obtain ⟨l1, e1, p1, m, s, ho1, hl', hp1, he', hback, hm, hme, hs, hz', hopp⟩ := halfCover_opp hS hl hp he (normalLabel_ne hz)
  rw [ho] at ho1
  simp only [Except.ok.injEq, Option.some.injEq, Prod.mk.injEq] at ho1
  obtain ⟨rfl, rfl⟩ := ho1
  rw [hp'] at hp1
  injection hp1 with hp1
  subst hp1
  obtain ⟨p0, hp0, hv⟩ := hS.poly _ hl
  obtain ⟨p1, hp1, hv'⟩ := hS.poly _ hl'
  rw [hp] at hp0
  rw [hp'] at hp1
  injection hp0 with hp0
  injection hp1 with hp1
  subst hp0 hp1
  obtain ⟨q, h1, h2, h3, h4, h5⟩ := cover_polygon hp hv (normalLabel_ne hz)
  obtain ⟨q', k1, k2, k3, k4, k5⟩ := cover_polygon (l := (l', s * (l.2.1 * m.a + l.2.2 * m.c), s * (l.2.2 * m.a - l.2.1 * m.c)))
    hp' hv' (normalLabel_ne hz')
  refine ⟨_, q, q', hopp, h1, k1, ?_⟩
  rw [k5, h5]
  have hu : p'.edge e' = -m.mulVec (p.edge e) := by rw [hme, neg_neg]
  have hss : s * s = 1 := by rcases hs with rfl | rfl <;> simp
  obtain ⟨j1, j2⟩ := hm
  have hne := hv.edge_ne e
  generalize p.edge e = u at *
  generalize p'.edge e' = u' at *
  subst hu
  obtain ⟨ma, mb, mc, md⟩ := m
  simp only at j1 j2 ⊢
  subst j1 j2
  have hn := (normSq_pos hne).ne'
  have e1 : (labelMatrix (l', s * (l.2.1 * md + l.2.2 * mc), s * (l.2.2 * md - l.2.1 * mc))).mulVec
      (-Mat2.mulVec ⟨md, -mc, mc, md⟩ u) = (-s * (md * md + mc * mc)) • (labelMatrix l).mulVec u := by
    ext <;> simp [labelMatrix, Mat2.mulVec] <;> ring
  have e2 : normSq (-Mat2.mulVec ⟨md, -mc, mc, md⟩ u) = (md * md + mc * mc) * normSq u := by
    simp [normSq, Mat2.mulVec]; ring
  have hw : (labelMatrix l).mulVec u ≠ 0 := fun h0 =>
    hne (Mat2.mulVec_inj (labelMatrix_det_pos (normalLabel_ne hz)).ne' (by rw [h0, Mat2.mulVec_zero]))
  rw [e1, e2]
  generalize (labelMatrix l).mulVec u = w at *
  have hr : 0 ≤ md * md + mc * mc := add_nonneg (mul_self_nonneg _) (mul_self_nonneg _)
  generalize md * md + mc * mc = r at *
  have key : ∀ c : K, c • w = w → c = 1 := by
    intro c hc
    have h1 := congrArg Prod.fst hc
    have h2 := congrArg Prod.snd hc
    simp only [Prod.smul_fst, Prod.smul_snd, smul_eq_mul] at h1 h2
    have hnw := (normSq_pos hw).ne'
    simp only [normSq] at hnw
    apply mul_right_cancel₀ hnw
    linear_combination w.1 * h1 + w.2 * h2
  constructor
  · intro h
    have hr1 : r = 1 := by
      rcases hs with rfl | rfl <;> rcases h with h | h
      · have := key r (by rw [← neg_inj, ← h, ← neg_smul]; congr 1; ring)
        exact this
      · have := key _ h
        linarith
      · have := key (-r) (by rw [← neg_inj, ← h, ← neg_smul]; congr 1; ring)
        linarith
      · have := key _ h
        linarith
    rw [hr1, one_mul]
  · intro h
    have hr1 : r = 1 := mul_right_cancel₀ hn (by rw [one_mul]; exact h.symm)
    subst hr1
    rcases hs with rfl | rfl
    · left; simp
    · right; simp

/-- **C34.** If the gluings of the surface are isometries, then the half-translation cover is glued by half-translations. -/
theorem C34_half_translation_glued {S : RSurf L K} {valid : L → Prop} (hS : S.Closed valid)
    (hI : S.GluedBy valid (fun u v => normSq u = normSq v)) :
    (halfTranslationCover S).GluedBy (fun l => valid l.1 ∧ NormalLabel l.2.1 l.2.2) (fun u v => v = -u ∨ v = u) := by
  rintro l e l2 e2 q q2 ⟨hl, hz⟩ hq he ho2 hq2
  obtain ⟨p, hp, hv⟩ := hS.poly _ hl
  obtain ⟨q0, h1, h2, h3, h4, h5⟩ := cover_polygon hp hv (normalLabel_ne hz)
  have : q0 = q := by
    have h6 : (halfTranslationCover S).polygon l = .ok q0 := h1
    rw [hq] at h6; injection h6 with h6; exact h6.symm
  subst this
  rw [h3] at he
  obtain ⟨l', e', p', ho, hl', hp', he', hback⟩ := hS.glue _ p e hl hp he
  obtain ⟨l3, q3, q4, k1, k2, k3, k4⟩ := C34_half_translation_glued_iff hS hl hz hp he ho hp'
  rw [ho2] at k1
  simp only [Except.ok.injEq, Option.some.injEq, Prod.mk.injEq] at k1
  obtain ⟨rfl, rfl⟩ := k1
  rw [hq] at k2
  rw [hq2] at k3
  injection k2 with k2
  injection k3 with k3
  subst k2 k3
  exact k4.2 (hI _ _ _ _ _ _ hl hp he ho hp')

/-- The example torus is glued by isometries. -/
example : (halfTranslationCover (ofMSurf MSurf.exTorus)).Closed
    (fun l => (∃ p, MSurf.exTorus.polygon l.1 = .ok p) ∧ NormalLabel l.2.1 l.2.2) :=
  (C34_half_translation_cover exTorus_closed).1

/-! ### The planar cover -/

theorem edgeTransformation_ok {S : RSurf L K} {l l' : L} {e e' : ℕ} {p p' : Poly K} (ho : S.opp l e = .ok (some (l', e')))
    (hp : S.polygon l = .ok p) (hp' : S.polygon l' = .ok p') (hv : p.edge e ≠ 0) (hv' : p'.edge e' ≠ 0) :
    ∃ g, S.edgeTransformation l e = .ok g ∧ g.WF ∧ g.sign = 1 ∧ g.call (p.vertex e) = p'.vertex (e' + 1) ∧
      g.call (p.vertex (e + 1)) = p'.vertex e' := by
  have h1 : p.vertex e ≠ p.vertex (e + 1) := fun h => hv (by unfold Poly.edge; rw [h, sub_self])
  have h2 : p'.vertex (e' + 1) ≠ p'.vertex e' := fun h => hv' (by unfold Poly.edge; rw [h, sub_self])
  obtain ⟨g, hg⟩ := (edgeTransformationPts_isSome _ _ _ _).2 ⟨h1, h2⟩
  obtain ⟨k1, k2, k3, k4⟩ := edgeTransformationPts_spec _ _ _ _ _ hg
  refine ⟨g, ?_, k1, k2, k3, k4⟩
  unfold edgeTransformation
  simp only [hp, opp!_ok ho, hp', bind, Except.bind, hg, pure, Except.pure]

theorem planar_polygon {S : RSurf L K} {l : L × Similarity K} {p : Poly K} (hp : S.polygon l.1 = .ok p) (hv : p.Valid)
    (hc : p.isConvex false = true) (hg : l.2.WF) (hs : l.2.sign = 1) :
    (planarCover S).polygon l = .ok (p.map l.2.call) ∧ Poly.Valid (p.map l.2.call) := by
  have hv2 := hv.map_call hg hs
  refine ⟨?_, hv2⟩
  simp only [planarCover, hp, bind, Except.bind, callPoly, hc, if_true]
  exact (Poly.ofVertices_iff _ _).2 ⟨rfl, hv2⟩

theorem planarCover_opp {S : RSurf L K} {valid : L → Prop} (hS : S.Closed valid) {l : L × Similarity K} {p : Poly K} {e : ℕ}
    (hl : valid l.1) (hp : S.polygon l.1 = .ok p) (he : e < p.length) :
    ∃ (l' : L) (e' : ℕ) (p' : Poly K) (g : Similarity K), S.opp l.1 e = .ok (some (l', e')) ∧ valid l' ∧ S.polygon l' = .ok p' ∧
      e' < p'.length ∧ S.opp l' e' = .ok (some (l.1, e)) ∧ g.WF ∧ g.sign = 1 ∧ g.call (p.vertex e) = p'.vertex (e' + 1) ∧
      g.call (p.vertex (e + 1)) = p'.vertex e' ∧
      (planarCover S).opp l e = .ok (some ((l', l.2.mul g.inv), e')) := by
  obtain ⟨l', e', p', ho, hl', hp', he', hback⟩ := hS.glue _ p e hl hp he
  obtain ⟨p0, hp0, hv⟩ := hS.poly _ hl
  obtain ⟨p1, hp1, hv'⟩ := hS.poly _ hl'
  rw [hp] at hp0
  rw [hp'] at hp1
  injection hp0 with hp0
  injection hp1 with hp1
  subst hp0 hp1
  obtain ⟨g, h1, h2, h3, h4, h5⟩ := edgeTransformation_ok ho hp hp' (hv.edge_ne e) (hv'.edge_ne e')
  refine ⟨l', e', p', g, ho, hl', hp', he', hback, h2, h3, h4, h5, ?_⟩
  simp only [planarCover, opp!_ok ho, h1, bind, Except.bind, pure, Except.pure]

theorem inv_call {g : Similarity K} (hg : g.WF) (hs : g.sign = 1) {v w : Vec K} (h : g.call v = w) : g.inv.call w = v := by
  have hi : g.inv.sign = 1 := by simp [Similarity.inv, hs]
  rw [← h, ← call_mul' _ _ hi hs, Similarity.C01_inv_mul g hg]
  simp [Similarity.one, Similarity.call]

/-- **C34.** The minimal planar cover of a closed similarity surface with convex polygons is a closed surface that develops it in
the plane: its polygons are the images of the polygons of the surface under the similarity in the label, crossing an edge lifts
crossing the edge of the surface, and glued edges are the same segment of the plane. -/
theorem C34_planar_cover {S : RSurf L K} {valid : L → Prop} (hS : S.Closed valid)
    (hconv : ∀ l p, valid l → S.polygon l = .ok p → p.isConvex false = true) :
    (planarCover S).Closed (fun l => valid l.1 ∧ l.2.WF ∧ l.2.sign = 1) ∧
    (∀ l p, valid l.1 → l.2.WF → l.2.sign = 1 → S.polygon l.1 = .ok p → (planarCover S).polygon l = .ok (p.map l.2.call)) ∧
    ∀ l q e, valid l.1 → l.2.WF → l.2.sign = 1 → (planarCover S).polygon l = .ok q → e < q.length →
      ∃ l' g e' q', S.opp l.1 e = .ok (some (l', e')) ∧ (planarCover S).opp l e = .ok (some ((l', g), e')) ∧
        (planarCover S).polygon (l', g) = .ok q' ∧ q'.vertex e' = q.vertex (e + 1) ∧ q'.vertex (e' + 1) = q.vertex e := by
  have hpoly : ∀ l : L × Similarity K, valid l.1 ∧ l.2.WF ∧ l.2.sign = 1 → ∃ p, S.polygon l.1 = .ok p ∧ p.Valid ∧
      (planarCover S).polygon l = .ok (p.map l.2.call) ∧ Poly.Valid (p.map l.2.call) := by
    rintro l ⟨hl, hg, hs⟩
    obtain ⟨p, hp, hv⟩ := hS.poly _ hl
    exact ⟨p, hp, hv, planar_polygon hp hv (hconv _ _ hl hp) hg hs⟩
  refine ⟨⟨?_, ?_⟩, ?_, ?_⟩
  · intro l hl
    obtain ⟨p, _, _, h1, h2⟩ := hpoly l hl
    exact ⟨_, h1, h2⟩
  · rintro l q e ⟨hl, hg, hs⟩ hq he
    obtain ⟨p, hp, hv, hq', -⟩ := hpoly l ⟨hl, hg, hs⟩
    rw [hq] at hq'
    injection hq' with hq'
    subst hq'
    rw [List.length_map] at he
    obtain ⟨l', e', p', g, ho, hl', hp', he', hback, k1, k2, k3, k4, hopp⟩ := planarCover_opp hS hl hp he
    have hwf := Similarity.C01_mul_wf _ _ hg (Similarity.C01_inv_wf g k1)
    have hsg : (l.2.mul g.inv).sign = 1 := by simp [Similarity.mul, Similarity.inv, hs, k2]
    obtain ⟨p1, hp1, hv1, hq1, -⟩ := hpoly (l', l.2.mul g.inv) ⟨hl', hwf, hsg⟩
    dsimp only at hp1
    rw [hp'] at hp1
    injection hp1 with hp1
    subst hp1
    refine ⟨_, e', _, hopp, ⟨hl', hwf, hsg⟩, hq1, by rw [List.length_map]; exact he', ?_⟩
    obtain ⟨l2, e2, p2, g2, ho2, -, hp2, -, -, j1, j2, j3, j4, hopp2⟩ := planarCover_opp (l := (l', l.2.mul g.inv)) hS hl' hp' he'
    dsimp only at ho2
    rw [hback] at ho2
    simp only [Except.ok.injEq, Option.some.injEq, Prod.mk.injEq] at ho2
    obtain ⟨rfl, rfl⟩ := ho2
    rw [hp] at hp2
    injection hp2 with hp2
    subst hp2
    rw [hopp2]
    have hgi : g2.inv = g := by
      have hne : p.vertex e ≠ p.vertex (e + 1) := fun h => hv.edge_ne e (by unfold Poly.edge; rw [h, sub_self])
      exact similarity_unique (by simp [Similarity.inv, j2]) k2 hne (by rw [k3]; exact inv_call j1 j2 j4)
        (by rw [k4]; exact inv_call j1 j2 j3)
    simp only [Except.ok.injEq, Option.some.injEq, Prod.mk.injEq, and_true]
    rw [hgi, Similarity.C01_mul_assoc _ _ _ hg (Similarity.C01_inv_wf g k1), Similarity.C01_inv_mul g k1, Similarity.C01_mul_one]
  · intro l p hl hg hs hp
    obtain ⟨p0, hp0, _, h1, _⟩ := hpoly l ⟨hl, hg, hs⟩
    rw [hp] at hp0
    injection hp0 with hp0
    subst hp0
    exact h1
  · intro l q e hl hg hs hq he
    obtain ⟨p, hp, hv, hq', -⟩ := hpoly l ⟨hl, hg, hs⟩
    rw [hq] at hq'
    injection hq' with hq'
    subst hq'
    rw [List.length_map] at he
    obtain ⟨l', e', p', g, ho, hl', hp', he', hback, k1, k2, k3, k4, hopp⟩ := planarCover_opp hS hl hp he
    have hwf := Similarity.C01_mul_wf _ _ hg (Similarity.C01_inv_wf g k1)
    have hsi : g.inv.sign = 1 := by simp [Similarity.inv, k2]
    have hsg : (l.2.mul g.inv).sign = 1 := by simp [Similarity.mul, Similarity.inv, hs, k2]
    obtain ⟨p1, hp1, hv1, hq1, -⟩ := hpoly (l', l.2.mul g.inv) ⟨hl', hwf, hsg⟩
    dsimp only at hp1
    rw [hp'] at hp1
    injection hp1 with hp1
    subst hp1
    refine ⟨l', _, e', _, ho, hopp, hq1, ?_, ?_⟩
    · rw [Poly.vertex_map _ _ hv1.ne_nil, Poly.vertex_map _ _ hv.ne_nil, call_mul' _ _ hs hsi, inv_call k1 k2 k4]
    · rw [Poly.vertex_map _ _ hv1.ne_nil, Poly.vertex_map _ _ hv.ne_nil, call_mul' _ _ hs hsi, inv_call k1 k2 k3]

example : (planarCover (ofMSurf MSurf.exTorus)).Closed
    (fun l => (∃ p, MSurf.exTorus.polygon l.1 = .ok p) ∧ l.2.WF ∧ l.2.sign = 1) := by
  refine (C34_planar_cover exTorus_closed ?_).1
  rintro l p - hp
  obtain ⟨-, rfl⟩ := exTorus_polygon (l := l) (by
    simp only [ofMSurf] at hp
    exact hp)
  decide +kernel

/-- **C34 does not hold** for the planar cover of a surface with a polygon that is not convex: `polygon` raises a `TypeError` for
every label over it. -/
theorem C34_planar_nonconvex_violation {S : RSurf L K} (l : L) (p : Poly K) (hp : S.polygon l = .ok p) (hc : p.isConvex false = false)
    (g : Similarity K) : (planarCover S).polygon (l, g) = .error .typeError := by
  simp [planarCover, hp, bind, Except.bind, callPoly, hc]

/-- A valid polygon which is not convex. -/
example : Poly.Valid ([(0, 0), (2, -1), (1, 0), (2, 1)] : Poly ℚ) ∧ Poly.isConvex ([(0, 0), (2, -1), (1, 0), (2, 1)] : Poly ℚ) false = false :=
  ⟨((Poly.ofVertices_iff ([(0, 0), (2, -1), (1, 0), (2, 1)] : Poly ℚ) [(0, 0), (2, -1), (1, 0), (2, 1)]).1 (by decide +kernel)).2,
    by decide +kernel⟩

/-- A triangle, and the triangle scaled by two, glued along all edges: a dilation surface. -/
def exDilation : MSurf ℕ (Poly ℚ) :=
  stateOf ((do
    let a ← MSurf.addPolygon MSurf.tri none
    let b ← MSurf.addPolygon [(0, 0), (2, 0), (0, 2)] none
    MSurf.glue (a, 0) (b, 0)
    MSurf.glue (a, 1) (b, 1)
    MSurf.glue (a, 2) (b, 2) : Act ℕ (Poly ℚ) Unit) MSurf.empty)

theorem exDilation_reachable : MSurf.Reachable exDilation := by
  have h0 : MSurf.Reachable (MSurf.empty : MSurf ℕ (Poly ℚ)) := .empty
  have h1 := MSurf.Reachable.step _ (.addPolygon MSurf.tri none) h0 rfl trivial (by simp)
  have h2 := MSurf.Reachable.step _ (.addPolygon [(0, 0), (2, 0), (0, 2)] none) h1 rfl trivial (by simp)
  have h3 := MSurf.Reachable.step _ (.glue (0, 0) (1, 0)) h2 rfl ⟨by simp, by simp⟩ (by simp)
  have h4 := MSurf.Reachable.step _ (.glue (0, 1) (1, 1)) h3 rfl ⟨by simp, by simp⟩ (by simp)
  have h5 := MSurf.Reachable.step _ (.glue (0, 2) (1, 2)) h4 rfl ⟨by simp, by simp⟩ (by simp)
  exact h5

theorem exDilation_polygon {l : ℕ} {p : Poly ℚ} (h : exDilation.polygon l = .ok p) :
    (l = 0 ∧ p = MSurf.tri) ∨ (l = 1 ∧ p = [(0, 0), (2, 0), (0, 2)]) := by
  rw [MSurf.polygon_ok] at h
  have h1 : exDilation.polygons = [(0, MSurf.tri), (1, [(0, 0), (2, 0), (0, 2)])] := by decide +kernel
  rw [h1] at h
  have h2 := Dict.mem_of_get _ _ _ h
  simpa only [List.mem_cons, Prod.mk.injEq, List.not_mem_nil, or_false] using h2

theorem exDilation_closed : (ofMSurf exDilation).Closed (fun l => ∃ p, exDilation.polygon l = .ok p) := by
  refine closed_ofMSurf exDilation_reachable.ginv (fun l p hp => ?_) (fun l p e hp he => ?_)
  · rcases exDilation_polygon hp with ⟨_, rfl⟩ | ⟨_, rfl⟩
    · exact Poly.valid_triangle (by decide +kernel)
    · exact Poly.valid_triangle (by decide +kernel)
  · rcases exDilation_polygon hp with ⟨rfl, rfl⟩ | ⟨rfl, rfl⟩
    · have he : e < 3 := he
      interval_cases e <;> decide +kernel
    · have he : e < 3 := he
      interval_cases e <;> decide +kernel

/-- **C34 does not hold** for the half-translation cover of a surface with gluings that are not isometries: the cover uses the
transpose of the edge matrix, which is its inverse only for isometries, so glued edges of the cover are not equal up to sign.
Here, an edge of length one is glued to an edge of length four. -/
theorem C34_half_translation_violation : ∃ S : RSurf ℕ ℚ, ∃ valid : ℕ → Prop, S.Closed valid ∧
    ∃ l e l2 e2 q q2, valid l.1 ∧ NormalLabel l.2.1 l.2.2 ∧ (halfTranslationCover S).opp l e = .ok (some (l2, e2)) ∧
      (halfTranslationCover S).polygon l = .ok q ∧ (halfTranslationCover S).polygon l2 = .ok q2 ∧
      ¬ (q2.edge e2 = -q.edge e ∨ q2.edge e2 = q.edge e) := by
  obtain ⟨l2, q, q2, h1, h2, h3, h4⟩ := C34_half_translation_glued_iff exDilation_closed (l := (0, 1, 0)) (e := 0) (l' := 1) (e' := 0)
    (p := MSurf.tri) (p' := [(0, 0), (2, 0), (0, 2)]) ⟨MSurf.tri, by decide +kernel⟩ (Or.inl (by norm_num)) (by decide +kernel)
    (by decide +kernel) (by decide +kernel) (by decide +kernel)
  refine ⟨_, _, exDilation_closed, (0, 1, 0), 0, l2, 0, q, q2, ⟨MSurf.tri, by decide +kernel⟩, Or.inl (by norm_num), h1, h2, h3, ?_⟩
  rw [h4]
  decide +kernel

end RSurf
end Flat
