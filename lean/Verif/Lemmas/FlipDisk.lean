import Verif.Lemmas.EmptyDisk
import Verif.Props.Delaunay

/-!
# Empty disks and `triangle_flip`
-/

namespace Flat
namespace MSurf
variable {L K : Type} [LinearOrder L] [Field K] [LinearOrder K] [IsStrictOrderedRing K]

/-- The vertices of the polygons. -/
def vert (s : MSurf L (Poly K)) (l : L) (i : ℕ) : Vec K :=
  match s.polygons.get l with
  | some p => p.vertex i
  | none => 0

/-- The gluings. -/
def GluedTo (s : MSurf L (Poly K)) (x y : L × ℕ) : Prop := s.opp x.1 x.2 = some (y.1, (y.2 : Int))

omit [IsStrictOrderedRing K] in
theorem vert_eq {s : MSurf L (Poly K)} {l : L} {p : Poly K} (h : s.polygons.get l = some p) (i : ℕ) : s.vert l i = p.vertex i := by
  unfold vert; rw [h]

theorem vert_per {s : MSurf L (Poly K)} (h : Triangulated s) (l : L) (i : ℕ) : s.vert l (i + 3) = s.vert l i := by
  cases hp : s.polygons.get l with
  | none => unfold vert; rw [hp]
  | some p => rw [vert_eq hp, vert_eq hp, ← (h l p (polygon_ok.2 hp)).1, Poly.vertex_add_length]

/-- A closed triangulated surface that can be modified. -/
structure Ready (s : MSurf L (Poly K)) [LabelNum L] : Prop where
  reach : Reachable s
  isMut : s.mutable = true
  tri : Triangulated s
  closed : ∀ l P (e : ℕ), s.polygons.get l = some P → e < 3 → s.opp l e ≠ none
  full : FullRoots s

variable [LabelNum L]

theorem Ready.good {s : MSurf L (Poly K)} (h : Ready s) : Good s := ⟨h.reach.ginv, h.isMut, h.reach.rootsOK⟩

theorem Ready.isEdge {s : MSurf L (Poly K)} (h : Ready s) {l : L} {P : Poly K} (hP : s.polygons.get l = some P) {e : ℕ} :
    s.IsEdge l e ↔ e < 3 := by
  have h3 := (h.tri l P (polygon_ok.2 hP)).1
  constructor
  · rintro ⟨p, h1, h2⟩
    rw [hP] at h1; injection h1 with h1; subst h1
    have : nv P = P.length := rfl
    omega
  · intro he
    exact ⟨P, hP, by have : nv P = P.length := rfl; omega⟩

/-- The partner of an edge. -/
theorem Ready.partner {s : MSurf L (Poly K)} (h : Ready s) {l : L} {P : Poly K} (hP : s.polygons.get l = some P) {e : ℕ} (he : e < 3) :
    ∃ l' e' P', s.opp l e = some (l', ((e' : ℕ) : Int)) ∧ s.opp l' e' = some (l, (e : Int)) ∧ s.polygons.get l' = some P' ∧ e' < 3 ∧
      s.oppositeEdge! l (e : Int) = .ok (l', (e' : Int)) := by
  cases ho : s.opp l e with
  | none => exact absurd ho (h.closed l P e hP he)
  | some c =>
    obtain ⟨k, k1, k2⟩ := h.reach.ginv.inv _ _ _ _ ho
    obtain ⟨P', k3, k4⟩ := opp_isEdge h.reach.ginv.toShape k2
    have he' : s.IsEdge l e := (h.isEdge hP).2 he
    refine ⟨c.1, k, P', by rw [← k1], k2, k3, (h.isEdge k3).1 ⟨P', k3, k4⟩, ?_⟩
    unfold oppositeEdge!
    rw [oppositeEdge_eq_opp h.reach.ginv.toShape he', ho]
    simp [← k1]

omit [LabelNum L] in
theorem edge_add_three (p : Poly K) (h : p.length = 3) (i : ℕ) : p.vertex (i + 3) = p.vertex i := by
  rw [← h, Poly.vertex_add_length]

omit [LabelNum L] [LinearOrder L] in
/-- A similarity that swaps two points is an involution. -/
theorem half_turn {g : Similarity K} (hg : Disk.Pos g) {p q z : Vec K} (ht : 0 < ccw (z - p) (q - z)) (gp : g.call p = q) (gq : g.call q = p)
    (r : Vec K) : g.call (g.call r) = r := by
  have gg : g.mul g = Similarity.one := by
    refine (hg.mul hg).ext ⟨⟨by simp [Similarity.one], Or.inl rfl⟩, rfl⟩ (p := p) (q := q) ?_ ?_ ?_
    · intro h9
      have x1 : q.1 - p.1 = 0 := by nlinarith [mul_self_nonneg (q.1 - p.1), mul_self_nonneg (q.2 - p.2)]
      have x2 : q.2 - p.2 = 0 := by nlinarith [mul_self_nonneg (q.1 - p.1), mul_self_nonneg (q.2 - p.2)]
      have : ccw (z - p) (q - z) = 0 := by
        simp only [ccw, Prod.fst_sub, Prod.snd_sub]
        linear_combination (z.1 - p.1) * x2 - (z.2 - p.2) * x1
      linarith
    · rw [hg.mul_call hg, gp, gq, Similarity.C01_one_call]
    · rw [hg.mul_call hg, gq, gp, Similarity.C01_one_call]
  rw [← hg.mul_call hg, gg, Similarity.C01_one_call]

omit [LabelNum L] [LinearOrder L] in
/-- Triangles with the same edges are translates. -/
theorem translate_tri (Q : Poly K) (d : ℕ) (a b c : Vec K) (k1 : Q.edge (d + 1) = c - b) (k2 : Q.edge d = b - a) :
    ∃ σ : Similarity K, Disk.Pos σ ∧ Q.vertex d = σ.call a ∧ Q.vertex (d + 1) = σ.call b ∧ Q.vertex (d + 2) = σ.call c := by
  refine ⟨Similarity.ofVec (Q.vertex d - a), ⟨⟨by simp [Similarity.ofVec], Or.inl rfl⟩, rfl⟩, ?_, ?_, ?_⟩
  · ext <;> simp [Similarity.call, Similarity.ofVec]
  · have : Q.vertex (d + 1) = Q.vertex d + (b - a) := by rw [← k2]; unfold Poly.edge; abel
    rw [this]
    ext <;> simp [Similarity.call, Similarity.ofVec] <;> ring
  · have : Q.vertex (d + 2) = Q.vertex d + (b - a) + (c - b) := by
      rw [← k2, ← k1]; unfold Poly.edge; rw [show d + 1 + 1 = d + 2 from rfl]; abel
    rw [this]
    ext <;> simp [Similarity.call, Similarity.ofVec] <;> ring

/-- What a flip does to the surface. -/
theorem Ready.flip {s t : MSurf L (Poly K)} (h : Ready s) {l0 : L} {d0 : ℕ} (ht : triangleFlip l0 d0 s = .ok () t) :
    Ready t ∧ ∃ l1 d1, s.opp l0 d0 = some (l1, ((d1 : ℕ) : Int)) ∧ Nonempty (Disk.Flip s.vert t.vert s.GluedTo t.GluedTo l0 l1 d0 d1) ∧
      (∀ l, l ≠ l0 → l ≠ l1 → t.polygons.get l = s.polygons.get l) ∧
      (∀ l, (∃ P, t.polygons.get l = some P) ↔ ∃ P, s.polygons.get l = some P) ∧
      (∀ x c (e : ℕ), x ≠ l0 → x ≠ l1 → c.1 ≠ l0 → c.1 ≠ l1 → (t.opp x e = some c ↔ s.opp x e = some c)) := by
  have hs := h.good
  have hreach : Reachable t := by
    have := Reachable.step s (Op.triangleFlip l0 d0) h.reach h.isMut trivial (by intro _ _ _ h; cases h)
    simp only [Op.run, ht, stateOf] at this
    exact this
  obtain ⟨l1, d1, P0, P1, ho, hp0, hp1, h0, h1⟩ := triangleFlip_pre hs.1 l0 d0 ht
  have spec := triangleFlip_spec hs l0 l1 d0 d1 P0 P1 hp0 hp1 h0 h1 ho
  unfold wp at spec
  rw [ht] at spec
  obtain ⟨hgood, hfull, hd, ⟨g, hT, hsign, hwf, hgm, hturn, Q0, Q1, hq0, hq1, hv0, hv1, e01, e02, e00, e11, e12, e10, hpol⟩, hgl, hopp⟩ := spec
  have ho' := opp_back hs.1 ho
  have a0 := (h.tri _ _ (polygon_ok.2 hp0)).2
  have a1 := (h.tri _ _ (polygon_ok.2 hp1)).2
  have lt0 : d0 < 3 := lt_three_of_opp hs.1 hp0 h0 ho
  have lt1 : d1 < 3 := lt_three_of_opp hs.1 hp1 h1 ho'
  obtain ⟨g', hT', hsign', hpos, hga, hgb⟩ := glued_triangles hs.1 hp0 hp1 h0 h1 ho a0 a1
  rw [hT] at hT'
  injection hT' with hT'
  subst hT'
  -- the areas
  have tri : Triangulated t := by
    intro l P hP
    have hP := polygon_ok.1 hP
    rw [hpol] at hP
    have q0 : 0 < Q0.area := by
      have := area_of_length_three Q0 hq0 d0
      rw [e01, e02] at this
      have := hturn.2.2.2
      linarith
    have q1 : 0 < Q1.area := by
      have := area_of_length_three Q1 hq1 d1
      rw [e11, e12] at this
      have := hturn.2.1
      linarith
    split_ifs at hP
    · injection hP with hP; subst hP; exact ⟨hq1, q1⟩
    · injection hP with hP; subst hP; exact ⟨hq0, q0⟩
    · exact h.tri l P (polygon_ok.2 hP)
  have hkeys : ∀ l, (∃ P, t.polygons.get l = some P) ↔ ∃ P, s.polygons.get l = some P := by
    intro l
    rw [hpol]
    split_ifs with k1 k2
    · subst k1; exact ⟨fun _ => ⟨_, hp1⟩, fun _ => ⟨_, rfl⟩⟩
    · subst k2; exact ⟨fun _ => ⟨_, hp0⟩, fun _ => ⟨_, rfl⟩⟩
    · rfl
  have hclosed : ∀ l P (e : ℕ), t.polygons.get l = some P → e < 3 → t.opp l e ≠ none := by
    intro l P e hP he hn
    by_cases x0 : (l, e) = (l0, d0)
    · have := (hopp l e (l1, (d1 : Int))).2 ⟨d1, rfl, Or.inl ⟨x0, rfl⟩⟩
      rw [hn] at this; cases this
    by_cases x1 : (l, e) = (l1, d1)
    · have := (hopp l e (l0, (d0 : Int))).2 ⟨d0, rfl, Or.inr (Or.inl ⟨x1, rfl⟩)⟩
      rw [hn] at this; cases this
    have hF : FlipEdge l0 d0 l1 d1 (l, e) :=
      ⟨fun k => ⟨he, fun k' => x0 (by dsimp only at k k'; rw [k, k'])⟩, fun k => ⟨he, fun k' => x1 (by dsimp only at k k'; rw [k, k'])⟩⟩
    have hF' := flipOld_edge lt0 lt1 hd hF
    obtain ⟨Pl, hPl⟩ := (hkeys l).1 ⟨P, hP⟩
    have hedge : ∃ P', s.polygons.get (flipOld l0 d0 l1 d1 (l, e)).1 = some P' ∧ (flipOld l0 d0 l1 d1 (l, e)).2 < 3 := by
      unfold flipOld
      split_ifs with k1 k2 k3 k4
      · exact ⟨P0, hp0, Nat.mod_lt _ (by norm_num)⟩
      · exact ⟨P1, hp1, Nat.mod_lt _ (by norm_num)⟩
      · exact ⟨P1, hp1, Nat.mod_lt _ (by norm_num)⟩
      · exact ⟨P0, hp0, Nat.mod_lt _ (by norm_num)⟩
      · exact ⟨Pl, hPl, he⟩
    obtain ⟨P', hP', he'⟩ := hedge
    obtain ⟨l', e', P'', k1, k2, k3, k4, -⟩ := h.partner hP' he'
    have hc : FlipEdge l0 d0 l1 d1 (l', e') := by
      refine ⟨fun k => ⟨k4, fun k' => ?_⟩, fun k => ⟨k4, fun k' => ?_⟩⟩
      · dsimp only at k k'
        subst k k'
        rw [ho] at k2
        injection k2 with k2
        rw [Prod.mk.injEq, Int.natCast_inj] at k2
        exact (hF'.2 k2.1.symm).2 k2.2.symm
      · dsimp only at k k'
        subst k k'
        rw [ho'] at k2
        injection k2 with k2
        rw [Prod.mk.injEq, Int.natCast_inj] at k2
        exact (hF'.1 k2.1.symm).2 k2.2.symm
    obtain ⟨y, y1, y2, -⟩ := flipToNew_spec lt0 lt1 hd (l', e') hc
    have := (hopp l e (y.1, (y.2 : Int))).2 ⟨y.2, rfl, Or.inr (Or.inr ⟨hF, y1, by rw [y2]; exact k1⟩)⟩
    rw [hn] at this; cases this
  refine ⟨⟨hreach, hgood.2.1, tri, hclosed, hfull h.full⟩, l1, d1, ho, ?_, ?_, hkeys, ?_⟩
  · set p := P0.vertex d0 with hp
    set q := P0.vertex (d0 + 1) with hq
    set r := P0.vertex (d0 + 2) with hr
    set z := g.call (P1.vertex (d1 + 2)) with hz
    have p3 : P0.vertex (d0 + 3) = p := edge_add_three P0 h0 d0
    have q3 : P1.vertex (d1 + 3) = P1.vertex d1 := edge_add_three P1 h1 d1
    have hPos : Disk.Pos g := ⟨hwf, hsign⟩
    have sub : ∀ u v : Vec K, g.derivative.mulVec (u - v) = g.call u - g.call v := fun u v => (Poly.call_sub hsign u v).symm
    have z1 : g.derivative.mulVec (P1.edge (d1 + 1)) = z - p := by unfold Poly.edge; rw [sub, hgb]
    have z2 : g.derivative.mulVec (P1.edge (d1 + 2)) = q - z := by
      unfold Poly.edge; rw [sub, show d1 + 2 + 1 = d1 + 3 from rfl, q3, hga]
    have r1 : P0.edge (d0 + 1) = r - q := rfl
    have r2 : P0.edge (d0 + 2) = p - r := by unfold Poly.edge; rw [show d0 + 2 + 1 = d0 + 3 from rfl, p3]
    rw [z1, z2, r1, r2] at hturn
    obtain ⟨σ1, s10, s11, s12, s13⟩ := translate_tri Q1 d1 r z q (by rw [e11, z2]) (by rw [e10, r2, z1]; abel)
    have tp1 : t.polygons.get l1 = some Q1 := by rw [hpol, if_pos rfl]
    have hother : ∀ l, l ≠ l0 → l ≠ l1 → t.vert l = s.vert l := by
      intro l k0 k1
      funext i
      unfold vert
      rw [hpol, if_neg k1, if_neg k0]
    have hglue : ∀ x y, t.GluedTo x y → (x = (l0, d0) ∧ y = (l1, d1)) ∨ (x = (l1, d1) ∧ y = (l0, d0)) ∨
        (FlipEdge l0 d0 l1 d1 x ∧ FlipEdge l0 d0 l1 d1 y ∧ s.GluedTo (flipOld l0 d0 l1 d1 x) (flipOld l0 d0 l1 d1 y)) := by
      rintro ⟨x, e⟩ ⟨y, f⟩ hG
      obtain ⟨k, k1, k2⟩ := (hopp _ _ _).1 hG
      dsimp only at k1 k2
      rw [Int.natCast_inj] at k1
      subst k1
      exact k2
    obtain ⟨σ0, s00, s01, s02, s03⟩ : ∃ σ0, Disk.Pos σ0 ∧ t.vert l0 d0 = σ0.call z ∧ t.vert l0 (d0 + 1) = σ0.call r ∧
        t.vert l0 (d0 + 2) = σ0.call p := by
      by_cases hl : l0 = l1
      · have hdd := hd hl
        subst hl hdd
        obtain rfl : P0 = P1 := by rw [hp0] at hp1; injection hp1
        have gp : g.call p = q := hga
        have gq : g.call q = p := hgb
        have gz : g.call z = r := half_turn hPos hturn.1 gp gq r
        refine ⟨σ1.mul g, s10.mul hPos, ?_, ?_, ?_⟩
        · rw [s10.mul_call hPos, gz, vert_eq tp1, s11]
        · rw [s10.mul_call hPos, vert_eq tp1, s12]
        · rw [s10.mul_call hPos, gp, vert_eq tp1, s13]
      · have tp0 : t.polygons.get l0 = some Q0 := by rw [hpol, if_neg hl, if_pos rfl]
        simp only [vert_eq tp0]
        exact translate_tri Q0 d0 z r p (by rw [e01, r2]) (by rw [e00, r2, z1]; abel)
    refine ⟨⟨p, q, r, z, g, σ0, σ1, hturn, hPos, s00, s10, lt0, lt1, hd, vert_per h.tri, vert_per tri,
      vert_eq hp0 _, vert_eq hp0 _, vert_eq hp0 _, ?_, ?_, ?_, s01, s02, s03, ?_, ?_, ?_, hother, ho, ho', hglue⟩⟩
    · rw [vert_eq hp1]; exact hga
    · rw [vert_eq hp1]; exact hgb
    · rw [vert_eq hp1]
    · rw [vert_eq tp1, s11]
    · rw [vert_eq tp1, s12]
    · rw [vert_eq tp1, s13]
  · intro l k0 k1
    rw [hpol, if_neg k1, if_neg k0]
  · intro x c e x0 x1 c0 c1
    have hx : FlipEdge l0 d0 l1 d1 (x, e) := ⟨fun k => absurd k x0, fun k => absurd k x1⟩
    have fx := Disk.Flip.fo5 (d0 := d0) (d1 := d1) (x := (x, e)) x0 x1
    rw [hopp]
    constructor
    · rintro ⟨k, hk, ⟨k1, -⟩ | ⟨k1, -⟩ | ⟨k1, k2, k3⟩⟩
      · injection k1 with k1; exact absurd k1 x0
      · injection k1 with k1; exact absurd k1 x1
      · rw [fx, Disk.Flip.fo5 (x := (c.1, k)) c0 c1] at k3
        rw [k3]
        simp [← hk]
    · intro hc
      obtain ⟨k, k1, -⟩ := hs.1.inv _ _ _ _ hc
      refine ⟨k, k1, Or.inr (Or.inr ⟨hx, ⟨fun k => absurd k c0, fun k => absurd k c1⟩, ?_⟩)⟩
      rw [fx, Disk.Flip.fo5 (x := (c.1, k)) c0 c1, hc]
      simp [← k1]

end MSurf
end Flat
