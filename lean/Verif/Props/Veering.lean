import Verif.Lemmas.Veering
import Verif.Props.JInvariant

/-!
# C94: veering triangulations
-/

namespace Flat
namespace MSurf
variable {L K : Type} [LinearOrder L] [LabelNum L] [Field K] [LinearOrder K] [IsStrictOrderedRing K]

/-- All edges are glued. -/
def AllGlued (s : MSurf L (Poly K)) : Prop := ∀ l p (e : ℕ), s.polygon l = .ok p → e < p.length → ∃ c, s.oppositeEdge l e = .ok (some c)

/-- The flip test of `_delaunay_edge_needs_flip_Linfinity` in terms of the edges. -/
def edgeCode (s : MSurf L (Poly K)) (l : L) (e : ℕ) (l' : L) (e' : ℕ) : Except Err ℕ :=
  linfCode ((s.polyAt l).edge e) ((s.polyAt l).edge (e + 2)) ((s.polyAt l).edge (e + 1)) ((s.polyAt l').edge (e' + 2)) ((s.polyAt l').edge (e' + 1))

theorem allGlued_iff {s : MSurf L (Poly K)} (hs : GInv s) (ht : Triangulated s) :
    s.AllGlued ↔ ∀ l ∈ s.polygons.keys, ∀ e < 3, s.opp l (e : ℕ) ≠ none := by
  constructor
  · intro h l hl e he hn
    rw [Dict.mem_keys_iff] at hl
    obtain ⟨p, hp⟩ := Option.isSome_iff_exists.1 hl
    have h3 := (ht l p (polygon_ok.2 hp)).1
    obtain ⟨c, hc⟩ := h l p e (polygon_ok.2 hp) (by omega)
    rw [oppositeEdge_eq_opp hs.toShape ⟨p, hp, by show e < p.length; omega⟩, hn] at hc
    cases hc
  · intro h l p e hp he
    have h3 := (ht l p hp).1
    rw [polygon_ok] at hp
    have := h l (by rw [Dict.mem_keys_iff, hp]; rfl) e (by omega)
    obtain ⟨c, hc⟩ := Option.ne_none_iff_exists'.1 this
    exact ⟨c, by rw [oppositeEdge_eq_opp hs.toShape ⟨p, hp, he⟩, hc]⟩

/-- The polygon of an edge. -/
theorem triangle_of_opp {s : MSurf L (Poly K)} (hs : GInv s) (ht : Triangulated s) {l : L} {e : ℕ} {c : L × Int} (ho : s.opp l e = some c) :
    s.polygons.get l = some (s.polyAt l) ∧ (s.polyAt l).length = 3 ∧ 0 < (s.polyAt l).area := by
  obtain ⟨p, hp, -⟩ := opp_isEdge hs.toShape ho
  rw [polyAt_eq hp]
  exact ⟨hp, ht l p (polygon_ok.2 hp)⟩

/-- The test of an edge of a triangulated translation surface. -/
theorem needsFlipLinf_eq {s : MSurf L (Poly K)} (hs : GInv s) (ht : Triangulated s) (htr : s.Translates) {l l' : L} {e e' : ℕ}
    (ho : s.opp l e = some (l', (e' : Int))) : s.needsFlipLinf l e l' e' = s.edgeCode l e l' e' := by
  obtain ⟨hp, h3, ha⟩ := triangle_of_opp hs ht ho
  obtain ⟨hp', h3', ha'⟩ := triangle_of_opp hs ht (opp_back hs ho)
  have hdiag := (translates_iff hs).1 htr _ _ _ _ ho
  have hne' := edge_ne_zero_of_area h3' ha' e'
  obtain ⟨g, hg, hsign, hgm⟩ := edgeTransformation_exists hs hp hp' ho (edge_ne_zero_of_area h3 ha e) hne'
  have hfix : ∀ w, g.derivative.mulVec w = w := fun w => by
    have := rotScale_fixes hsign hne' 1 (by rw [hgm, hdiag, neg_neg, one_smul]) w
    rwa [one_smul] at this
  have hopp : s.oppositeEdge l (e : Int) = .ok (some (l', (e' : Int))) := by
    rw [oppositeEdge_eq_opp hs.toShape (opp_isEdge hs.toShape ho), ho]
  have n1 : nv (s.polyAt l) = 3 := h3
  have n2 : nv (s.polyAt l') = 3 := h3'
  unfold needsFlipLinf edgeCode
  simp only [hopp, polygon_ok.2 hp, polygon_ok.2 hp', hg, bind, Except.bind, hfix, n1, n2, ne_eq, not_true_eq_false, if_false, or_self, pure,
    Except.pure]

/-- The vectors around an edge. -/
theorem around {s : MSurf L (Poly K)} (hs : GInv s) (ht : Triangulated s) (htr : s.Translates) {l l' : L} {e e' : ℕ}
    (ho : s.opp l e = some (l', (e' : Int))) :
    (s.polyAt l).edge e + (s.polyAt l).edge (e + 2) + (s.polyAt l).edge (e + 1) = 0 ∧
    (s.polyAt l').edge (e' + 2) + (s.polyAt l').edge (e' + 1) = (s.polyAt l).edge e ∧
    0 < ccw ((s.polyAt l).edge e) ((s.polyAt l).edge (e + 1)) ∧ 0 < ccw ((s.polyAt l').edge (e' + 1)) ((s.polyAt l).edge e) := by
  obtain ⟨hp, h3, ha⟩ := triangle_of_opp hs ht ho
  obtain ⟨hp', h3', ha'⟩ := triangle_of_opp hs ht (opp_back hs ho)
  have hdiag := (translates_iff hs).1 htr _ _ _ _ ho
  have s0 := edge_succ_three _ h3 e
  have s1 := edge_succ_three _ h3' e'
  have B0 := area_of_length_three _ h3 e
  have B1 := area_of_length_three _ h3' e'
  have r2 : (s.polyAt l').edge (e' + 2) + (s.polyAt l').edge (e' + 1) = (s.polyAt l).edge e := by
    rw [hdiag, s1, neg_neg, add_comm]
  refine ⟨by rw [s0]; abel, r2, ?_, ?_⟩
  · rw [s0]
    simp only [ccw, Prod.fst_neg, Prod.snd_neg, Prod.fst_add, Prod.snd_add] at B0 ⊢
    linarith
  · rw [← r2]
    simp only [ccw, Prod.fst_add, Prod.snd_add] at B1 ⊢
    linarith

theorem edgeCode_symm {s : MSurf L (Poly K)} (hs : GInv s) (ht : Triangulated s) (htr : s.Translates) {l l' : L} {e e' : ℕ}
    (ho : s.opp l e = some (l', (e' : Int))) : s.edgeCode l' e' l e = s.edgeCode l e l' e' := by
  obtain ⟨hp, h3, ha⟩ := triangle_of_opp hs ht ho
  obtain ⟨hp', h3', ha'⟩ := triangle_of_opp hs ht (opp_back hs ho)
  obtain ⟨r1, r2, -, -⟩ := around hs ht htr ho
  unfold edgeCode
  rw [(translates_iff hs).1 htr _ _ _ _ (opp_back hs ho)]
  exact linfCode_symm r1 r2 (edge_ne_zero_of_area h3 ha _) (edge_ne_zero_of_area h3 ha _) (edge_ne_zero_of_area h3 ha _)
    (edge_ne_zero_of_area h3' ha' _) (edge_ne_zero_of_area h3' ha' _)

/-- What a flip does not change. -/
theorem flip_gluings {s t : MSurf L (Poly K)} (hs : Good s) (ht : Triangulated s) {l0 l1 : L} {d0 d1 : ℕ}
    (ho : s.opp l0 d0 = some (l1, (d1 : Int))) (hf : triangleFlip l0 d0 s = .ok () t) :
    (∀ l, l ≠ l0 → l ≠ l1 → t.polyAt l = s.polyAt l) ∧
    (∀ l (e : ℕ) l' (e' : ℕ), l ≠ l0 → l ≠ l1 → l' ≠ l0 → l' ≠ l1 → t.opp l e = some (l', (e' : Int)) → s.opp l e = some (l', (e' : Int))) ∧
    ((∀ l ∈ s.polygons.keys, ∀ e < 3, s.opp l (e : ℕ) ≠ none) → ∀ l ∈ s.polygons.keys, ∀ e < 3, t.opp l (e : ℕ) ≠ none) ∧
    (FullRoots s → FullRoots t) := by
  obtain ⟨hp0, h0, -⟩ := triangle_of_opp hs.1 ht ho
  obtain ⟨hp1, h1, -⟩ := triangle_of_opp hs.1 ht (opp_back hs.1 ho)
  have spec := triangleFlip_spec hs l0 l1 d0 d1 _ _ hp0 hp1 h0 h1 ho
  unfold wp at spec
  rw [hf] at spec
  obtain ⟨hg, hfull, hd, ⟨g, hT, hsign, hwf, hgm, hturn, Q0, Q1, hq0, hq1, hv0, hv1, e01, e02, e00, e11, e12, e10, hpol⟩, hgl, hopp⟩ := spec
  have hd0 : d0 < 3 := lt_three_of_opp hs.1 hp0 h0 ho
  have hd1 : d1 < 3 := lt_three_of_opp hs.1 hp1 h1 (opp_back hs.1 ho)
  have hold : ∀ l (e : ℕ), l ≠ l0 → l ≠ l1 → flipOld l0 d0 l1 d1 (l, e) = (l, e) := fun l e m0 m1 => by
    unfold flipOld
    rw [if_neg, if_neg, if_neg, if_neg] <;> simp [m0, m1]
  refine ⟨fun l m0 m1 => ?_, fun l e l' e' m0 m1 m0' m1' hc => ?_, fun hall l hl e he => ?_, hfull⟩
  · unfold polyAt
    rw [hpol, if_neg m1, if_neg m0]
  · obtain ⟨k, hk, hcase⟩ := (hopp _ _ _).1 hc
    dsimp only at hk hcase
    rw [Int.natCast_inj] at hk
    subst hk
    rcases hcase with ⟨c1, -⟩ | ⟨c1, -⟩ | ⟨-, -, c3⟩
    · injection c1 with c1; exact absurd c1 m0
    · injection c1 with c1; exact absurd c1 m1
    · rwa [hold l e m0 m1, hold l' _ m0' m1'] at c3
  · by_cases hx : (l, e) = (l0, d0)
    · have := (hopp l e (l1, (d1 : Int))).2 ⟨d1, rfl, .inl ⟨hx, rfl⟩⟩
      rw [this]; simp
    by_cases hy : (l, e) = (l1, d1)
    · have := (hopp l e (l0, (d0 : Int))).2 ⟨d0, rfl, .inr (.inl ⟨hy, rfl⟩)⟩
      rw [this]; simp
    have hE : FlipEdge l0 d0 l1 d1 (l, e) :=
      ⟨fun h => ⟨he, fun h' => hx (Prod.ext h h')⟩, fun h => ⟨he, fun h' => hy (Prod.ext h h')⟩⟩
    have hmem : (flipOld l0 d0 l1 d1 (l, e)).1 ∈ s.polygons.keys ∧ (flipOld l0 d0 l1 d1 (l, e)).2 < 3 := by
      have k0 : l0 ∈ s.polygons.keys := by rw [Dict.mem_keys_iff, hp0]; rfl
      have k1 : l1 ∈ s.polygons.keys := by rw [Dict.mem_keys_iff, hp1]; rfl
      unfold flipOld
      split_ifs
      · exact ⟨k0, Nat.mod_lt _ (by omega)⟩
      · exact ⟨k1, Nat.mod_lt _ (by omega)⟩
      · exact ⟨k1, Nat.mod_lt _ (by omega)⟩
      · exact ⟨k0, Nat.mod_lt _ (by omega)⟩
      · exact ⟨hl, he⟩
    obtain ⟨c, hc⟩ := Option.ne_none_iff_exists'.1 (hall _ hmem.1 _ hmem.2)
    have fl : Flipped l0 d0 l1 d1 s t := hopp
    obtain ⟨y, -, hy⟩ := fl.partner hs.1 hd ho hp0 hp1 h0 h1 hE hc
    rw [hy]; simp

/-- What holds for the surface while edges are flipped. -/
structure VInv (s0 s : MSurf L (Poly K)) : Prop where
  good : Good s
  tri : Triangulated s
  trans : s.Translates
  reach : Reachable s0 → Reachable s
  full : FullRoots s0 → FullRoots s
  flips : Relation.ReflTransGen AnyFlip s0 s
  keys : ∀ l, l ∈ s.polygons.keys ↔ l ∈ s0.polygons.keys
  glued : (∀ l ∈ s0.polygons.keys, ∀ e < 3, s0.opp l (e : ℕ) ≠ none) → ∀ l ∈ s.polygons.keys, ∀ e < 3, s.opp l (e : ℕ) ≠ none

/-- The pairs of edges that are not known to be in order. -/
def Pending (bound : ℕ) (s : MSurf L (Poly K)) (R : L → ℕ → Prop) : Prop :=
  ∀ l (e : ℕ) l' (e' : ℕ), s.opp l e = some (l', (e' : Int)) → R l e ∨ R l' e' ∨ ∃ n, s.edgeCode l e l' e' = .ok n ∧ n < bound

theorem mem_setAdd {ts : List L} {p x : L} : x ∈ setAdd ts p ↔ x = p ∨ x ∈ ts := by
  unfold setAdd
  split_ifs with h
  · exact ⟨.inr, fun k => k.elim (fun k => k ▸ h) id⟩
  · simp

/-- Nothing prevents the flips of the edges that ask for it. -/
structure VOk (s0 : MSurf L (Poly K)) : Prop where
  full : FullRoots s0
  glued : ∀ l ∈ s0.polygons.keys, ∀ e < 3, s0.opp l (e : ℕ) ≠ none

theorem edgeCode_ok {s : MSurf L (Poly K)} (hg : GInv s) (ht : Triangulated s) (htr : s.Translates) {l l' : L} {e e' : ℕ}
    (ho : s.opp l e = some (l', (e' : Int))) : ∃ n ≤ 2, s.edgeCode l e l' e' = .ok n := by
  obtain ⟨-, h3, ha⟩ := triangle_of_opp hg ht ho
  obtain ⟨-, h3', ha'⟩ := triangle_of_opp hg ht (opp_back hg ho)
  obtain ⟨r1, r2, -, -⟩ := around hg ht htr ho
  have B0 := area_of_length_three _ h3 e
  have B1 := area_of_length_three _ h3' e'
  exact linfCode_ok r1 r2 (by rw [← B0]; linarith) (by rw [← B1]; linarith) (edge_ne_zero_of_area h3 ha _)
    (edge_ne_zero_of_area h3 ha _) (edge_ne_zero_of_area h3 ha _) (edge_ne_zero_of_area h3' ha' _) (edge_ne_zero_of_area h3' ha' _)

/-- An edge that asks for a flip can be flipped. -/
theorem flip_of_code {s0 s : MSurf L (Poly K)} (hv : VInv s0 s) (hok : VOk s0) {l l' : L} {e e' n : ℕ}
    (ho : s.opp l e = some (l', (e' : Int))) (hc : s.edgeCode l e l' e' = .ok n) (hn : 0 < n) : ∃ t, triangleFlip l e s = .ok () t := by
  have hg := hv.good.1
  obtain ⟨hp, h3, ha⟩ := triangle_of_opp hg hv.tri ho
  obtain ⟨hp', h3', ha'⟩ := triangle_of_opp hg hv.tri (opp_back hg ho)
  have hdiag := (translates_iff hg).1 hv.trans _ _ _ _ ho
  have hne' := edge_ne_zero_of_area h3' ha' e'
  obtain ⟨g, hT, hsign, hgm⟩ := edgeTransformation_exists hg hp hp' ho (edge_ne_zero_of_area h3 ha e) hne'
  have hfix : ∀ w, g.derivative.mulVec w = w := fun w => by
    have := rotScale_fixes hsign hne' 1 (by rw [hgm, hdiag, neg_neg, one_smul]) w
    rwa [one_smul] at this
  have hB0 := area_of_length_three _ h3 e
  have hB1 := area_of_length_three _ h3' e'
  refine triangleFlip_ok hv.good (hv.full hok.full) l l' e e' _ _ hp hp' h3 h3' ho ?_ ⟨g, hT, ?_⟩ ?_
  · rintro rfl
    by_contra hee
    have he := lt_three_of_opp hg hp h3 ho
    have he' := lt_three_of_opp hg hp h3 (opp_back hg ho)
    have s0 := edge_succ_three _ h3 e
    have : e' % 3 = (e + 1) % 3 ∨ e' % 3 = (e + 2) % 3 := by omega
    rcases this with h | h
    · rw [(s.polyAt l).edge_congr (i := e') (j := e + 1) (by rw [h3]; exact h), s0, neg_inj, add_eq_left] at hdiag
      exact edge_ne_zero_of_area h3 ha _ hdiag
    · rw [(s.polyAt l).edge_congr (i := e') (j := e + 2) (by rw [h3]; exact h), s0, neg_inj, add_eq_right] at hdiag
      exact edge_ne_zero_of_area h3 ha _ hdiag
  · rw [hfix, hfix]
    unfold edgeCode linfCode at hc
    split_ifs at hc with hx
    · injection hc with hc; omega
    · push Not at hx
      exact ⟨by rw [← hB1]; linarith, hx.1, by rw [← hB0]; linarith, hx.2⟩
  · rintro ⟨x, i⟩ hx hi
    refine hv.glued hok.glued x ?_ i hi
    rcases hx with hx | hx <;> dsimp only at hx <;> subst hx <;> rw [Dict.mem_keys_iff]
    · rw [hp]; rfl
    · rw [hp']; rfl

theorem veeringEdges_spec {bound : ℕ} {p1 : L} {s0 : MSurf L (Poly K)} (n k : ℕ) (ts : List L) (limit : Int) (s : MSurf L (Poly K)) (hs : VInv s0 s)
    (h0 : limit ≠ 0) (hk : k + n ≤ 3) (hp : limit < 0 → Pending bound s (fun l e => l ∈ ts ∨ (l = p1 ∧ k ≤ e ∧ e < k + n))) :
    wp (veeringEdges bound p1 (List.range' k n) ts limit) (fun r t => VInv s0 t ∧ (0 < limit → 0 ≤ r.2) ∧
        (limit < 0 → r.2 < 0 ∧ Pending bound t (fun l _ => l ∈ r.1)) ∧
        (p1 ∈ s0.polygons.keys → (∀ l ∈ ts, l ∈ s0.polygons.keys) → ∀ l ∈ r.1, l ∈ s0.polygons.keys))
      (fun _ _ => ¬ (VOk s0 ∧ 0 < bound ∧ p1 ∈ s0.polygons.keys)) s := by
  induction n generalizing k ts limit s with
  | zero =>
    rw [List.range'_zero, veeringEdges, wp_pure]
    refine ⟨hs, le_of_lt, fun hl => ⟨hl, fun l e l' e' ho => ?_⟩, fun _ h => h⟩
    rcases hp hl l e l' e' ho with (h | h) | (h | h) | h
    · exact .inl h
    · omega
    · exact .inr (.inl h)
    · omega
    · exact .inr (.inr h)
  | succ n ih =>
    rw [List.range'_succ, veeringEdges, wp_bind, wp_get, wp_bind, wp_liftE]
    refine ⟨fun c hc => ?_, fun x hx hok => ?_⟩
    swap
    · obtain ⟨hok, -, hp1⟩ := hok
      have hne := hs.glued hok.glued p1 ((hs.keys p1).2 hp1) k (by omega)
      obtain ⟨c, hc⟩ := Option.ne_none_iff_exists'.1 hne
      rw [oppositeEdge!, oppositeEdge_eq_opp hs.good.1.toShape (opp_isEdge hs.good.1.toShape hc), hc] at hx
      cases hx
    have ho : s.opp p1 k = some c := by
      unfold oppositeEdge! at hc
      cases ho : s.oppositeEdge p1 (k : Int) with
      | error x => rw [ho] at hc; cases hc
      | ok o =>
        rw [ho] at hc
        cases o with
        | none => cases hc
        | some d =>
          injection hc with hc
          subst hc
          have hE : s.IsEdge p1 k := by
            by_contra hn
            rw [oppositeEdge_error hs.good.1.toShape hn] at ho
            cases ho
          rw [oppositeEdge_eq_opp hs.good.1.toShape hE] at ho
          injection ho
    obtain ⟨l1, d1⟩ := c
    obtain ⟨d1, rfl, -⟩ := hs.good.1.inv _ _ _ _ ho
    dsimp only
    rw [wp_bind, wp_liftE, Int.toNat_natCast, needsFlipLinf_eq hs.good.1 hs.tri hs.trans ho]
    refine ⟨fun m hm => ?_, fun x hx => ?_⟩
    swap
    · obtain ⟨n, -, hn⟩ := edgeCode_ok hs.good.1 hs.tri hs.trans ho
      rw [hx] at hn
      cases hn
    rw [wp_ite]
    refine ⟨fun hbm => ?_, fun hb => ?_⟩
    · rw [wp_bind]
      unfold wp
      cases hf : triangleFlip p1 k s with
      | error x t =>
        rintro ⟨hok, hb, -⟩
        obtain ⟨t', ht'⟩ := flip_of_code hs hok ho hm (by omega)
        rw [hf] at ht'
        cases ht'
      | ok u t =>
        dsimp only
        obtain ⟨k1, k2, k3, k4, -⟩ := flip_translation hs.good hs.tri hs.trans hf
        obtain ⟨q1, q2, q3, q4⟩ := flip_gluings hs.good hs.tri ho hf
        have hr : Reachable s0 → Reachable t := fun h => by
          have := Reachable.step _ (.triangleFlip p1 k) (hs.reach h) hs.good.2.1 trivial (by simp)
          simp only [Op.run, hf, stateOf] at this
          exact this
        have hv : VInv s0 t := ⟨k1, k2, k3, hr, fun h => q4 (hs.full h), hs.flips.tail ⟨p1, k, hf⟩, fun l => (k4 l).trans (hs.keys l),
          fun h l hl => q3 (hs.glued h) l ((k4 l).1 hl)⟩
        have hpend : limit < 0 → ∀ R : L → ℕ → Prop, (∀ l e, l ∈ setAdd (setAdd ts p1) l1 → R l e) → Pending bound t R := by
          intro hl R hR l e l' e' hc
          by_cases m : l ∈ setAdd (setAdd ts p1) l1
          · exact .inl (hR l e m)
          by_cases m' : l' ∈ setAdd (setAdd ts p1) l1
          · exact .inr (.inl (hR l' e' m'))
          simp only [mem_setAdd, not_or] at m m'
          rcases hp hl l e l' e' (q2 l e l' e' m.2.1 m.1 m'.2.1 m'.1 hc) with (h | h) | (h | h) | h
          · exact absurd h m.2.2
          · exact absurd h.1 m.2.1
          · exact absurd h m'.2.2
          · exact absurd h.1 m'.2.1
          · refine .inr (.inr ?_)
            unfold edgeCode at h ⊢
            rwa [q1 l m.2.1 m.1, q1 l' m'.2.1 m'.1]
        have hrest : wp (if limit - 1 = 0 then pure (setAdd (setAdd ts p1) l1, limit - 1)
            else veeringEdges bound p1 (List.range' (k + 1) n) (setAdd (setAdd ts p1) l1) (limit - 1) : Act L (Poly K) (List L × Int))
            (fun r t => VInv s0 t ∧ (0 < limit → 0 ≤ r.2) ∧
        (limit < 0 → r.2 < 0 ∧ Pending bound t (fun l _ => l ∈ r.1)) ∧
              (p1 ∈ s0.polygons.keys → (∀ l ∈ ts, l ∈ s0.polygons.keys) → ∀ l ∈ r.1, l ∈ s0.polygons.keys))
            (fun _ _ => ¬ (VOk s0 ∧ 0 < bound ∧ p1 ∈ s0.polygons.keys)) t := by
          have hsub : p1 ∈ s0.polygons.keys → (∀ l ∈ ts, l ∈ s0.polygons.keys) → ∀ l ∈ setAdd (setAdd ts p1) l1, l ∈ s0.polygons.keys := by
            intro hp1 hts l hl
            simp only [mem_setAdd] at hl
            rcases hl with rfl | rfl | hl
            · rw [← hs.keys, Dict.mem_keys_iff, (triangle_of_opp hs.good.1 hs.tri (opp_back hs.good.1 ho)).1]
              rfl
            · exact hp1
            · exact hts l hl
          rw [wp_ite]
          refine ⟨fun h => ⟨hv, fun _ => h.ge, fun hl => (by omega), hsub⟩, fun _ => ?_⟩
          exact wp_mono (ih (k + 1) _ (limit - 1) t hv (by assumption) (by omega) fun h => hpend (by omega) _ fun _ _ h => .inl h)
            (fun r t' h => ⟨h.1, fun hl => h.2.1 (by omega), fun hl => h.2.2.1 (by omega),
              fun hp1 hts => h.2.2.2 hp1 (hsub hp1 hts)⟩) (fun _ _ h => h)
        exact hrest
    · clear hc
      refine ih (k + 1) ts limit s hs h0 (by omega) fun hl l e l' e' hc => ?_
      have hfine : ∃ n, s.edgeCode p1 k l1 d1 = .ok n ∧ n < bound := ⟨m, hm, by omega⟩
      by_cases x1 : l = p1 ∧ e = k
      · obtain ⟨rfl, rfl⟩ := x1
        rw [ho] at hc
        injection hc with hc
        injection hc with hc1 hc2
        rw [Int.natCast_inj] at hc2
        subst hc1 hc2
        exact .inr (.inr hfine)
      by_cases x2 : l' = p1 ∧ e' = k
      · obtain ⟨rfl, rfl⟩ := x2
        have hc' := opp_back hs.good.1 hc
        rw [ho] at hc'
        injection hc' with hc'
        injection hc' with hc1 hc2
        rw [Int.natCast_inj] at hc2
        subst hc1 hc2
        rw [edgeCode_symm hs.good.1 hs.tri hs.trans ho]
        exact .inr (.inr hfine)
      rcases hp hl l e l' e' hc with (h | h) | (h | h) | h
      · exact .inl (.inl h)
      · have hne : e ≠ k := fun h' => x1 ⟨h.1, h'⟩
        exact .inl (.inr ⟨h.1, by omega, by omega⟩)
      · exact .inr (.inl (.inl h))
      · have hne : e' ≠ k := fun h' => x2 ⟨h.1, h'⟩
        exact .inr (.inl (.inr ⟨h.1, by omega, by omega⟩))
      · exact .inr (.inr h)

theorem veeringLoop_spec {bound : ℕ} {pop : List L → L} {s0 : MSurf L (Poly K)} (fuel : ℕ) (ts : List L) (limit : Int) (s : MSurf L (Poly K))
    (hs : VInv s0 s) (hp : limit < 0 → Pending bound s (fun l _ => l ∈ ts)) :
    wp (veeringLoop bound pop fuel ts limit) (fun _ t => VInv s0 t ∧ (limit < 0 → Pending bound t (fun _ _ => False)))
      (fun x _ => x = .outOfFuel ∨ ¬ (VOk s0 ∧ 0 < bound ∧ (∀ ts, ts ≠ [] → pop ts ∈ ts) ∧ ∀ l ∈ ts, l ∈ s0.polygons.keys)) s := by
  induction fuel generalizing ts limit s with
  | zero =>
    rw [veeringLoop, wp_liftE]
    exact ⟨fun _ h => (by cases h), fun _ h => .inl (by injection h with h; exact h.symm)⟩
  | succ fuel ih =>
    rw [veeringLoop, wp_ite]
    refine ⟨fun h => ⟨hs, fun hl => ?_⟩, fun h => ?_⟩
    · have h : ts = [] := h.resolve_right (by omega)
      subst h
      intro l e l' e' ho
      simpa using hp hl l e l' e' ho
    · push Not at h
      rw [wp_bind]
      refine wp_mono (veeringEdges_spec 3 0 (ts.erase (pop ts)) limit s hs h.2 (by omega) fun hl l e l' e' ho => ?_) (fun r t ht => ?_)
        (fun _ _ hx => .inr fun hk => hx ⟨hk.1, hk.2.1, hk.2.2.2 _ (hk.2.2.1 ts h.1)⟩)
      · have h3 : ∀ {l : L} {e : ℕ} {c : L × Int}, s.opp l e = some c → e < 3 := fun ho => by
          obtain ⟨q1, q2, -⟩ := triangle_of_opp hs.good.1 hs.tri ho
          exact lt_three_of_opp hs.good.1 q1 q2 ho
        have hmem : ∀ {l : L} {e : ℕ}, e < 3 → l ∈ ts → l ∈ ts.erase (pop ts) ∨ (l = pop ts ∧ 0 ≤ e ∧ e < 0 + 3) := fun {l e} he hl => by
          by_cases hx : l = pop ts
          · exact .inr ⟨hx, by omega, by omega⟩
          · exact .inl ((List.mem_erase_of_ne hx).2 hl)
        rcases hp hl l e l' e' ho with h | h | h
        · exact .inl (hmem (h3 ho) h)
        · exact .inr (.inl (hmem (h3 (opp_back hs.good.1 ho)) h))
        · exact .inr (.inr h)
      · have herr : ∀ (x : Err) (u : MSurf L (Poly K)),
            x = .outOfFuel ∨ ¬ (VOk s0 ∧ 0 < bound ∧ (∀ ts, ts ≠ [] → pop ts ∈ ts) ∧ ∀ l ∈ r.1, l ∈ s0.polygons.keys) →
            x = .outOfFuel ∨ ¬ (VOk s0 ∧ 0 < bound ∧ (∀ ts, ts ≠ [] → pop ts ∈ ts) ∧ ∀ l ∈ ts, l ∈ s0.polygons.keys) :=
          fun x _ hx => hx.imp id fun hx hk => hx ⟨hk.1, hk.2.1, hk.2.2.1, ht.2.2.2 (hk.2.2.2 _ (hk.2.2.1 ts h.1))
            fun l hl => hk.2.2.2 l (List.mem_of_mem_erase hl)⟩
        by_cases hl : limit < 0
        · exact wp_mono (ih r.1 r.2 t ht.1 fun _ => (ht.2.2.1 hl).2) (fun _ t' h => ⟨h.1, fun _ => h.2 (ht.2.2.1 hl).1⟩) herr
        · have := ht.2.1 (by omega)
          exact wp_mono (ih r.1 r.2 t ht.1 fun h => by omega) (fun _ t' h => ⟨h.1, fun h => absurd h hl⟩) herr

/-- The three edges of a triangle have the same slope. -/
def MonoTri (P : Poly K) : Prop := ∀ i j, 0 < (P.edge i).1 * (P.edge i).2 ↔ 0 < (P.edge j).1 * (P.edge j).2

theorem monoTri_of {P : Poly K} (h : P.length = 3) (e : ℕ) (h1 : 0 < (P.edge e).1 * (P.edge e).2 ↔ 0 < (P.edge (e + 2)).1 * (P.edge (e + 2)).2)
    (h2 : 0 < (P.edge e).1 * (P.edge e).2 ↔ 0 < (P.edge (e + 1)).1 * (P.edge (e + 1)).2) : MonoTri P := by
  have key : ∀ i, 0 < (P.edge i).1 * (P.edge i).2 ↔ 0 < (P.edge e).1 * (P.edge e).2 := fun i => by
    have : i % 3 = e % 3 ∨ i % 3 = (e + 1) % 3 ∨ i % 3 = (e + 2) % 3 := by omega
    rcases this with h' | h' | h'
    · rw [P.edge_congr (i := i) (j := e) (by rw [h]; exact h')]
    · rw [P.edge_congr (i := i) (j := e + 1) (by rw [h]; exact h'), h2]
    · rw [P.edge_congr (i := i) (j := e + 2) (by rw [h]; exact h'), h1]
  exact fun i j => (key i).trans (key j).symm

/-- When no edge asks for a flip there are no triangles with three edges of the same slope. -/
theorem no_mono {bound : ℕ} (hb : bound ≤ 2) {s : MSurf L (Poly K)} (hs : GInv s) (ht : Triangulated s) (htr : s.Translates)
    (hg : ∀ l ∈ s.polygons.keys, ∀ e < 3, s.opp l (e : ℕ) ≠ none) (hp : Pending bound s (fun _ _ => False))
    (hx : ∀ l ∈ s.polygons.keys, ∀ e, ((s.polyAt l).edge e).1 * ((s.polyAt l).edge e).2 ≠ 0) : ∀ l ∈ s.polygons.keys, ¬ MonoTri (s.polyAt l) := by
  classical
  intro l0 hl0 hm0
  obtain ⟨⟨l, e⟩, hle, hmax⟩ := Finset.exists_max_image ((s.polygons.keys.toFinset ×ˢ Finset.range 3).filter (fun x => MonoTri (s.polyAt x.1)))
    (fun x => |((s.polyAt x.1).edge x.2).1| + |((s.polyAt x.1).edge x.2).2|) ⟨(l0, 0), by simp [hl0, hm0]⟩
  simp only [Finset.mem_filter, Finset.mem_product, List.mem_toFinset, Finset.mem_range, and_imp, Prod.forall] at hle hmax
  obtain ⟨⟨hl, he⟩, hm⟩ := hle
  obtain ⟨⟨l', e'⟩, ho⟩ := Option.ne_none_iff_exists'.1 (hg l hl e he)
  obtain ⟨e', rfl, -⟩ := hs.inv _ _ _ _ ho
  obtain ⟨hq, h3, ha⟩ := triangle_of_opp hs ht ho
  obtain ⟨hq', h3', ha'⟩ := triangle_of_opp hs ht (opp_back hs ho)
  have hl' : l' ∈ s.polygons.keys := by rw [Dict.mem_keys_iff, hq']; rfl
  have hmax' : ∀ l1 ∈ s.polygons.keys, MonoTri (s.polyAt l1) → ∀ i, |((s.polyAt l1).edge i).1| + |((s.polyAt l1).edge i).2| ≤
      |((s.polyAt l).edge e).1| + |((s.polyAt l).edge e).2| := fun l1 hl1 hm1 i => by
    obtain ⟨p, hp⟩ := Option.isSome_iff_exists.1 ((Dict.mem_keys_iff _ _).1 hl1)
    have h3 := (ht l1 p (polygon_ok.2 hp)).1
    rw [← polyAt_eq hp] at h3
    have := hmax l1 (i % 3) hl1 (Nat.mod_lt _ (by omega)) hm1
    rwa [← h3, Poly.edge_mod] at this
  obtain ⟨r1, r2, r3, r4⟩ := around hs ht htr ho
  have hdiag := (translates_iff hs).1 htr _ _ _ _ ho
  have code : s.edgeCode l e l' e' = .ok 2 := by
    refine linfCode_two r1 r2 r3 r4 (hx l hl e) (hm _ _) (hm _ _) (hx l hl _) (hx l hl _) (hx l' hl' _) (hx l' hl' _) (hmax' l hl hm _)
      (hmax' l hl hm _) ?_
    by_cases hm' : MonoTri (s.polyAt l')
    · exact .inr ⟨hmax' l' hl' hm' _, hmax' l' hl' hm' _⟩
    · refine .inl fun h => hm' (monoTri_of h3' e' ?_ ?_)
      · have := h.1
        rwa [hdiag, Prod.fst_neg, Prod.snd_neg, neg_mul_neg] at this
      · have := h.2
        rwa [hdiag, Prod.fst_neg, Prod.snd_neg, neg_mul_neg] at this
  rcases hp l e l' e' ho with h | h | ⟨n, h, hn⟩
  · exact h
  · exact h
  · rw [code] at h
    injection h with h
    omega

theorem veeringTest_true {s : MSurf L (Poly K)} {ls : List L} (h : ∀ l ∈ ls, ∃ p, s.polygon l = .ok p ∧ p.length = 3 ∧ ¬ MonoTri p ∧
    ∀ e, (p.edge e).1 * (p.edge e).2 ≠ 0) : s.veeringTest ls = .ok (true, none) := by
  induction ls with
  | nil => rfl
  | cons l ls ih =>
    obtain ⟨p, hp, h3, hm, hx⟩ := h l (by simp)
    have n1 : nv p = 3 := h3
    have key : ∀ {p q : Prop} [Decidable p] [Decidable q], ((if p then (1 : Int) else -1) = if q then 1 else -1) ↔ (p ↔ q) := by
      intro p q _ _
      split_ifs with h1 h2 h2 <;> simp [h1, h2]
    simp only [veeringTest, hp, n1, slope1_eq (hx _), bind, Except.bind, ne_eq, not_true_eq_false, if_false, key, pure, Except.pure]
    rw [if_neg fun k => hm (monoTri_of h3 0 (k.1.trans k.2) k.1)]
    exact ih fun l hl => h l (by simp [hl])

/-- What `veering_triangulation` does. -/
theorem veering_spec {pop : List L → L} {fuel : ℕ} {lInfinity : Bool} {limit : Option Int} {s : MSurf L (Poly K)} (hs : Reachable s)
    (hm : s.mutable = true) (ht : Triangulated s) (htr : s.Translates) :
    wp (veeringTriangulation pop fuel lInfinity limit) (fun _ t => ∃ t', VInv s t' ∧ t = { t' with roots := t.roots, mutable := false } ∧
      Reachable t ∧ (limit = none → Pending (if lInfinity then 1 else 2) t' (fun _ _ => False)))
      (fun x _ => x = .outOfFuel ∨ ¬ (VOk s ∧ ∀ ts, ts ≠ [] → pop ts ∈ ts)) s := by
  have hg : Good s := ⟨hs.ginv, hm, hs.rootsOK⟩
  have hv : VInv s s := ⟨hg, ht, htr, fun h => h, fun h => h, .refl, fun _ => Iff.rfl, fun h => h⟩
  obtain ⟨ls, hls, -, hmem⟩ := labels_spec hg.1 hg.2.2
  unfold veeringTriangulation
  rw [wp_bind, wp_get, wp_bind, wp_liftE]
  refine ⟨fun ls' h' => ?_, fun _ h' => by rw [hls] at h'; cases h'⟩
  rw [hls] at h'
  injection h' with h'
  subst h'
  rw [wp_bind]
  refine wp_mono (veeringLoop_spec fuel ls _ s hv fun _ l e l' e' ho => .inl ?_) (fun _ t' h => ?_)
    (fun _ _ h => h.imp id fun h hk => h ⟨hk.1, by split_ifs <;> omega, hk.2, fun l hl => (hmem l).1 hl⟩)
  · show l ∈ ls
    rw [hmem, Dict.mem_keys_iff, (triangle_of_opp hg.1 ht ho).1]
    rfl
  · have hr : Reachable t' := h.1.reach hs
    have hfr := setImmutable_frame t'
    unfold wp at hfr ⊢
    cases hi : setImmutable t' with
    | error x u =>
      have := setImmutable_ok h.1.good.1 h.1.good.2.2
      unfold wp at this
      rw [hi] at this
      exact this.elim
    | ok x u =>
      rw [hi] at hfr
      refine ⟨t', h.1, hfr.1, ?_, fun hl => h.2 (by rw [hl]; decide)⟩
      have := Reachable.step _ .setImmutable hr h.1.good.2.1 trivial (by simp)
      simp only [Op.run, hi, stateOf] at this
      exact this

/-- What `veering_triangulation` returns. -/
theorem veering_result {pop : List L → L} {fuel : ℕ} {lInfinity : Bool} {limit : Option Int} {s t : MSurf L (Poly K)} (hs : Reachable s)
    (hm : s.mutable = true) (ht : Triangulated s) (htr : s.Translates) (h : veeringTriangulation pop fuel lInfinity limit s = .ok () t) :
    ∃ t', VInv s t' ∧ t = { t' with roots := t.roots, mutable := false } ∧ Reachable t ∧
      (limit = none → Pending (if lInfinity then 1 else 2) t' (fun _ _ => False)) := by
  have spec := veering_spec (pop := pop) (fuel := fuel) (lInfinity := lInfinity) (limit := limit) hs hm ht htr
  unfold wp at spec
  rw [h] at spec
  exact spec

/-- **C94.** The test of `_delaunay_edge_needs_flip_Linfinity` returns 0, 1 or 2 for all glued edges of a triangulated translation surface; none
of its assertions fails.  Both sides of the edge lead to the same answer. -/
theorem C94_test {s : MSurf L (Poly K)} (hs : Reachable s) (ht : Triangulated s) (htr : s.Translates) {l l' : L} {e e' : ℕ}
    (ho : s.oppositeEdge l e = .ok (some (l', (e' : Int)))) :
    ∃ n ≤ 2, s.needsFlipLinf l e l' e' = .ok n ∧ s.needsFlipLinf l' e' l e = .ok n := by
  have hE : s.IsEdge l e := by
    by_contra hn
    rw [oppositeEdge_error hs.ginv.toShape hn] at ho
    cases ho
  rw [oppositeEdge_eq_opp hs.ginv.toShape hE] at ho
  injection ho with ho
  have hg := hs.ginv
  obtain ⟨-, h3, ha⟩ := triangle_of_opp hg ht ho
  obtain ⟨-, h3', ha'⟩ := triangle_of_opp hg ht (opp_back hg ho)
  obtain ⟨r1, r2, -, -⟩ := around hg ht htr ho
  have B0 := area_of_length_three _ h3 e
  have B1 := area_of_length_three _ h3' e'
  obtain ⟨n, hn, hc⟩ := linfCode_ok r1 r2 (by rw [← B0]; linarith) (by rw [← B1]; linarith) (edge_ne_zero_of_area h3 ha _)
    (edge_ne_zero_of_area h3 ha _) (edge_ne_zero_of_area h3 ha _) (edge_ne_zero_of_area h3' ha' _) (edge_ne_zero_of_area h3' ha' _)
  refine ⟨n, hn, ?_, ?_⟩
  · rw [needsFlipLinf_eq hg ht htr ho]; exact hc
  · rw [needsFlipLinf_eq hg ht htr (opp_back hg ho), edgeCode_symm hg ht htr ho]; exact hc

/-- **C94.** The surface that `veering_triangulation` returns, with any limit, is a triangulated translation surface that is obtained from the
triangulated surface by flips. -/
theorem C94_flips {pop : List L → L} {fuel : ℕ} {lInfinity : Bool} {limit : Option Int} {s t : MSurf L (Poly K)} (hs : Reachable s)
    (hm : s.mutable = true) (ht : Triangulated s) (htr : s.Translates) (h : veeringTriangulation pop fuel lInfinity limit s = .ok () t) :
    Reachable t ∧ Triangulated t ∧ t.Translates ∧ t.mutable = false ∧
      ∃ t', Relation.ReflTransGen AnyFlip s t' ∧ ∀ l, t.polygon l = t'.polygon l ∧ ∀ e, t.oppositeEdge l e = t'.oppositeEdge l e := by
  obtain ⟨t', hv, he, hr, -⟩ := veering_result hs hm ht htr h
  have h1 : ∀ l, t.polygon l = t'.polygon l := fun l => by rw [he]; rfl
  have h2 : ∀ l e, t.oppositeEdge l e = t'.oppositeEdge l e := fun l e => by rw [he]; rfl
  refine ⟨hr, fun l P hP => hv.tri l P (by rw [← h1]; exact hP), fun l e l' e' P P' k1 k2 k3 => ?_, by rw [he], t', hv.flips, fun l => ⟨h1 l, h2 l⟩⟩
  exact hv.trans l e l' e' P P' (by rw [← h2]; exact k1) (by rw [← h1]; exact k2) (by rw [← h1]; exact k3)

/-- **C94.** On a triangulated translation surface without boundary, `veering_triangulation` does not fail: every edge that asks for a flip can be
flipped, whatever the order is in which the triangles are visited and whatever the limit is.  (That the loop comes to an end is not proved.) -/
theorem C94_errors {pop : List L → L} {fuel : ℕ} {lInfinity : Bool} {limit : Option Int} {s : MSurf L (Poly K)} (hs : Reachable s)
    (hm : s.mutable = true) (hf : FullRoots s) (ht : Triangulated s) (htr : s.Translates) (hg : s.AllGlued)
    (hpop : ∀ ts, ts ≠ [] → pop ts ∈ ts) {x : Err} {t : MSurf L (Poly K)}
    (h : veeringTriangulation pop fuel lInfinity limit s = .error x t) : x = .outOfFuel := by
  have spec := veering_spec (pop := pop) (fuel := fuel) (lInfinity := lInfinity) (limit := limit) hs hm ht htr
  unfold wp at spec
  rw [h] at spec
  exact spec.resolve_right fun k => k ⟨⟨hf, (allGlued_iff hs.ginv ht).1 hg⟩, hpop⟩

theorem length_setAdd (ts : List L) (p : L) : (setAdd ts p).length ≤ ts.length + 1 := by
  unfold setAdd
  split_ifs <;> simp

theorem veeringEdges_count {bound : ℕ} {p1 : L} (es : List ℕ) (ts : List L) (limit : Int) (s : MSurf L (Poly K)) (h0 : 0 < limit) :
    wp (veeringEdges bound p1 es ts limit) (fun r _ => 0 ≤ r.2 ∧ (r.1.length : Int) + 2 * r.2 ≤ ts.length + 2 * limit) (fun _ _ => True) s := by
  induction es generalizing ts limit s with
  | nil =>
    rw [veeringEdges, wp_pure]
    exact ⟨h0.le, le_rfl⟩
  | cons k es ih =>
    rw [veeringEdges, wp_bind, wp_get, wp_bind, wp_liftE]
    refine ⟨fun c _ => ?_, fun _ _ => trivial⟩
    rw [wp_bind, wp_liftE]
    refine ⟨fun m _ => ?_, fun _ _ => trivial⟩
    rw [wp_ite]
    refine ⟨fun _ => ?_, fun _ => ih ts limit s h0⟩
    rw [wp_bind]
    unfold wp
    cases hf : triangleFlip p1 k s with
    | error x t => trivial
    | ok u t =>
      have hlen : ((setAdd (setAdd ts p1) c.1).length : Int) ≤ ts.length + 2 := by
        have h1 := length_setAdd ts p1
        have h2 := length_setAdd (setAdd ts p1) c.1
        omega
      have hrest : wp (if limit - 1 = 0 then pure (setAdd (setAdd ts p1) c.1, limit - 1)
          else veeringEdges bound p1 es (setAdd (setAdd ts p1) c.1) (limit - 1) : Act L (Poly K) (List L × Int))
          (fun r _ => 0 ≤ r.2 ∧ (r.1.length : Int) + 2 * r.2 ≤ ts.length + 2 * limit) (fun _ _ => True) t := by
        rw [wp_ite]
        refine ⟨fun h => ⟨h.ge, by dsimp only; omega⟩, fun h => ?_⟩
        exact wp_mono (ih _ (limit - 1) t (by omega)) (fun r _ hr => ⟨hr.1, by omega⟩) (fun _ _ h => h)
      exact hrest

theorem veeringLoop_count {bound : ℕ} {pop : List L → L} {s0 : MSurf L (Poly K)} (hok : VOk s0) (hb : 0 < bound) (hpop : ∀ ts, ts ≠ [] → pop ts ∈ ts)
    (fuel : ℕ) (ts : List L) (limit : Int) (s : MSurf L (Poly K)) (hs : VInv s0 s) (hts : ∀ l ∈ ts, l ∈ s0.polygons.keys) (h0 : 0 ≤ limit)
    (hfuel : ts.length + 2 * limit < fuel) : wp (veeringLoop bound pop fuel ts limit) (fun _ _ => True) (fun _ _ => False) s := by
  induction fuel generalizing ts limit s with
  | zero => omega
  | succ fuel ih =>
    rw [veeringLoop, wp_ite]
    refine ⟨fun _ => trivial, fun h => ?_⟩
    push Not at h
    have hp := hpop ts h.1
    have c1 := veeringEdges_spec (bound := bound) (p1 := pop ts) 3 0 (ts.erase (pop ts)) limit s hs h.2 (by omega) fun hl => by omega
    have c2 := veeringEdges_count (bound := bound) (p1 := pop ts) (List.range 3) (ts.erase (pop ts)) limit s (by omega)
    rw [← List.range_eq_range'] at c1
    rw [wp_bind]
    unfold wp at c1 c2 ⊢
    cases he : veeringEdges bound (pop ts) (List.range 3) (ts.erase (pop ts)) limit s with
    | error x t =>
      rw [he] at c1
      exact c1 ⟨hok, hb, hts _ hp⟩
    | ok r t =>
      rw [he] at c1 c2
      have hlen := List.length_erase_of_mem hp
      have hpos := List.length_pos_of_mem hp
      exact ih r.1 r.2 t c1.1 (c1.2.2.2 (hts _ hp) fun l hl => hts l (List.mem_of_mem_erase hl)) c2.1 (by have := c2.2; omega)

/-- **C94.** With a limit, `veering_triangulation` comes to an end and returns a surface: there are at most as many visits of a triangle as there
are triangles, plus two for each flip. -/
theorem C94_limit {pop : List L → L} {fuel limit : ℕ} {lInfinity : Bool} {s : MSurf L (Poly K)} (hs : Reachable s)
    (hm : s.mutable = true) (hf : FullRoots s) (ht : Triangulated s) (htr : s.Translates) (hg : s.AllGlued)
    (hpop : ∀ ts, ts ≠ [] → pop ts ∈ ts) (hfuel : s.polygons.length + 2 * limit < fuel) :
    ∃ t, veeringTriangulation pop fuel lInfinity (some limit) s = .ok () t := by
  have hok : VOk s := ⟨hf, (allGlued_iff hs.ginv ht).1 hg⟩
  have hv : VInv s s := ⟨⟨hs.ginv, hm, hs.rootsOK⟩, ht, htr, fun h => h, fun h => h, .refl, fun _ => Iff.rfl, fun h => h⟩
  obtain ⟨ls, hls, hnd, hmem⟩ := labels_spec hs.ginv hs.rootsOK
  have hlen : ls.length ≤ s.polygons.length := by
    have : s.polygons.keys.length = s.polygons.length := List.length_map _
    rw [← this]
    exact (List.subperm_of_subset hnd fun l hl => (hmem l).1 hl).length_le
  have hloop := veeringLoop_count hok (bound := if lInfinity then 1 else 2) (by split_ifs <;> omega) hpop fuel ls (limit : Int) s hv
    (fun l hl => (hmem l).1 hl) (by omega) (by omega)
  have fin : wp (veeringTriangulation pop fuel lInfinity (some (limit : Int))) (fun _ _ => True) (fun _ _ => False) s := by
    unfold veeringTriangulation
    rw [wp_bind, wp_get, wp_bind, wp_liftE]
    refine ⟨fun ls' h' => ?_, fun _ h' => by rw [hls] at h'; cases h'⟩
    rw [hls] at h'
    injection h' with h'
    subst h'
    rw [wp_bind, Option.getD_some]
    have c1 := veeringLoop_spec (bound := if lInfinity then 1 else 2) (pop := pop) fuel ls (limit : Int) s hv fun h => by omega
    unfold wp at hloop c1 ⊢
    cases he : veeringLoop (if lInfinity then 1 else 2) pop fuel ls (limit : Int) s with
    | error x t => rw [he] at hloop; exact hloop
    | ok r t =>
      rw [he] at c1
      have := setImmutable_ok c1.1.good.1 c1.1.good.2.2
      unfold wp at this
      dsimp only
      cases hi : setImmutable t with
      | error x u => rw [hi] at this; exact this.elim
      | ok x u => trivial
  unfold wp at fin
  cases he : veeringTriangulation pop fuel lInfinity (some (limit : Int)) s with
  | error x t => rw [he] at fin; exact fin.elim
  | ok r t => exact ⟨t, rfl⟩

/-- **C94.** Without a limit, no edge of the surface that is returned asks for another flip, whatever the order is in which the triangles are
visited. -/
theorem C94_finished {pop : List L → L} {fuel : ℕ} {lInfinity : Bool} {s t : MSurf L (Poly K)} (hs : Reachable s)
    (hm : s.mutable = true) (ht : Triangulated s) (htr : s.Translates) (h : veeringTriangulation pop fuel lInfinity none s = .ok () t)
    {l l' : L} {e e' : ℕ} (ho : t.oppositeEdge l e = .ok (some (l', (e' : Int)))) :
    ∃ n, t.needsFlipLinf l e l' e' = .ok n ∧ n < if lInfinity then 1 else 2 := by
  obtain ⟨t', hv, he, hr, hp⟩ := veering_result hs hm ht htr h
  obtain ⟨-, k2, k3, -⟩ := C94_flips hs hm ht htr h
  have hE : t.IsEdge l e := by
    by_contra hn
    rw [oppositeEdge_error hr.ginv.toShape hn] at ho
    cases ho
  rw [oppositeEdge_eq_opp hr.ginv.toShape hE] at ho
  injection ho with ho
  rw [needsFlipLinf_eq hr.ginv k2 k3 ho]
  rcases hp rfl l e l' e' (by rw [he] at ho; exact ho) with h | h | h
  · exact h.elim
  · exact h.elim
  · rw [he]
    exact h

/-- **C94.** If the surface that is returned has no horizontal and no vertical edges, then it is veering.  (The full claim, without the
hypothesis on the edges, is false, see `C94_violation`.) -/
theorem C94_veering_partial {pop : List L → L} {fuel : ℕ} {lInfinity : Bool} {s t : MSurf L (Poly K)} (hs : Reachable s)
    (hm : s.mutable = true) (ht : Triangulated s) (htr : s.Translates) (hg : s.AllGlued)
    (h : veeringTriangulation pop fuel lInfinity none s = .ok () t) (hx : ∀ l p (e : ℕ), t.polygon l = .ok p → (p.edge e).1 ≠ 0 ∧ (p.edge e).2 ≠ 0) :
    t.isVeeringTriangulated = .ok (true, none) := by
  obtain ⟨t', hv, he, hr, hp⟩ := veering_result hs hm ht htr h
  rw [allGlued_iff hs.ginv ht] at hg
  have hget : ∀ l ∈ t'.polygons.keys, t'.polygons.get l = some (t'.polyAt l) := fun l hl => by
    obtain ⟨p, hp⟩ := Option.isSome_iff_exists.1 ((Dict.mem_keys_iff _ _).1 hl)
    rw [polyAt_eq hp]
    exact hp
  have h1 : ∀ l, t.polygon l = t'.polygon l := fun l => by rw [he]; rfl
  have hx' : ∀ l ∈ t'.polygons.keys, ∀ e, ((t'.polyAt l).edge e).1 * ((t'.polyAt l).edge e).2 ≠ 0 := fun l hl e => by
    obtain ⟨k1, k2⟩ := hx l (t'.polyAt l) e (by rw [h1]; exact polygon_ok.2 (hget l hl))
    exact mul_ne_zero k1 k2
  have hno := no_mono (bound := if lInfinity then 1 else 2) (by split_ifs <;> omega) hv.good.1 hv.tri hv.trans (hv.glued hg) (hp rfl) hx'
  obtain ⟨ls, hls, -, hmem⟩ := labels_spec hr.ginv hr.rootsOK
  unfold isVeeringTriangulated
  rw [hls]
  refine veeringTest_true fun l hl => ?_
  have hl' : l ∈ t'.polygons.keys := by
    have := (hmem l).1 hl
    rw [he] at this
    exact this
  have hpl := polygon_ok.2 (hget l hl')
  exact ⟨t'.polyAt l, by rw [h1]; exact hpl, (hv.tri l _ hpl).1, hno l hl', hx' l hl'⟩

/-- A torus all of whose edges have positive slope, with horizontal edges. -/
def exSlantOps : List (Op ℕ ℚ) := [.addPolygon [(0, 0), (1, 0), (5/2, 3)] none, .addPolygon [(0, 0), (5/2, 3), (3/2, 3)] none,
  .glue (0, 0) (1, 1), .glue (0, 1) (1, 2), .glue (0, 2) (1, 0)]

def exSlant : MSurf ℕ (Poly ℚ) := runOps exSlantOps empty

theorem exSlant_reachable : Reachable exSlant := by
  refine reachable_runOps _ _ .empty (by decide +kernel) ?_ ?_
  · intro op hop
    simp only [exSlantOps, List.mem_cons, List.not_mem_nil, or_false] at hop
    rcases hop with rfl | rfl | rfl | rfl | rfl <;> simp [Op.NonNeg]
  · intro op hop
    simp only [exSlantOps, List.mem_cons, List.not_mem_nil, or_false] at hop
    rcases hop with rfl | rfl | rfl | rfl | rfl <;> simp

/-- Checks the gluings of a concrete surface. -/
theorem translates_of_check {s : MSurf ℕ (Poly ℚ)} (hr : Reachable s) (ht : Triangulated s) (h : ∀ l ∈ s.polygons.keys, ∀ e < 3,
    (match s.opp l (e : ℕ) with
      | some c => decide ((s.polyAt l).edge e = -(s.polyAt c.1).edge c.2.toNat)
      | none => false) = true) : s.Translates ∧ s.AllGlued := by
  rw [translates_iff hr.ginv, allGlued_iff hr.ginv ht]
  refine ⟨fun l e l' e' ho => ?_, fun l hl e he hn => ?_⟩
  · obtain ⟨k1, k2, -⟩ := triangle_of_opp hr.ginv ht ho
    have := h l (by rw [Dict.mem_keys_iff, k1]; rfl) e (lt_three_of_opp hr.ginv k1 k2 ho)
    rw [ho] at this
    exact of_decide_eq_true this
  · have := h l hl e he
    rw [hn] at this
    cases this

theorem exSlant_triangulated : Triangulated exSlant := triangulated_of_keys (by decide +kernel)

theorem exSlant_translates : exSlant.Translates ∧ exSlant.AllGlued :=
  translates_of_check exSlant_reachable exSlant_triangulated (by decide +kernel)

/-- The state after a call that returns. -/
def okState {L P : Type} : EStateM.Result Err (MSurf L P) Unit → Option (MSurf L P)
  | .ok _ t => some t
  | .error _ _ => none

theorem okState_map {L P α : Type} {r : EStateM.Result Err (MSurf L P) Unit} {f : MSurf L P → α} {x : α} (h : (okState r).map f = some x) :
    ∃ t, r = .ok () t ∧ f t = x := by
  cases r with
  | ok u t => exact ⟨t, rfl, Option.some.inj h⟩
  | error e t => cases h

/-- **C94, violated.** `veering_triangulation` returns a surface that is not veering: all edges have positive slope (horizontal edges count as
such), and flipping the diagonal would not make it shorter, for it would keep its height. -/
theorem C94_violation : ∃ (s t : MSurf ℕ (Poly ℚ)) (pop : List ℕ → ℕ) (fuel : ℕ), Reachable s ∧ s.mutable = true ∧ Triangulated s ∧ s.Translates ∧
    s.AllGlued ∧ veeringTriangulation pop fuel false none s = .ok () t ∧ t.isVeeringTriangulated = .ok (false, some 0) := by
  obtain ⟨t, h1, h2⟩ := okState_map (r := veeringTriangulation (fun ts => ts.headD 0) 100 false none exSlant)
    (f := fun t => t.isVeeringTriangulated) (x := .ok (false, some 0)) (by decide +kernel)
  exact ⟨exSlant, t, _, 100, exSlant_reachable, by decide +kernel, exSlant_triangulated, exSlant_translates.1, exSlant_translates.2, h1, h2⟩

/-- A torus made from two triangles, the example in the documentation of `is_veering_triangulated`. -/
def exVeeringOps : List (Op ℕ ℚ) := [.addPolygon [(0, 0), (1, 1), (-1, 2)] none, .addPolygon [(0, 0), (-1, 2), (-2, 1)] none,
  .glue (0, 0) (1, 1), .glue (0, 1) (1, 2), .glue (0, 2) (1, 0)]

def exVeering : MSurf ℕ (Poly ℚ) := runOps exVeeringOps empty

theorem exVeering_reachable : Reachable exVeering := by
  refine reachable_runOps _ _ .empty (by decide +kernel) ?_ ?_
  · intro op hop
    simp only [exVeeringOps, List.mem_cons, List.not_mem_nil, or_false] at hop
    rcases hop with rfl | rfl | rfl | rfl | rfl <;> simp [Op.NonNeg]
  · intro op hop
    simp only [exVeeringOps, List.mem_cons, List.not_mem_nil, or_false] at hop
    rcases hop with rfl | rfl | rfl | rfl | rfl <;> simp

theorem exVeering_triangulated : Triangulated exVeering := triangulated_of_keys (by decide +kernel)

theorem exVeering_translates : exVeering.Translates ∧ exVeering.AllGlued :=
  translates_of_check exVeering_reachable exVeering_triangulated (by decide +kernel)

/-- The hypotheses are satisfiable. -/
example : ∃ t : MSurf ℕ (Poly ℚ),
    veeringTriangulation (fun ts => ts.headD 0) 100 false none exVeering = .ok () t ∧ t.isVeeringTriangulated = .ok (true, none) := by
  obtain ⟨t, h1, h2⟩ := okState_map (r := veeringTriangulation (fun ts => ts.headD 0) 100 false none exVeering)
    (f := fun t => t.polygons.all fun x => (List.range 3).all fun e => decide ((x.2.edge e).1 ≠ 0) && decide ((x.2.edge e).2 ≠ 0)) (x := true) (by decide +kernel)
  refine ⟨t, h1, ?_⟩
  simp only [List.all_eq_true, List.mem_range, Bool.and_eq_true, decide_eq_true_eq] at h2
  refine C94_veering_partial exVeering_reachable (by decide +kernel) exVeering_triangulated exVeering_translates.1 exVeering_translates.2 h1
    fun l p e hp => ?_
  obtain ⟨-, k2, -⟩ := C94_flips exVeering_reachable (by decide +kernel) exVeering_triangulated exVeering_translates.1 h1
  have h3 := (k2 l p hp).1
  have := h2 (l, p) (Dict.mem_of_get _ _ _ (polygon_ok.1 hp)) (e % 3) (Nat.mod_lt _ (by omega))
  rwa [← h3, Poly.edge_mod] at this

theorem headD_mem (ts : List ℕ) (h : ts ≠ []) : ts.headD 0 ∈ ts := by
  cases ts with
  | nil => exact absurd rfl h
  | cons a ts => simp

/-- The hypotheses are satisfiable; at most ten flips of the torus with horizontal edges. -/
example : ∃ t, veeringTriangulation (fun ts => ts.headD 0) 100 true (some (10 : ℕ)) exSlant = .ok () t :=
  C94_limit exSlant_reachable (by decide +kernel) (.inl (by decide +kernel)) exSlant_triangulated exSlant_translates.1 exSlant_translates.2
    headD_mem (by decide +kernel)

/-- Without fuel there is an error. -/
example {t : MSurf ℕ (Poly ℚ)} {x : Err} (h : veeringTriangulation (fun ts => ts.headD 0) 1 false none exSlant = .error x t) : x = .outOfFuel :=
  C94_errors exSlant_reachable (by decide +kernel) (.inl (by decide +kernel)) exSlant_triangulated exSlant_translates.1 exSlant_translates.2
    headD_mem h

/-- An edge that asks for a flip, in a torus all of whose edges have positive slope, and a flip of that edge. -/
example : needsFlipLinf exSkew 0 2 1 0 = .ok 2 ∧ ∃ t, triangleFlip 0 2 exSkew = .ok () t := ⟨by decide +kernel, exSkew_flips⟩

end MSurf
end Flat
