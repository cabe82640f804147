import Verif.Lemmas.HullSets

/-!
# C82: Convex hulls in the hyperbolic plane

Convex hulls are convex hulls in the Klein model, for points with coordinates in any larger field.
-/

namespace Flat
namespace Hyp
namespace Props

variable {K : Type} [Field K] [LinearOrder K] [IsStrictOrderedRing K]

/-- C82. `convex_hull()` of points, segments, geodesics and half spaces returns their convex hull whatever random choices are made, and the result is in normal form.
If the convex hull is the entire hyperbolic plane, a `NotImplementedError` is raised instead.

What is missing: if the vertices of the sets are on one line then two of them have to be ideal or they all have to be the same point, see `C82_collinear_violation`; the vertices have to have coordinates in the base field; the sets are not polygons and there are no marked vertices. -/
theorem C82_hull_partial (sqrt : K → Option K) (hsqrt : IsSqrt sqrt) (pick : Interval K → K) (hpick : PickOk pick) (shuffle : List (Geo K) → List (Geo K)) (hshuffle : ∀ l, (shuffle l).Perm l)
    (sets : List (ConvexSet K)) (hR : ∀ S ∈ sets, S.Reduced) (V : List (K × K)) (hV : allVertices sqrt sets = .ok V) (hne : V ≠ [])
    (hgood : (∀ p ∈ V, ∀ q ∈ V, p = q) ∨ (∃ p ∈ V, ∃ q ∈ V, ∃ r ∈ V, (q.1 - p.1) * (r.2 - p.2) ≠ (q.2 - p.2) * (r.1 - p.1)) ∨
      ∃ p ∈ V, ∃ q ∈ V, p ≠ q ∧ p.1 * p.1 + p.2 * p.2 = 1 ∧ q.1 * q.1 + q.2 * q.2 = 1) :
    (∃ R, hypConvexHull sqrt pick shuffle sets = .ok R ∧ R.Reduced ∧
      ∀ (F : Type) [Field F] [LinearOrder F] [IsStrictOrderedRing F] (f : K →+* F), StrictMono f → ∀ z : F × F, R.Mem f z ↔ z ∈ convexHull F {w | ∃ S ∈ sets, S.Mem f w}) ∨
    (hypConvexHull sqrt pick shuffle sets = .error .notImplemented ∧ (∃ g, .halfSpace g ∈ sets) ∧
      ∀ (F : Type) [Field F] [LinearOrder F] [IsStrictOrderedRing F] (f : K →+* F), StrictMono f → ∀ z : F × F, z.1 * z.1 + z.2 * z.2 ≤ 1 ↔ z ∈ convexHull F {w | ∃ S ∈ sets, S.Mem f w}) := by
  obtain ⟨v1, v2⟩ := allVertices_spec hV
  have hVd : ∀ p ∈ V, InDisk p := by
    intro p hp
    obtain ⟨S, hS, v, h1, h2⟩ := v2 p hp
    exact (vertexCoords_spec hsqrt (hR S hS) h1).1 p h2
  -- the vertices are in the sets
  have hVm : ∀ (F : Type) [Field F] [LinearOrder F] [IsStrictOrderedRing F] (f : K →+* F), StrictMono f → mapPt f '' {p | p ∈ V} ⊆ {w | ∃ S ∈ sets, S.Mem f w} := by
    rintro F _ _ _ f hf _ ⟨p, hp, rfl⟩
    obtain ⟨S, hS, v, h1, h2⟩ := v2 p hp
    exact ⟨S, hS, (vertexCoords_spec hsqrt (hR S hS) h1).2.1 F f hf p h2⟩
  -- sets are in the disk
  have hSd : ∀ (F : Type) [Field F] [LinearOrder F] [IsStrictOrderedRing F] (f : K →+* F), StrictMono f → {w | ∃ S ∈ sets, S.Mem f w} ⊆ {z : F × F | InDisk z} := by
    rintro F _ _ _ f hf w ⟨S, hS, hw⟩
    exact (((halfSpaces_spec (hR S hS)).2.2.2 F f hf w).1 hw).1
  have hVdF : ∀ (F : Type) [Field F] [LinearOrder F] [IsStrictOrderedRing F] (f : K →+* F), StrictMono f → mapPt f '' {p | p ∈ V} ⊆ {z : F × F | InDisk z} := fun F _ _ _ f hf => (hVm F f hf).trans (hSd F f hf)
  -- the convex hull of the vertices
  obtain ⟨l, l1, l2, l3, l4⟩ := hullHalfSpaces_spec sqrt hVd hne
  have hl : ∀ (F : Type) [Field F] [LinearOrder F] [IsStrictOrderedRing F] (f : K →+* F), StrictMono f → ∀ z : F × F, (InDisk z ∧ InAll f l z) ↔ z ∈ convexHull F (mapPt f '' {p | p ∈ V}) := by
    intro F _ _ _ f hf z
    rcases l4 with ⟨p, rfl, hp⟩ | ⟨p, hp, q, hq, hpq, hcol, hline⟩ | ⟨-, hin⟩
    · have hpd : InDisk p := hVd p ((hp p).2 rfl)
      have hpr : (ConvexSet.point p).Reduced := hpd
      have := (halfSpaces_spec hpr).2.2.2 F f hf z
      have e : mapPt f '' {p | p ∈ V} = {mapPt f p} := by
        ext w
        simp only [Set.mem_image, Set.mem_setOf_eq, hp, Set.mem_singleton_iff]
        exact ⟨fun ⟨x, hx, hw⟩ => by rw [← hw, hx], fun hw => ⟨p, rfl, hw.symm⟩⟩
      rw [e, convexHull_singleton, Set.mem_singleton_iff]
      exact this.symm
    · rw [hline F f hf z]
      rcases hgood with h | ⟨a, ha, b, hb, c, hc, h⟩ | ⟨a, ha, b, hb, hab, a1, b1⟩
      · exact absurd (h p hp q hq) hpq
      · exfalso
        apply h
        have h1 := hcol a ha
        have h2 := hcol b hb
        have h3 := hcol c hc
        simp only [area] at h1 h2 h3
        by_cases h0 : q.1 - p.1 = 0
        · have h4 : q.2 - p.2 ≠ 0 := fun h4 => hpq (Prod.ext (by linarith) (by linarith))
          apply mul_left_cancel₀ h4
          rw [h0] at h1 h2 h3
          linear_combination (c.2 - a.2) * (h1 - h2) - (b.2 - a.2) * (h1 - h3)
        · apply mul_left_cancel₀ h0
          linear_combination (b.1 - a.1) * (h3 - h1) - (c.1 - a.1) * (h2 - h1)
      · -- the line is the one through two ideal points
        set g := edgeGeo p q with hg
        have hgv : g.Valid := edgeGeo_valid (hVd p hp) (hVd q hq) hpq
        have hg0 : ∀ x ∈ V, g.val x = 0 := fun x hx => by rw [hg, val_edgeGeo]; exact hcol x hx
        have hgF : (g.map f).val z = area (mapPt f p) (mapPt f q) z := val_edgeGeo_map f p q z
        have na := norm_on_line (hg0 a ha)
        have nb := norm_on_line (hg0 b hb)
        rw [a1] at na
        rw [b1] at nb
        have hpos : g.pos a ≠ g.pos b := by
          intro he
          apply hab
          have hn := Geo.valid_norm hgv
          have hv := (hg0 a ha).trans (hg0 b hb).symm
          simp only [Geo.val, Geo.pos] at hv he
          ext
          · apply mul_left_cancel₀ hn.ne'
            linear_combination g.b * hv + g.c * he
          · apply mul_left_cancel₀ hn.ne'
            linear_combination g.c * hv - g.b * he
        have hopp : g.pos b = -g.pos a := by
          have : (g.pos a - g.pos b) * (g.pos a + g.pos b) = 0 := by linear_combination nb - na
          rcases mul_eq_zero.mp this with h | h
          · exact absurd (sub_eq_zero.mp h) hpos
          · linarith
        constructor
        · rintro ⟨hd, hz⟩
          have hz0 : (g.map f).val z = 0 := by rw [hgF]; exact hz
          have hz1 := (inDisk_iff (valid_map hf hgv) hz0).1 hd
          have e : (g.map f).b * (g.map f).b + (g.map f).c * (g.map f).c - (g.map f).a * (g.map f).a = f (g.pos a) * f (g.pos a) := by
            rw [← map_mul, show g.pos a * g.pos a = g.b * g.b + g.c * g.c - g.a * g.a by linarith]
            simp only [Geo.map, map_sub, map_add, map_mul]
          rw [e] at hz1
          have habs := abs_le_iff_mul_self_le.2 hz1
          have key : ∀ a b : K × K, a ∈ V → b ∈ V → f (g.pos a) ≤ (g.map f).pos z → (g.map f).pos z ≤ f (g.pos b) → z ∈ convexHull F (mapPt f '' {p | p ∈ V}) := by
            intro a b ha hb h1 h2
            refine mem_of_pos (convex_convexHull F _) (valid_map hf hgv) (s := mapPt f a) (e := mapPt f b) (subset_convexHull _ _ ⟨a, ha, rfl⟩) (subset_convexHull _ _ ⟨b, hb, rfl⟩) ?_ ?_ hz0 ?_ ?_
            · rw [val_mapPt, hg0 a ha, map_zero]
            · rw [val_mapPt, hg0 b hb, map_zero]
            · rw [pos_mapPt]; exact h1
            · rw [pos_mapPt]; exact h2
          have h1 := abs_le.mp habs
          have hopp' : f (g.pos b) = -f (g.pos a) := by rw [hopp, map_neg]
          rcases le_total 0 (f (g.pos a)) with h0 | h0
          · rw [abs_of_nonneg h0] at h1
            exact key b a hb ha (by linarith) h1.2
          · rw [abs_of_nonpos h0] at h1
            exact key a b ha hb (by linarith) (by linarith)
        · intro hz
          refine ⟨convexHull_min (hVdF F f hf) convex_disk hz, ?_⟩
          have h1 : 0 ≤ (g.map f).val z := convexHull_min (s := mapPt f '' {p | p ∈ V}) (by
            rintro _ ⟨x, hx, rfl⟩
            simp only [Set.mem_setOf_eq, val_mapPt, hg0 x hx, map_zero, le_refl]) (convex_halfplane (g.map f)) hz
          have h2 : 0 ≤ (g.map f).neg.val z := convexHull_min (s := mapPt f '' {p | p ∈ V}) (by
            rintro _ ⟨x, hx, rfl⟩
            simp only [Set.mem_setOf_eq, val_neg, val_mapPt, hg0 x hx, map_zero, neg_zero, le_refl]) (convex_halfplane (g.map f).neg) hz
          rw [val_neg] at h2
          rw [← hgF]
          linarith
    · rw [hin F f hf z]
      exact ⟨fun h => h.2, fun h => ⟨convexHull_min (hVdF F f hf) convex_disk h, h⟩⟩
  obtain ⟨P, p1, p2, p3⟩ := C80_polygon pick hpick shuffle hshuffle l l2 (fun g hg => l3 g hg)
  have hP : ∀ (F : Type) [Field F] [LinearOrder F] [IsStrictOrderedRing F] (f : K →+* F), StrictMono f → ∀ z : F × F, P.Mem f z ↔ z ∈ convexHull F (mapPt f '' {p | p ∈ V}) := fun F _ _ _ f hf z => (p3 F f hf z).trans (hl F f hf z)
  obtain ⟨-, e2, -, e4⟩ := halfSpaces_spec p2
  have hhalf : ∀ h ∈ halfSpacesAmong sets, h.Valid := fun h hh => hR _ (mem_halfSpacesAmong.1 hh)
  obtain ⟨U, u1, u2, u3⟩ := uncoveredEdges_spec hpick hshuffle hhalf e2
  -- every remaining edge has all the sets on its left
  have hleft : ∀ g ∈ U, ∀ (F : Type) [Field F] [LinearOrder F] [IsStrictOrderedRing F] (f : K →+* F), StrictMono f → ∀ z : F × F, z ∈ convexHull F {w | ∃ S ∈ sets, S.Mem f w} → 0 ≤ (g.map f).val z := by
    intro g hg F _ _ _ f hf z hz
    have hVg : ∀ y : F × F, y ∈ convexHull F (mapPt f '' {p | p ∈ V}) → 0 ≤ (g.map f).val y := fun y hy => ((e4 F f hf y).1 ((hP F f hf y).2 hy)).2 g (u2 g hg).1
    refine convexHull_min (s := {w | ∃ S ∈ sets, S.Mem f w}) ?_ (convex_halfplane (g.map f)) hz
    rintro w ⟨S, hS, hw⟩
    obtain ⟨v, hv1, hv2⟩ := v1 S hS
    have hsub : mapPt f '' {p | p ∈ v} ⊆ mapPt f '' {p | p ∈ V} := Set.image_mono hv2
    rcases (vertexCoords_spec hsqrt (hR S hS) hv1).2.2 with ⟨h, a, b, rfl, -, -, -, -, -, -, hseg⟩ | ⟨-, hmem⟩
    · obtain ⟨x, x1, x2, x3⟩ := (u2 g hg).2 h (mem_halfSpacesAmong.2 hS)
      refine halfSpace_side (h := h.map f) (w := mapPt f x) hw.1 (inDisk_mapPt hf x1) hw.2 ?_ ?_ fun y hy hy0 => hVg y (convexHull_mono hsub (hseg F f hf y hy hy0))
      · rw [val_mapPt, ← map_zero f]; exact hf.monotone x2
      · rw [val_mapPt]; exact (neg_map_iff hf).2 x3
    · exact hVg w (convexHull_mono hsub (hmem F f hf w hw))
  -- a point to the left of the remaining edges is in the convex hull
  have hright : ∀ (F : Type) [Field F] [LinearOrder F] [IsStrictOrderedRing F] (f : K →+* F), StrictMono f → ∀ z : F × F, InDisk z → InAll f U z → z ∈ convexHull F {w | ∃ S ∈ sets, S.Mem f w} := by
    intro F _ _ _ f hf z hd hz
    by_cases hin : InAll f P.halfSpaces z
    · exact convexHull_mono (hVm F f hf) ((hP F f hf z).1 ((e4 F f hf z).2 ⟨hd, hin⟩))
    · simp only [InAll] at hin
      push Not at hin
      obtain ⟨g, hg, hlt⟩ := hin
      rcases u3 g hg with h | ⟨h, hh, hcov⟩
      · exact absurd (hz g h) (not_le.mpr hlt)
      · exact subset_convexHull _ _ ⟨_, mem_halfSpacesAmong.1 hh, hd, hcov F f hf z hd hlt.le⟩
  by_cases hU : U = []
  · right
    refine ⟨?_, ?_, fun F _ _ _ f hf z => ⟨fun hd => hright F f hf z hd (by rw [hU]; intro g hg; cases hg), fun hz => convexHull_min (hSd F f hf) convex_disk hz⟩⟩
    · simp only [hypConvexHull, hV, l1, p1, u1, hU, (C80_polygon_nil pick shuffle).1, bind, Except.bind]
    · obtain ⟨g, hg⟩ := List.exists_mem_of_ne_nil _ (halfSpaces_spec p2).1
      rcases u3 g hg with h | ⟨h, hh, -⟩
      · rw [hU] at h; cases h
      · exact ⟨h, mem_halfSpacesAmong.1 hh⟩
  · left
    obtain ⟨R, r1, r2, r3⟩ := C80_polygon pick hpick shuffle hshuffle U hU (fun g hg => e2 g (u2 g hg).1)
    have hRmem : ∀ (F : Type) [Field F] [LinearOrder F] [IsStrictOrderedRing F] (f : K →+* F), StrictMono f → ∀ z : F × F, R.Mem f z ↔ z ∈ convexHull F {w | ∃ S ∈ sets, S.Mem f w} := by
      intro F _ _ _ f hf z
      rw [r3 F f hf z]
      exact ⟨fun h => hright F f hf z h.1 h.2, fun h => ⟨convexHull_min (hSd F f hf) convex_disk h, fun g hg => hleft g hg F f hf z h⟩⟩
    refine ⟨R, ?_, r2, hRmem⟩
    have hall := allSubsets_true hpick hshuffle r2 hR (fun S hS z hz => (hRmem K (RingHom.id K) strictMono_ringHom_id z).2 (subset_convexHull _ _ ⟨S, hS, hz⟩))
    simp only [hypConvexHull, hV, l1, p1, u1, r1, hall, bind, Except.bind, if_true]
    rfl

/-- A half space and a point. -/
def halfAndPoint : List (ConvexSet ℚ) := [.halfSpace ⟨0, 1, 0⟩, .point (-1/2, 0)]

example : ∀ S ∈ halfAndPoint, S.Reduced := by
  intro S hS
  simp only [halfAndPoint, List.mem_cons, List.not_mem_nil, or_false] at hS
  rcases hS with rfl | rfl
  · simp only [ConvexSet.Reduced, Geo.Valid]; norm_num
  · simp only [ConvexSet.Reduced, InDisk]; norm_num

example : allVertices ratSqrt halfAndPoint = .ok [(0, 1), (0, -1), (-1/2, 0)] := by decide +kernel

example : hypConvexHull ratSqrt pickMiddle id halfAndPoint = .ok (.polygon [⟨1/2, 1, -1/2⟩, ⟨1/2, 1, 1/2⟩]) := by decide +kernel

example : hypConvexHull ratSqrt pickMiddle id [.point (0, 0), .point (0, 1/2), .point (1/2, 0), .point (1/8, 1/8)] = .ok (.polygon [⟨1/4, -1/2, -1/2⟩, ⟨0, 1/2, 0⟩, ⟨0, 0, 1/2⟩]) := by decide +kernel

example : hypConvexHull ratSqrt pickMiddle id [.geodesic ⟨0, 1, 0⟩, .point (0, 0)] = .ok (.geodesic ⟨0, 2, 0⟩) := by decide +kernel

example : hypConvexHull ratSqrt pickMiddle id [.halfSpace ⟨0, 1, 0⟩, .halfSpace ⟨0, -1, 0⟩] = .error .notImplemented := by decide +kernel

/-- C82 fails: the convex hull of two finite points is the whole geodesic through these points, not the segment that connects them.
The point `(0, 3/4)` is in the result of `convex_hull()` but not in the convex hull. -/
theorem C82_collinear_violation :
    ∃ R, hypConvexHull ratSqrt pickMiddle id [.point (0, 0), .point (0, 1/2)] = .ok R ∧ R.Mem (RingHom.id ℚ) (0, 3/4) ∧
      ((0, 3/4) : ℚ × ℚ) ∉ convexHull ℚ {w | ∃ S ∈ ([.point (0, 0), .point (0, 1/2)] : List (ConvexSet ℚ)), S.Mem (RingHom.id ℚ) w} := by
  refine ⟨.geodesic ⟨0, 1/2, 0⟩, by decide +kernel, ⟨by simp only [InDisk]; norm_num, by simp [Geo.val, Geo.map]⟩, fun h => ?_⟩
  have : 0 ≤ (⟨1/2, 0, -1⟩ : Geo ℚ).val (0, 3/4) := convexHull_min (by
    rintro w ⟨S, hS, hw⟩
    simp only [List.mem_cons, List.not_mem_nil, or_false] at hS
    rcases hS with rfl | rfl <;> (simp only [ConvexSet.Mem] at hw; rw [hw]; simp [mapPt, Geo.val])) (convex_halfplane (⟨1/2, 0, -1⟩ : Geo ℚ)) h
  simp only [Geo.val] at this
  norm_num at this

end Props
end Hyp
end Flat
