import Verif.Props.GaussBonnet

/-!
# C65: the angle at a point
-/

namespace Flat
namespace RSurf
variable {L K : Type} [Field K] [LinearOrder K] [IsStrictOrderedRing K] {S : RSurf L K} {valid : L → Prop} {ι : K →+* ℝ} [DecidableEq L]

/-- The angle of a polygon at one of its points: a full turn inside, a half turn on an edge, the angle between the edges at a vertex. -/
noncomputable def angleAt (S : RSurf L K) (ι : K →+* ℝ) (y : L × Vec K) : ℝ :=
  match S.polygon y.1 with
  | .error _ => 0
  | .ok p =>
    match p.pointPosition y.2 with
    | .outside => 0
    | .interior => 1
    | .edgeInterior _ => 1 / 2
    | .vertex v => p.angle ι v

omit [DecidableEq L] in
theorem angleAt_eq {y : L × Vec K} {p : Poly K} (hp : S.polygon y.1 = .ok p) : S.angleAt ι y = match p.pointPosition y.2 with
    | .outside => 0
    | .interior => 1
    | .edgeInterior _ => 1 / 2
    | .vertex v => p.angle ι v := by
  unfold angleAt
  rw [hp]

omit [DecidableEq L] in
theorem vertexEdges_points [DecidableEq L] (hS : S.Bordered valid) {d : L × ℕ} (hd : S.IsDart valid d) {fuel : ℕ} {ds : List (L × ℕ)}
    (h : S.vertexEdges fuel d = .ok ds) {xs : List (L × Vec K)} (hxs : ds.mapM S.startPt = .ok xs) (y : L × Vec K) :
    y ∈ xs ↔ ∃ a, S.SameVertex valid d a ∧ S.startPt a = .ok y := by
  have hspec := vertexEdges_spec hS hd h
  constructor
  · intro hy
    obtain ⟨a, ha, hay⟩ := mapM_ok_mem hxs hy
    exact ⟨a, (hspec a).1 ha, hay⟩
  · rintro ⟨a, ha, hay⟩
    have hin := (hspec a).2 ha
    rw [mapM_ok_iff] at hxs
    obtain ⟨i, hi, rfl⟩ := List.getElem_of_mem hin
    have := hxs.get hi (by rw [← hxs.length_eq]; exact hi)
    simp only [List.get_eq_getElem] at this
    rw [this] at hay
    injection hay with hay
    rw [← hay]
    exact List.getElem_mem _

/-- A point of an edge that is glued to itself but is not the midpoint of the edge. -/
def OffCenter (S : RSurf L K) (x : L × Vec K) : Prop :=
  ∃ p e, S.polygon x.1 = .ok p ∧ p.pointPosition x.2 = .edgeInterior e ∧ S.opp x.1 e = .ok (some (x.1, e)) ∧
    x.2 ≠ p.vertex e + (1 / 2 : K) • p.edge e

/-- **C65, partial.** `point.angle()` is the sum of the angles of the polygons at the representatives of the point, also on the boundary.  This
does not hold for points on an edge that is glued to itself, except for the midpoint of the edge, see `C65_off_center_violation`. -/
theorem C65_point_angle_partial (hι : StrictMono ι) (hS : S.Bordered valid) {es : List (L × ℕ)} (hn : es.Nodup)
    (hes : ∀ d, d ∈ es ↔ S.IsDart valid d) {fuel fuel' : ℕ} (hf : es.length < fuel) {x : L × Vec K} (hx : valid x.1) {r : Finset (L × Vec K)}
    (hr : S.surfacePoint fuel' x = .ok r) (hoff : ¬ S.OffCenter x) : S.pointAngle ι fuel x = .ok (∑ y ∈ r, S.angleAt ι y) := by
  obtain ⟨p, hp, hv⟩ := hS.poly _ hx
  unfold surfacePoint at hr
  unfold pointAngle
  simp only [hp, bind, Except.bind, pure, Except.pure] at hr ⊢
  cases hpos : p.pointPosition x.2 with
  | outside => rw [hpos] at hr; cases hr
  | interior =>
    rw [hpos] at hr
    injection hr with hr
    subst hr
    rw [Finset.sum_singleton, angleAt_eq hp, hpos]
  | edgeInterior e =>
    rw [hpos] at hr
    dsimp only at hr ⊢
    have hax : S.angleAt ι x = 1 / 2 := by rw [angleAt_eq hp, hpos]
    obtain ⟨he, hopen⟩ := (Poly.C12_edge hv x.2 e).1 hpos
    rcases hS.glue x.1 p e hx hp he with hnone | ⟨l', e', p', ho, hl', hp', he', hb⟩
    · rw [hnone] at hr ⊢
      injection hr with hr
      subst hr
      dsimp only
      rw [Finset.sum_singleton, hax]
    · have hv' := hS.valid_of_polygon hl' hp'
      obtain ⟨g, hg, -, hs, hg1, hg2⟩ := edgeTransformation_ok ho hp hp' (hv.edge_ne e) (hv'.edge_ne e')
      rw [ho] at hr ⊢
      dsimp only at hr ⊢
      rw [hg] at hr
      injection hr with hr
      subst hr
      obtain ⟨t, t0, t1, hxt⟩ := hopen
      have hcall : g.call x.2 = p'.vertex e' + (1 - t) • p'.edge e' := by
        rw [hxt]
        unfold Poly.edge
        rw [call_affine hs, hg1, hg2]
        ext <;> simp <;> ring
      have hpos' : p'.pointPosition (g.call x.2) = .edgeInterior e' :=
        (Poly.C12_edge hv' _ e').2 ⟨he', 1 - t, by linarith, by linarith, hcall⟩
      have hay : S.angleAt ι (l', g.call x.2) = 1 / 2 := by rw [angleAt_eq (y := (l', g.call x.2)) hp']; dsimp only; rw [hpos']
      by_cases hc : (l', e') = (x.1, e)
      · rw [if_pos hc]
        injection hc with hc1 hc2
        subst hc1 hc2
        rw [hp] at hp'; injection hp' with hp'; subst hp'
        have hmid : x.2 = p.vertex e' + (1 / 2 : K) • p.edge e' := by
          by_contra hne
          exact hoff ⟨p, e', hp, hpos, ho, hne⟩
        have ht : t = 1 / 2 := by
          have : (t - 1 / 2) • p.edge e' = 0 := by
            rw [sub_smul, sub_eq_zero]
            exact add_left_cancel (hxt.symm.trans hmid)
          have := smul_zero_of_ne (hv.edge_ne e') this
          linarith
        have : (x.1, g.call x.2) = x := by
          refine Prod.ext rfl ?_
          dsimp only
          rw [hcall, hmid, ht]
          norm_num
        rw [this, Finset.pair_eq_singleton, Finset.sum_singleton, hax]
      · rw [if_neg hc]
        have hne : x ≠ (l', g.call x.2) := by
          intro h
          have h1 := congrArg Prod.fst h
          have h2 := congrArg Prod.snd h
          dsimp only at h1 h2
          apply hc
          subst h1
          rw [hp] at hp'; injection hp' with hp'; subst hp'
          rw [← h2, hpos] at hpos'
          injection hpos' with hpos'
          rw [hpos']
        rw [Finset.sum_pair hne, hax, hay]
        norm_num
  | vertex v =>
    rw [hpos] at hr
    dsimp only at hr ⊢
    obtain ⟨hlt, hxv⟩ := (Poly.C12_vertex hv x.2 v).1 hpos
    have hd : S.IsDart valid (x.1, v) := ⟨hx, p, hp, hlt⟩
    cases hds : S.vertexEdges fuel' (x.1, v) with
    | error e => rw [hds] at hr; cases hr
    | ok ds =>
      rw [hds] at hr
      dsimp only at hr
      cases hxs : ds.mapM S.startPt with
      | error e => rw [hxs] at hr; cases hr
      | ok xs =>
        rw [hxs] at hr
        injection hr with hr
        subst hr
        have hAn : (S.classOf valid es (x.1, v)).Nodup := List.Nodup.filter _ hn
        have hAd := mem_classOf hes hd
        rw [C63_vertex_angle hι hS hd hAn hAd (lt_of_le_of_lt (List.length_filter_le _ _) hf)]
        congr 1
        rw [← List.sum_toFinset _ hAn]
        have hpt : ∀ d : L × ℕ, S.IsDart valid d → ∃ y q, S.startPt d = .ok y ∧ y.1 = d.1 ∧ S.polygon d.1 = .ok q ∧ q.pointPosition y.2 = .vertex d.2 := by
          rintro d ⟨hl, q, hq, hlt⟩
          exact ⟨_, q, startPt_ok hq, rfl, hq, (Poly.C12_vertex (hS.valid_of_polygon hl hq) _ _).2 ⟨hlt, rfl⟩⟩
        have hA : ∀ d ∈ (S.classOf valid es (x.1, v)).toFinset, S.IsDart valid d := by
          intro d hd'
          rw [List.mem_toFinset, hAd] at hd'
          exact (sameVertex_valid hd').1 hd
        refine Finset.sum_bij (fun d hd => (hpt d (hA d hd)).choose) ?_ ?_ ?_ ?_
        · intro d hd'
          obtain ⟨q, h1, -⟩ := (hpt d (hA d hd')).choose_spec
          rw [List.mem_toFinset, vertexEdges_points hS hd hds hxs]
          rw [List.mem_toFinset, hAd] at hd'
          exact ⟨d, hd', h1⟩
        · intro a ha b hb hab
          obtain ⟨q, -, h2, h3, h4⟩ := (hpt a (hA a ha)).choose_spec
          obtain ⟨q', -, h2', h3', h4'⟩ := (hpt b (hA b hb)).choose_spec
          rw [hab] at h2 h4
          have hfst : a.1 = b.1 := h2.symm.trans h2'
          rw [hfst, h3'] at h3
          injection h3 with h3
          subst h3
          rw [h4'] at h4
          injection h4 with h4
          exact Prod.ext hfst h4.symm
        · intro y hy
          rw [List.mem_toFinset, vertexEdges_points hS hd hds hxs] at hy
          obtain ⟨d, hsv, hdy⟩ := hy
          have hdm : d ∈ (S.classOf valid es (x.1, v)).toFinset := by rw [List.mem_toFinset, hAd]; exact hsv
          refine ⟨d, hdm, ?_⟩
          obtain ⟨q, h1, -⟩ := (hpt d (hA d hdm)).choose_spec
          have h5 := h1.symm.trans hdy
          injection h5
        · intro d hd'
          obtain ⟨q, -, h2, h3, h4⟩ := (hpt d (hA d hd')).choose_spec
          rw [cornerAngle_eq h3, angleAt_eq (p := q) (by rw [h2]; exact h3), h4]

/-- **C65, violation in general.** For every point on an edge that is glued to itself, except for the midpoint, `angle()` returns a half turn
but the angles of the polygons at the representatives sum up to a full turn. -/
theorem C65_off_center (hS : S.Bordered valid) {x : L × Vec K} (hx : valid x.1) (hoff : S.OffCenter x) (fuel : ℕ) :
    S.pointAngle ι fuel x = .ok (1 / 2) ∧ ∃ r, S.surfacePoint fuel x = .ok r ∧ ∑ y ∈ r, S.angleAt ι y = 1 := by
  obtain ⟨p, e, hp, hpos, ho, hmid⟩ := hoff
  have hv := hS.valid_of_polygon hx hp
  obtain ⟨he, t, t0, t1, hxt⟩ := (Poly.C12_edge hv x.2 e).1 hpos
  obtain ⟨g, hg, -, hs, hg1, hg2⟩ := edgeTransformation_ok ho hp hp (hv.edge_ne e) (hv.edge_ne e)
  have hcall : g.call x.2 = p.vertex e + (1 - t) • p.edge e := by
    rw [hxt]
    unfold Poly.edge
    rw [call_affine hs, hg1, hg2]
    ext <;> simp <;> ring
  have hpos' : p.pointPosition (g.call x.2) = .edgeInterior e := (Poly.C12_edge hv _ e).2 ⟨he, 1 - t, by linarith, by linarith, hcall⟩
  refine ⟨?_, {x, (x.1, g.call x.2)}, ?_, ?_⟩
  · unfold pointAngle
    simp only [hp, hpos, ho, bind, Except.bind, pure, Except.pure, if_true]
  · unfold surfacePoint
    simp only [hp, hpos, ho, hg, bind, Except.bind, pure, Except.pure]
  · have hne : x ≠ (x.1, g.call x.2) := by
      intro h
      have h2 := congrArg Prod.snd h
      dsimp only at h2
      apply hmid
      rw [hcall, hxt] at h2
      have h3 : (t - (1 - t)) • p.edge e = 0 := by
        rw [sub_smul, sub_eq_zero]
        exact add_left_cancel h2
      have := smul_zero_of_ne (hv.edge_ne e) h3
      rw [hxt, show t = 1 / 2 by linarith]
    rw [Finset.sum_pair hne, angleAt_eq hp, hpos, angleAt_eq (y := (x.1, g.call x.2)) hp]
    dsimp only
    rw [hpos']
    norm_num

/-- **C65, violation.** On an edge that is glued to itself only the midpoint has an angle of a half turn.  All other points of the edge have two
representatives, each on an edge of a polygon, so their angle is a full turn; `angle()` returns a half turn. -/
theorem C65_off_center_violation : ∃ r, exFold.surfacePoint 9 ((), ((1 : ℚ) / 4, 0)) = .ok r ∧
    exFold.pointAngle (Rat.castHom ℝ) 9 ((), ((1 : ℚ) / 4, 0)) = .ok (1 / 2) ∧ ∑ y ∈ r, exFold.angleAt (Rat.castHom ℝ) y = 1 := by
  have h1 : MSurf.tri.pointPosition ((1 : ℚ) / 4, 0) = .edgeInterior 0 := by decide +kernel
  have h2 : MSurf.tri.pointPosition ((3 : ℚ) / 4, 0) = .edgeInterior 0 := by decide +kernel
  refine ⟨{((), ((1 : ℚ) / 4, 0)), ((), ((3 : ℚ) / 4, 0))}, by decide +kernel, ?_, ?_⟩
  · unfold pointAngle
    have hp : exFold.polygon () = .ok MSurf.tri := rfl
    have ho : exFold.opp () 0 = .ok (some ((), 0)) := rfl
    simp only [hp, bind, Except.bind, h1, ho, pure, Except.pure, if_true]
  · rw [Finset.sum_pair (by decide +kernel), angleAt_eq (p := MSurf.tri) rfl, angleAt_eq (p := MSurf.tri) rfl, h1, h2]
    norm_num

/-- A vertex of the torus meets the hypotheses, and so does the midpoint of an edge that is glued to itself. -/
example : ∃ r, exTorus2.surfacePoint 8 (false, (0, 0)) = .ok r ∧ exTorus2.pointAngle (Rat.castHom ℝ) 8 (false, (0, 0)) =
    .ok (∑ y ∈ r, exTorus2.angleAt (Rat.castHom ℝ) y) := by
  have h : (exTorus2.surfacePoint 8 (false, (0, 0))).toOption.isSome = true := by decide +kernel
  cases hr : exTorus2.surfacePoint 8 (false, (0, 0)) with
  | error e => rw [hr] at h; cases h
  | ok r =>
    refine ⟨r, rfl, C65_point_angle_partial castHom_strictMono exTorus2_closed.bordered (es := [(false, 0), (false, 1), (false, 2), (true, 0), (true, 1), (true, 2)])
      (by decide) (fun d => (exTorus2_dart d).symm) (by decide) trivial hr ?_⟩
    rintro ⟨p, e, hp, hpos, -⟩
    injection hp with hp
    subst hp
    have h0 : MSurf.tri.pointPosition ((0 : ℚ), 0) = .vertex 0 := by decide +kernel
    have h1 := h0.symm.trans hpos
    cases h1

example : ¬ exFold.OffCenter ((), ((1 : ℚ) / 2, 0)) := by
  rintro ⟨p, e, hp, hpos, -, hne⟩
  injection hp with hp
  subst hp
  have h0 : MSurf.tri.pointPosition ((1 : ℚ) / 2, 0) = .edgeInterior 0 := by decide +kernel
  rw [h0] at hpos
  injection hpos with hpos
  subst hpos
  exact hne (by decide +kernel)

end RSurf
end Flat
