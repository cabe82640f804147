import Verif.Lemmas.HomologyRows
import Verif.Lemmas.PerfectPairing

/-!
# The cycles and boundaries of the matrices are those of the boundary maps
-/

namespace Flat
namespace RSurf
open Module
variable {L K : Type} [Field K] [LinearOrder K] [IsStrictOrderedRing K] {S : RSurf L K} {valid : L → Prop} [DecidableEq L] {R : Type} [CommRing R]

theorem except_bind_ok {α β : Type} {x : Except Err α} {f : α → Except Err β} {b : β} : x >>= f = .ok b ↔ ∃ a, x = .ok a ∧ f a = .ok b := by
  cases x with
  | error e => exact ⟨(fun h => by cases h), fun ⟨a, h, _⟩ => by cases h⟩
  | ok a => exact ⟨fun h => ⟨a, rfl, h⟩, fun ⟨a', h, h'⟩ => by cases h; exact h'⟩

theorem faceLoop_scale (sx : List (L × ℕ)) (r : R) (ds : List (L × ℕ)) {f : L × ℕ → R} (h : S.faceLoop sx 1 ds = .ok f) :
    S.faceLoop sx r ds = .ok (r • f) := by
  induction ds generalizing f with
  | nil =>
    injection h with h
    subst h
    rw [smul_zero]
    rfl
  | cons d ds ih =>
    rw [faceLoop] at h ⊢
    obtain ⟨f1, h1, h⟩ := except_bind_ok.1 h
    obtain ⟨g, h2, h⟩ := except_bind_ok.1 h
    injection h with h
    subst h
    have h3 : S.faceEdge sx r d = .ok (r • f1) := by
      unfold faceEdge at h1 ⊢
      split_ifs at h1 ⊢ with hd
      · injection h1 with h1
        subst h1
        rw [← Pi.single_smul, smul_eq_mul, mul_one]
      · obtain ⟨c, h4, h1⟩ := except_bind_ok.1 h1
        injection h1 with h1
        subst h1
        rw [h4, smul_neg, ← Pi.single_smul, smul_eq_mul, mul_one]
        rfl
    rw [h3, ih h2, smul_add]
    rfl

/-- The boundary of a chain of polygons in terms of the boundaries of the polygons. -/
theorem boundary2_linear {sx : List (L × ℕ)} {F : L → L × ℕ → R} (w : L → R) (ls : List L) (h : ∀ l ∈ ls, S.boundary2 sx [(l, (1 : R))] = .ok (F l)) :
    S.boundary2 sx (items ls w) = .ok ((ls.map fun l => w l • F l).sum) := by
  induction ls with
  | nil => rfl
  | cons l ls ih =>
    have hl := h l List.mem_cons_self
    unfold items
    rw [List.map_cons]
    rw [boundary2] at hl ⊢
    obtain ⟨es, h1, hl⟩ := except_bind_ok.1 hl
    obtain ⟨f, h2, hl⟩ := except_bind_ok.1 hl
    have hl : (Except.ok (f + 0) : Except Err (L × ℕ → R)) = .ok (F l) := hl
    injection hl with hl
    rw [add_zero] at hl
    subst hl
    have ih' := ih fun l h' => h l (List.mem_cons_of_mem _ h')
    unfold items at ih'
    rw [h1, ih']
    simp only [bind, Except.bind, faceLoop_scale sx (w l) es h2, pure, Except.pure, List.map_cons, List.sum_cons]

/-- The rows of the matrix of the boundary in degree 2 are the boundaries of the polygons. -/
theorem chainRows2_boundary {ls : List L} {sx : List (L × ℕ)} {M2 : List (List R)} (h : S.chainRows2 R ls sx = .ok M2) :
    ∃ F : L → L × ℕ → R, (∀ l ∈ ls, S.boundary2 sx [(l, (1 : R))] = .ok (F l)) ∧ M2 = ls.map fun l => sx.map (F l) := by
  have hF : ∀ l, ∃ f, ∀ b, S.boundary2 sx [(l, (1 : R))] = .ok b → f = b := by
    intro l
    cases h' : S.boundary2 sx [(l, (1 : R))] with
    | error e => exact ⟨0, by rintro b ⟨⟩⟩
    | ok b => exact ⟨b, by rintro b' ⟨⟩; rfl⟩
  choose F hF using hF
  refine ⟨F, ?_⟩
  unfold chainRows2 at h
  induction ls generalizing M2 with
  | nil =>
    cases h
    exact ⟨by simp, rfl⟩
  | cons l ls ih =>
    rw [List.mapM_cons] at h
    obtain ⟨r, h1, h⟩ := except_bind_ok.1 h
    obtain ⟨b, h2, h1⟩ := except_bind_ok.1 h1
    obtain ⟨rs, h3, h⟩ := except_bind_ok.1 h
    obtain ⟨h4, h5⟩ := ih h3
    cases h
    cases h1
    have := hF l b h2
    subst this
    refine ⟨?_, by rw [List.map_cons, h5]⟩
    intro l' hl'
    rcases List.mem_cons.1 hl' with rfl | hl'
    · exact h2
    · exact h4 l' hl'

theorem chainOf_items (sx : List (L × ℕ)) (hn : sx.Nodup) (f : L × ℕ → R) (hf : ∀ d, d ∉ sx → f d = 0) : chainOf sx (fun i => f sx[i]) = f := by
  funext d
  by_cases h : d ∈ sx
  · obtain ⟨i, hi, rfl⟩ := List.getElem_of_mem h
    exact chainOf_get hn _ ⟨i, hi⟩
  · rw [chainOf_not _ h, hf d h]

/-- The boundaries are the chains that are the boundary of a chain of polygons. -/
theorem mem_boundaries (hS : S.Closed valid) {ls : List L} (hn : ls.Nodup) (hls : ∀ l, l ∈ ls ↔ valid l) {sx : List (L × ℕ)} (hs : S.simplices1 ls = .ok sx)
    {M2 : List (List R)} (h2 : S.chainRows2 R ls sx = .ok M2) (x : Fin sx.length → R) :
    x ∈ LinearMap.range (rowMap M2 ls.length sx.length) ↔ ∃ w : L → R, S.boundary2 sx (items ls w) = .ok (chainOf sx x) := by
  obtain ⟨sx', h1, hsn, hsd, hs2, -⟩ := simplices1_spec hS hn hls
  rw [hs] at h1
  cases h1
  obtain ⟨F, hF, rfl⟩ := chainRows2_boundary h2
  have hF0 : ∀ l ∈ ls, ∀ d, d ∉ sx → F l d = 0 := by
    intro l hl c hc
    have hl' := (hls l).1 hl
    obtain ⟨p, hp, -⟩ := hS.poly l hl'
    obtain ⟨f, hf, hfs⟩ := faceLoop_eq (R := R) hS (sx := sx) (ds := (List.range p.length).map fun e => (l, e)) (by
      intro d hd
      obtain ⟨e, he, rfl⟩ := List.mem_map.1 hd
      exact ⟨hl', p, hp, List.mem_range.1 he⟩)
    have hb : S.boundary2 sx [(l, (1 : R))] = .ok f := by
      rw [boundary2, edgesAt_ok hp]
      simp only [bind, Except.bind, hf, boundary2, pure, Except.pure, add_zero]
    rw [hF l hl] at hb
    injection hb with hb
    rw [hb, hfs]
    refine List.sum_eq_zero fun r hr => ?_
    rw [List.map_map, List.mem_map] at hr
    obtain ⟨e, he, rfl⟩ := hr
    show S.faceF sx (l, e) c = 0
    unfold faceF
    split_ifs with h3 h4 h4
    · exact absurd (h4 ▸ h3) hc
    · rfl
    · exact absurd (h4 ▸ (hs2 _ ⟨hl', p, hp, List.mem_range.1 he⟩).resolve_left h3) hc
    · rfl
  have key : ∀ w : Fin ls.length → R, rowMap (ls.map fun l => sx.map (F l)) ls.length sx.length w = fun i : Fin sx.length => ∑ k, w k * F ls[k] sx[i] := by
    intro w
    funext i
    rw [rowMap_apply]
    simp only [getD_map_map]
  have hsum : ∀ (w : L → R) c, (ls.map fun l => w l • F l).sum c = ∑ k : Fin ls.length, w ls[k] * F ls[k] c := by
    intro w c
    rw [← Fin.sum_univ_fun_getElem, Finset.sum_apply]
    rfl
  have hz : ∀ (w : L → R) c, c ∉ sx → (ls.map fun l => w l • F l).sum c = 0 := by
    intro w c hc
    rw [hsum]
    exact Finset.sum_eq_zero fun k _ => by rw [hF0 ls[k] (List.getElem_mem k.2) c hc, mul_zero]
  constructor
  · rintro ⟨w, rfl⟩
    refine ⟨fun l => if h : l ∈ ls then w ⟨ls.idxOf l, List.idxOf_lt_length_iff.2 h⟩ else 0, ?_⟩
    have hw : ∀ k : Fin ls.length, (if h : ls[k] ∈ ls then w ⟨ls.idxOf ls[k], List.idxOf_lt_length_iff.2 h⟩ else 0) = w k := by
      intro k
      rw [dif_pos (show ls[k] ∈ ls from List.getElem_mem k.2)]
      congr 1
      ext
      exact hn.idxOf_getElem _ _
    rw [boundary2_linear _ _ hF]
    congr 1
    rw [key]
    refine Eq.trans ?_ (congrArg (chainOf sx) (funext fun i => (hsum (fun l => if h : l ∈ ls then w ⟨ls.idxOf l, List.idxOf_lt_length_iff.2 h⟩ else 0) sx[i]).trans ?_))
    · rw [chainOf_items sx hsn _ (hz _)]
    · exact Finset.sum_congr rfl fun k _ => by rw [hw]
  · rintro ⟨w, hw⟩
    rw [boundary2_linear _ _ hF] at hw
    injection hw with hw
    refine ⟨fun k => w ls[k], ?_⟩
    rw [key]
    funext i
    rw [← chainOf_get hsn x i, ← hw, hsum]

/-- The cycles are the chains without boundary. -/
theorem mem_cycles (hS : S.Closed valid) {ls : List L} (hn : ls.Nodup) (hls : ∀ l, l ∈ ls ↔ valid l) {es : List (L × ℕ)} (he : S.edges ls = .ok es) {fuel : ℕ}
    (hf : es.length + 1 < fuel) {rel : Finset (Finset (L × Vec K))} {vx : List (Finset (L × Vec K))} (hv : S.simplices0 fuel rel ls = .ok vx)
    {sx : List (L × ℕ)} (hs : S.simplices1 ls = .ok sx) {M1 : List (List R)} (h1 : S.chainRows1 R fuel rel sx vx = .ok M1) (x : Fin sx.length → R) :
    x ∈ LinearMap.ker (rowMap M1 sx.length vx.length) ↔ S.boundary1 fuel rel (items sx (chainOf sx x)) = .ok 0 := by
  obtain ⟨sx', h1', hsn, hsd, hs2, -⟩ := simplices1_spec hS hn hls
  rw [hs] at h1'
  cases h1'
  obtain ⟨es', he', hnd, hmem⟩ := edges_spec hS.bordered ls hn (fun l hl => (hls l).1 hl)
  rw [he] at he'
  cases he'
  have hes : ∀ d, d ∈ es ↔ S.IsDart valid d := fun d => (hmem d).trans ⟨fun h => h.2, fun h => ⟨(hls _).2 h.1, h⟩⟩
  have hV : ∀ d, ∃ x, S.IsDart valid d → S.surfaceVertex fuel d = .ok x := by
    intro d
    by_cases hd : S.IsDart valid d
    · obtain ⟨x, hx⟩ := surfaceVertex_defined hS.bordered (fun d hd => (hes d).2 hd) hf hd
      exact ⟨x, fun _ => hx⟩
    · exact ⟨∅, fun h => absurd h hd⟩
  choose V hV using hV
  rw [chainRows1_eq hS rel hV hsd] at h1
  cases h1
  obtain ⟨vs, h3, -, h4, -⟩ := vertices_spec hS he hes hV
  have hvx : ∀ y, y ∈ vx ↔ (∃ d, S.IsDart valid d ∧ V d = y) ∧ y ∉ rel := by
    unfold simplices0 at hv
    rw [h3] at hv
    cases hv
    intro y
    rw [List.mem_filter, h4]
    simp
  rw [boundary1_items hS rel hV hsd, LinearMap.mem_ker]
  have e1 : ∀ a b : Finset (L × Vec K) → R, (Except.ok a : Except Err (Finset (L × Vec K) → R)) = .ok b ↔ a = b := fun a b =>
    ⟨fun h => by injection h, fun h => by rw [h]⟩
  rw [e1]
  have hval : ∀ y, (sx.map fun d => S.edgeBoundary rel V d (chainOf sx x d)).sum y = ∑ i : Fin sx.length, x i * S.edgeBoundary rel V sx[i] 1 y := by
    intro y
    rw [← Fin.sum_univ_fun_getElem, Finset.sum_apply]
    refine Finset.sum_congr rfl fun i _ => ?_
    have h5 : chainOf sx x sx[i] = x i := chainOf_get hsn x i
    show S.edgeBoundary rel V sx[i] (chainOf sx x sx[i]) y = _
    rw [h5]
    have := edgeBoundary_smul (S := S) rel V sx[i] (x i) 1
    rw [mul_one] at this
    rw [this]
    rfl
  have hrow : ∀ j : Fin vx.length, rowMap (sx.map fun d => vx.map (S.edgeBoundary rel V d (1 : R))) sx.length vx.length x j =
      ∑ i : Fin sx.length, x i * S.edgeBoundary rel V sx[i] 1 vx[j] := by
    intro j
    rw [rowMap_apply]
    simp only [getD_map_map]
  constructor
  · intro h
    funext y
    rw [hval]
    by_cases hy : y ∈ vx
    · obtain ⟨j, hj, rfl⟩ := List.getElem_of_mem hy
      have := congrFun h ⟨j, hj⟩
      rw [hrow] at this
      exact this
    · refine Finset.sum_eq_zero fun i _ => ?_
      have hne : ∀ d, S.IsDart valid d → toC0 rel (V d) (1 : R) y = 0 := by
        intro d hd
        unfold toC0
        split_ifs with h5
        · rfl
        · rw [Pi.single_eq_of_ne]
          rintro rfl
          exact hy ((hvx _).2 ⟨⟨d, hd, rfl⟩, h5⟩)
      have hd := hsd sx[i] (List.getElem_mem i.2)
      unfold edgeBoundary
      rw [Pi.sub_apply, hne _ hd, hne _ (hS.oppF_dart hd), sub_zero, mul_zero]
  · intro h
    funext j
    rw [hrow, ← hval, h]
    rfl

end RSurf
end Flat
