import Verif.Lemmas.Patch
import Verif.Lemmas.Triangles
import Verif.Props.SubdividePolygon
import Mathlib.Tactic.Abel

/-!
# C26: `triangle_flip`
-/

namespace Flat
namespace MSurf
variable {L K : Type} [LinearOrder L] [Field K] [LinearOrder K] [IsStrictOrderedRing K]

/-- The old name of an edge after a flip. -/
def flipOld (l0 : L) (d0 : ℕ) (l1 : L) (d1 : ℕ) (x : L × ℕ) : L × ℕ :=
  if x = (l0, (d0 + 1) % 3) then (l0, (d0 + 2) % 3)
  else if x = (l0, (d0 + 2) % 3) then (l1, (d1 + 1) % 3)
  else if x = (l1, (d1 + 1) % 3) then (l1, (d1 + 2) % 3)
  else if x = (l1, (d1 + 2) % 3) then (l0, (d0 + 1) % 3)
  else x

/-- The edges other than the diagonal. -/
def FlipEdge (l0 : L) (d0 : ℕ) (l1 : L) (d1 : ℕ) (x : L × ℕ) : Prop :=
  (x.1 = l0 → x.2 < 3 ∧ x.2 ≠ d0) ∧ (x.1 = l1 → x.2 < 3 ∧ x.2 ≠ d1)

theorem flipToNew_spec {l0 l1 : L} {d0 d1 : ℕ} (h0 : d0 < 3) (h1 : d1 < 3) (hd : l0 = l1 → d0 = d1) (c : L × ℕ)
    (hc : FlipEdge l0 d0 l1 d1 c) :
    ∃ y : L × ℕ, FlipEdge l0 d0 l1 d1 y ∧ flipOld l0 d0 l1 d1 y = c ∧
      flipToNew l0 d0 l1 d1 (c.1, (c.2 : Int)) = .ok (y.1, (y.2 : Int)) := by
  obtain ⟨l, k⟩ := c
  obtain ⟨hc0, hc1⟩ := hc
  dsimp only at hc0 hc1
  by_cases hl0 : l = l0
  · subst hl0
    obtain ⟨hk, hk'⟩ := hc0 rfl
    rcases (show k = (d0 + 1) % 3 ∨ k = (d0 + 2) % 3 by omega) with rfl | rfl
    · refine ⟨(l1, (d1 + 2) % 3), ⟨?_, ?_⟩, ?_, ?_⟩
      · intro h; have := hd h.symm; dsimp only; omega
      · intro _; dsimp only; omega
      · unfold flipOld
        by_cases hl : l = l1
        · have := hd hl
          subst this; subst hl
          rw [if_neg, if_pos rfl]
          simp; omega
        · rw [if_neg, if_neg, if_neg, if_pos rfl]
          · simp; omega
          · simp [Ne.symm hl]
          · simp [Ne.symm hl]
      · unfold flipToNew
        simp only [if_true]
        rw [if_neg (by omega)]
    · refine ⟨(l, (d0 + 1) % 3), ⟨?_, ?_⟩, ?_, ?_⟩
      · intro _; dsimp only; omega
      · intro h; have := hd h; dsimp only; omega
      · unfold flipOld
        rw [if_pos rfl]
      · unfold flipToNew
        simp only [if_true]
        rw [if_neg (by omega), if_neg (by omega)]
  · by_cases hl1 : l = l1
    · subst hl1
      obtain ⟨hk, hk'⟩ := hc1 rfl
      rcases (show k = (d1 + 1) % 3 ∨ k = (d1 + 2) % 3 by omega) with rfl | rfl
      · refine ⟨(l0, (d0 + 2) % 3), ⟨?_, ?_⟩, ?_, ?_⟩
        · intro _; dsimp only; omega
        · intro h; exact absurd h.symm hl0
        · unfold flipOld
          rw [if_neg, if_pos rfl]
          simp; omega
        · unfold flipToNew
          simp only [if_true]
          rw [if_neg hl0, if_neg (by omega)]
      · refine ⟨(l, (d1 + 1) % 3), ⟨?_, ?_⟩, ?_, ?_⟩
        · intro h; exact absurd h hl0
        · intro _; dsimp only; omega
        · unfold flipOld
          rw [if_neg, if_neg, if_pos rfl]
          · simp [hl0]
          · simp [hl0]
        · unfold flipToNew
          simp only [if_true]
          rw [if_neg hl0, if_neg (by omega), if_neg (by omega)]
    · refine ⟨(l, k), ⟨fun h => absurd h hl0, fun h => absurd h hl1⟩, ?_, ?_⟩
      · unfold flipOld
        simp [hl0, hl1]
      · unfold flipToNew
        simp [hl0, hl1]

theorem flipOld_edge {l0 l1 : L} {d0 d1 : ℕ} (h0 : d0 < 3) (h1 : d1 < 3) (hd : l0 = l1 → d0 = d1) {x : L × ℕ}
    (hx : FlipEdge l0 d0 l1 d1 x) : FlipEdge l0 d0 l1 d1 (flipOld l0 d0 l1 d1 x) := by
  unfold flipOld
  split_ifs
  · exact ⟨fun _ => by dsimp only; omega, fun h => by have := hd h; dsimp only; omega⟩
  · exact ⟨fun h => by have := hd h.symm; dsimp only; omega, fun _ => by dsimp only; omega⟩
  · exact ⟨fun h => by have := hd h.symm; dsimp only; omega, fun _ => by dsimp only; omega⟩
  · exact ⟨fun _ => by dsimp only; omega, fun h => by have := hd h; dsimp only; omega⟩
  · exact hx

theorem flipOld_values {l0 l1 : L} {d0 d1 : ℕ} (h0 : d0 < 3) (h1 : d1 < 3) (hd : l0 = l1 → d0 = d1) :
    flipOld l0 d0 l1 d1 (l0, (d0 + 1) % 3) = (l0, (d0 + 2) % 3) ∧
    flipOld l0 d0 l1 d1 (l0, (d0 + 2) % 3) = (l1, (d1 + 1) % 3) ∧
    flipOld l0 d0 l1 d1 (l1, (d1 + 1) % 3) = (l1, (d1 + 2) % 3) ∧
    flipOld l0 d0 l1 d1 (l1, (d1 + 2) % 3) = (l0, (d0 + 1) % 3) := by
  have e1 : flipOld l0 d0 l1 d1 (l0, (d0 + 1) % 3) = (l0, (d0 + 2) % 3) := by unfold flipOld; rw [if_pos rfl]
  have e2 : flipOld l0 d0 l1 d1 (l0, (d0 + 2) % 3) = (l1, (d1 + 1) % 3) := by
    unfold flipOld; rw [if_neg, if_pos rfl]; simp; omega
  have e3 : flipOld l0 d0 l1 d1 (l1, (d1 + 1) % 3) = (l1, (d1 + 2) % 3) := by
    by_cases hl : l0 = l1
    · have := hd hl; subst this; subst hl; exact e1
    · unfold flipOld
      rw [if_neg, if_neg, if_pos rfl] <;> simp [Ne.symm hl]
  have e4 : flipOld l0 d0 l1 d1 (l1, (d1 + 2) % 3) = (l0, (d0 + 1) % 3) := by
    by_cases hl : l0 = l1
    · have := hd hl; subst this; subst hl; exact e2
    · unfold flipOld
      rw [if_neg, if_neg, if_neg, if_pos rfl]
      · simp; omega
      · simp [Ne.symm hl]
      · simp [Ne.symm hl]
  exact ⟨e1, e2, e3, e4⟩

/-- Four flips turn the quadrilateral once. -/
theorem flipOld_four {l0 l1 : L} {d0 d1 : ℕ} (h0 : d0 < 3) (h1 : d1 < 3) (hd : l0 = l1 → d0 = d1) (x : L × ℕ) :
    flipOld l0 d0 l1 d1 (flipOld l0 d0 l1 d1 (flipOld l0 d0 l1 d1 (flipOld l0 d0 l1 d1 x))) = x := by
  obtain ⟨e1, e2, e3, e4⟩ := flipOld_values h0 h1 hd
  by_cases x1 : x = (l0, (d0 + 1) % 3)
  · rw [x1, e1, e2, e3, e4]
  by_cases x2 : x = (l0, (d0 + 2) % 3)
  · rw [x2, e2, e3, e4, e1]
  by_cases x3 : x = (l1, (d1 + 1) % 3)
  · rw [x3, e3, e4, e1, e2]
  by_cases x4 : x = (l1, (d1 + 2) % 3)
  · rw [x4, e4, e1, e2, e3]
  have e5 : flipOld l0 d0 l1 d1 x = x := by
    unfold flipOld; rw [if_neg x1, if_neg x2, if_neg x3, if_neg x4]
  rw [e5, e5, e5, e5]

theorem flipOld_inj {l0 l1 : L} {d0 d1 : ℕ} (h0 : d0 < 3) (h1 : d1 < 3) (hd : l0 = l1 → d0 = d1) {x y : L × ℕ}
    (h : flipOld l0 d0 l1 d1 x = flipOld l0 d0 l1 d1 y) : x = y := by
  rw [← flipOld_four h0 h1 hd x, h, flipOld_four h0 h1 hd]

/-- `is_convex(label, edge, strict=True)` for two triangles. -/
theorem isConvexEdge_iff {s : MSurf L (Poly K)} (hs : GInv s) {l0 l1 : L} {d0 d1 : ℕ} {P0 P1 : Poly K}
    (hp0 : s.polygons.get l0 = some P0) (hp1 : s.polygons.get l1 = some P1) (h0 : P0.length = 3) (h1 : P1.length = 3)
    (ho : s.opp l0 d0 = some (l1, (d1 : Int))) :
    s.isConvexEdge l0 d0 true = .ok true ↔ ∃ g, s.edgeTransformation l1 d1 = .ok g ∧
      Poly.Turns (g.derivative.mulVec (P1.edge (d1 + 1))) (g.derivative.mulVec (P1.edge (d1 + 2))) (P0.edge (d0 + 1))
        (P0.edge (d0 + 2)) := by
  have he0 : s.IsEdge l0 d0 := opp_isEdge hs.toShape ho
  have ho' : s.opp l1 d1 = some (l0, (d0 : Int)) := by
    obtain ⟨k, k1, k2⟩ := hs.inv _ _ _ _ ho
    rw [Int.natCast_inj] at k1
    subst k1
    exact k2
  have he1 : s.IsEdge l1 d1 := opp_isEdge hs.toShape ho'
  have hd0 : d0 < 3 := by
    obtain ⟨p, k1, k2⟩ := he0
    rw [hp0] at k1; injection k1 with k1; subst k1
    have : nv P0 = P0.length := rfl
    omega
  have hd1 : d1 < 3 := by
    obtain ⟨p, k1, k2⟩ := he1
    rw [hp1] at k1; injection k1 with k1; subst k1
    have : nv P1 = P1.length := rfl
    omega
  have hopp : s.oppositeEdge! l0 (d0 : Int) = .ok (l1, (d1 : Int)) := by
    unfold oppositeEdge!; rw [oppositeEdge_eq_opp hs.toShape he0, ho]
  have hopp' : s.oppositeEdge! l1 (d1 : Int) = .ok (l0, (d0 : Int)) := by
    unfold oppositeEdge!; rw [oppositeEdge_eq_opp hs.toShape he1, ho']
  unfold isConvexEdge
  rw [hopp]
  simp only [bind, Except.bind, polygon_ok.2 hp0, polygon_ok.2 hp1, Int.toNat_natCast]
  cases hT : s.edgeTransformation l1 d1 with
  | error e => simp
  | ok g =>
    simp only [Except.ok.injEq, exists_eq_left']
    have hg : g.WF ∧ g.sign = 1 ∧ g.call (P1.vertex d1) = P0.vertex (d0 + 1) ∧ g.call (P1.vertex (d1 + 1)) = P0.vertex d0 := by
      unfold edgeTransformation at hT
      simp only [bind, Except.bind, polygon_ok.2 hp0, polygon_ok.2 hp1, hopp', Int.toNat_natCast] at hT
      cases hp : edgeTransformationPts (P1.vertex d1) (P1.vertex (d1 + 1)) (P0.vertex (d0 + 1)) (P0.vertex d0) with
      | none => rw [hp] at hT; cases hT
      | some g' =>
        rw [hp] at hT
        injection hT with hT
        subst hT
        exact edgeTransformationPts_spec _ _ _ _ _ hp
    obtain ⟨hwf, hsign, hga, hgb⟩ := hg
    have hne : P1 ≠ [] := by rintro rfl; simp at h1
    have hv : ∀ i, Poly.vertex (P1.map g.call) i = g.call (P1.vertex i) := fun i => Poly.vertex_map _ _ hne i
    obtain ⟨k, hk⟩ := Poly.join_triangles P0 (P1.map g.call) h0 (by simpa using h1) d0 d1 hd0 hd1 (by rw [hv, hgb])
    rw [hv] at hk
    have hjoin : ∀ Q, Poly.join P0 Q d0 d1 = if P0.vertex d0 ≠ Q.vertex (d1 + 1) ∨ P0.vertex (d0 + 1) ≠ Q.vertex d1
        then .error .valueError else Poly.ofVertices (P0.take d0 ++ Q.drop (d1 + 1) ++ Q.take d1 ++ P0.drop (d0 + 1)) :=
      fun _ => rfl
    set A := P0.vertex d0 with hA
    set B := P0.vertex (d0 + 1) with hB
    set C := P0.vertex (d0 + 2) with hC
    set D := g.call (P1.vertex (d1 + 2)) with hD
    have c1 : g.derivative.mulVec (P1.edge (d1 + 1)) = D - A := by
      rw [← Poly.edge_map_call _ hne hsign]
      unfold Poly.edge
      rw [hv, hv, hgb]
    have c2 : g.derivative.mulVec (P1.edge (d1 + 2)) = B - D := by
      rw [← Poly.edge_map_call _ hne hsign]
      unfold Poly.edge
      rw [hv, hv, show d1 + 2 + 1 = d1 + P1.length by omega, Poly.vertex_add_length, hga]
    have c3 : P0.edge (d0 + 1) = C - B := rfl
    have c4 : P0.edge (d0 + 2) = A - C := by
      unfold Poly.edge
      rw [show d0 + 2 + 1 = d0 + P0.length by omega, Poly.vertex_add_length]
    rw [c1, c2, c3, c4]
    have turnsRot : (∀ i, 0 < ccw (Poly.edge (List.rotate [A, D, B, C] k) i) (Poly.edge (List.rotate [A, D, B, C] k) (i + 1))) ↔
        Poly.Turns (D - A) (B - D) (C - B) (A - C) := by
      rw [← Poly.turns_quad]
      have he : ∀ i, Poly.edge (List.rotate [A, D, B, C] k) i = Poly.edge [A, D, B, C] (i + k) := by
        intro i
        unfold Poly.edge
        rw [Poly.vertex_rotate, Poly.vertex_rotate]
        congr 2
        omega
      simp only [he]
      constructor
      · intro h i
        have := h (i + 4 * k - k)
        rw [show i + 4 * k - k + 1 + k = i + 1 + k * 4 by omega, show i + 4 * k - k + k = i + k * 4 by omega] at this
        rwa [Poly.edge_congr _ (show (i + 1 + k * 4) % [A, D, B, C].length = (i + 1) % [A, D, B, C].length by simp),
          Poly.edge_congr _ (show (i + k * 4) % [A, D, B, C].length = i % [A, D, B, C].length by simp)] at this
      · intro h i
        have := h (i + k)
        rwa [show i + k + 1 = i + 1 + k by omega] at this
    have hrotne : (List.rotate [A, D, B, C] k : Poly K) ≠ [] := by simp [List.rotate_eq_nil_iff]
    constructor
    · intro hX
      cases hQ : Poly.ofVertices (P1.map g.call) with
      | error e => rw [hQ] at hX; cases hX
      | ok Q =>
        rw [hQ] at hX
        obtain ⟨rfl, -⟩ := (Poly.ofVertices_iff _ _).1 hQ
        dsimp only at hX
        rw [hjoin, if_neg (by rw [hv, hv, hga, hgb]; simp), hk] at hX
        cases hQ' : Poly.ofVertices (List.rotate [A, D, B, C] k) with
        | error e => rw [hQ'] at hX; cases hX
        | ok Q =>
          rw [hQ'] at hX
          obtain ⟨rfl, -⟩ := (Poly.ofVertices_iff _ _).1 hQ'
          injection hX with hX
          exact turnsRot.1 ((Poly.isConvex_strict_iff _ hrotne).1 hX)
    · intro hturns
      have hQ : Poly.ofVertices (P1.map g.call) = .ok (P1.map g.call) := by
        refine (Poly.ofVertices_iff _ _).2 ⟨rfl, ?_⟩
        have h3 : (P1.map g.call).length = 3 := by simpa using h1
        have hR : List.rotate (P1.map g.call) d1 = [B, A, D] := by
          have hl : (List.rotate (P1.map g.call) d1).length = 3 := by rw [List.length_rotate, h3]
          obtain ⟨x0, x1, x2, hx⟩ := List.length_eq_three.1 hl
          have hr : ∀ i, Poly.vertex (List.rotate (P1.map g.call) d1) i = g.call (P1.vertex (i + d1)) := by
            intro i; rw [Poly.vertex_rotate, hv]
          rw [hx] at hr
          have r0 := hr 0
          have r1 := hr 1
          have r2 := hr 2
          rw [(Poly.vertex3 x0 x1 x2).1, Nat.zero_add, hga] at r0
          rw [(Poly.vertex3 x0 x1 x2).2.1, Nat.add_comm, hgb] at r1
          rw [(Poly.vertex3 x0 x1 x2).2.2, Nat.add_comm] at r2
          rw [hx, r0, r1, r2]
        apply Poly.Valid.of_rotate d1
        rw [hR]
        apply Poly.valid_triangle
        have := hturns.1
        simp only [ccw, Prod.fst_sub, Prod.snd_sub] at this ⊢
        linarith
      rw [hQ]
      dsimp only
      rw [hjoin, if_neg (by rw [hv, hv, hga, hgb]; simp), hk]
      have hQ' : Poly.ofVertices (List.rotate [A, D, B, C] k) = .ok (List.rotate [A, D, B, C] k) :=
        (Poly.ofVertices_iff _ _).2 ⟨rfl, (Poly.valid_quad hturns).rotate k⟩
      rw [hQ']
      dsimp only
      rw [(Poly.isConvex_strict_iff _ hrotne).2 (turnsRot.2 hturns)]
      rfl

/-- The new triangles. -/
theorem flipTriangle_spec (a b c : Vec K) (d : ℕ) (hd : d < 3) (h : 0 < ccw (b - a) (c - b)) :
    ∃ q, flipTriangle a b c d = .ok q ∧ q.length = 3 ∧ q.vertex 0 = 0 ∧ q.edge d = b - a ∧ q.edge (d + 1) = c - b ∧
      q.edge (d + 2) = a - c := by
  have e1 : ccw (b - a) (c - b) = ccw (c - b) (a - c) := by simp only [ccw, Prod.fst_sub, Prod.snd_sub]; ring
  have e2 : ccw (b - a) (c - b) = ccw (a - c) (b - a) := by simp only [ccw, Prod.fst_sub, Prod.snd_sub]; ring
  unfold flipTriangle
  have key : ∀ x y z : Vec K, 0 < ccw (y - x) (z - y) → ∃ q : Poly K,
      (do let q ← Poly.ofVertices [x, y, z]; return q.translate (-q.vertex 0) : Except Err (Poly K)) = .ok q ∧
      q.length = 3 ∧ q.vertex 0 = 0 ∧ q.edge 0 = y - x ∧ q.edge 1 = z - y ∧ q.edge 2 = x - z := by
    intro x y z hxyz
    rw [(Poly.ofVertices_iff _ _).2 ⟨rfl, Poly.valid_triangle hxyz⟩]
    refine ⟨_, rfl, ?_, ?_, ?_, ?_, ?_⟩ <;>
      simp [Poly.translate, Poly.vertex, Poly.edge, neg_add_eq_sub]
  rcases (show d = 0 ∨ d = 1 ∨ d = 2 by omega) with rfl | rfl | rfl
  · exact key a b c h
  · obtain ⟨q, h1, h2, h3, h4, h5, h6⟩ := key c a b (e2 ▸ h)
    exact ⟨q, h1, h2, h3, h5, h6, by rw [← h4]; exact Poly.edge_congr _ (by rw [h2])⟩
  · obtain ⟨q, h1, h2, h3, h4, h5, h6⟩ := key b c a (e1 ▸ h)
    exact ⟨q, h1, h2, h3, h6, by rw [← h4]; exact Poly.edge_congr _ (by rw [h2]), by rw [← h5]; exact Poly.edge_congr _ (by rw [h2])⟩

theorem replacePolygon_more [LabelNum L] {s : MSurf L (Poly K)} (hs : Good s) (l : L) (p old : Poly K)
    (hp : s.polygons.get l = some old) (hn : old.length = p.length) :
    wp (replacePolygon l p) (fun _ t => Good t ∧ (FullRoots s → FullRoots t) ∧
      (∀ x, t.polygons.get x = if x = l then some p else s.polygons.get x) ∧ (∀ x e, t.opp x e = s.opp x e))
      (fun _ _ => False) s := by
  have hk := keeps_replacePolygon hs l p
  unfold Keeps at hk
  refine wp_mono (wp_and (Q := fun _ t => t = { s with polygons := s.polygons.set l p }) (E := fun _ _ => False) ?_ hk) ?_
    (fun _ _ h => h.1)
  · unfold replacePolygon
    rw [wp_bind, wp_get, wp_bind, wp_liftE, polygon_ok.2 hp]
    refine ⟨fun a ha => ?_, fun _ h' => by cases h'⟩
    injection ha with ha
    subst ha
    rw [wp_ite, wp_throw, wp_set]
    exact ⟨fun h => h hn, fun _ => rfl⟩
  · rintro _ t ⟨rfl, hg⟩
    refine ⟨hg, ?_, fun x => ?_, fun x e => rfl⟩
    · rintro (h | h)
      · exact Or.inl h
      · right
        intro x hx
        rw [Dict.mem_keys_set] at hx
        have : x ∈ s.polygons.keys := by
          rcases hx with rfl | hx
          · rw [Dict.mem_keys_iff, hp]; rfl
          · exact hx
        exact h x this
    · rw [Dict.get_set]

theorem wp_trivial {P α : Type} (m : Act L P α) (s : MSurf L P) : wp m (fun _ _ => True) (fun _ _ => True) s := by
  unfold wp
  split <;> trivial

theorem flipToNew_diag0 (l0 l1 : L) (d0 d1 : ℕ) : flipToNew l0 d0 l1 d1 (l0, (d0 : Int)) = .error .assertionError := by
  unfold flipToNew
  simp

theorem triangleFlip_spec [LabelNum L] {s : MSurf L (Poly K)} (hs : Good s) (l0 l1 : L) (d0 d1 : ℕ) (P0 P1 : Poly K)
    (hp0 : s.polygons.get l0 = some P0) (hp1 : s.polygons.get l1 = some P1) (h0 : P0.length = 3) (h1 : P1.length = 3)
    (ho : s.opp l0 d0 = some (l1, (d1 : Int))) :
    wp (triangleFlip l0 d0) (fun _ t => Good t ∧ (FullRoots s → FullRoots t) ∧ (l0 = l1 → d0 = d1) ∧
        (∃ g, s.edgeTransformation l1 d1 = .ok g ∧ g.sign = 1 ∧ g.WF ∧
          g.derivative.mulVec (P1.edge d1) = - P0.edge d0 ∧
          Poly.Turns (g.derivative.mulVec (P1.edge (d1 + 1))) (g.derivative.mulVec (P1.edge (d1 + 2)))
            (P0.edge (d0 + 1)) (P0.edge (d0 + 2)) ∧
          ∃ Q0 Q1 : Poly K, Q0.length = 3 ∧ Q1.length = 3 ∧ Q0.vertex 0 = 0 ∧ Q1.vertex 0 = 0 ∧
            Q0.edge (d0 + 1) = P0.edge (d0 + 2) ∧ Q0.edge (d0 + 2) = g.derivative.mulVec (P1.edge (d1 + 1)) ∧
            Q0.edge d0 = - (P0.edge (d0 + 2) + g.derivative.mulVec (P1.edge (d1 + 1))) ∧
            Q1.edge (d1 + 1) = g.derivative.mulVec (P1.edge (d1 + 2)) ∧ Q1.edge (d1 + 2) = P0.edge (d0 + 1) ∧
            Q1.edge d1 = P0.edge (d0 + 2) + g.derivative.mulVec (P1.edge (d1 + 1)) ∧
            ∀ x, t.polygons.get x = if x = l1 then some Q1 else if x = l0 then some Q0 else s.polygons.get x) ∧
        (∀ x : L × ℕ, x.1 = l0 ∨ x.1 = l1 → x.2 < 3 → s.opp x.1 x.2 ≠ none) ∧
        ∀ x e c, t.opp x e = some c ↔ ∃ k : ℕ, c.2 = k ∧
          (((x, e) = (l0, d0) ∧ (c.1, k) = (l1, d1)) ∨ ((x, e) = (l1, d1) ∧ (c.1, k) = (l0, d0)) ∨
            (FlipEdge l0 d0 l1 d1 (x, e) ∧ FlipEdge l0 d0 l1 d1 (c.1, k) ∧
              s.opp (flipOld l0 d0 l1 d1 (x, e)).1 (flipOld l0 d0 l1 d1 (x, e)).2 =
                some ((flipOld l0 d0 l1 d1 (c.1, k)).1, ((flipOld l0 d0 l1 d1 (c.1, k)).2 : Int)))))
      (fun _ _ => (¬ ∃ g, s.edgeTransformation l1 d1 = .ok g ∧
          Poly.Turns (g.derivative.mulVec (P1.edge (d1 + 1))) (g.derivative.mulVec (P1.edge (d1 + 2)))
            (P0.edge (d0 + 1)) (P0.edge (d0 + 2))) ∨
        (∃ x : L × ℕ, (x.1 = l0 ∨ x.1 = l1) ∧ x.2 < 3 ∧ s.opp x.1 x.2 = none) ∨ (l0 = l1 ∧ d0 ≠ d1) ∨
        ¬ FullRoots s) s := by
  have he0 : s.IsEdge l0 d0 := opp_isEdge hs.1.toShape ho
  have ho' : s.opp l1 d1 = some (l0, (d0 : Int)) := by
    obtain ⟨k, k1, k2⟩ := hs.1.inv _ _ _ _ ho
    rw [Int.natCast_inj] at k1
    subst k1
    exact k2
  have he1 : s.IsEdge l1 d1 := opp_isEdge hs.1.toShape ho'
  have hd0 : d0 < 3 := by
    obtain ⟨p, k1, k2⟩ := he0
    rw [hp0] at k1; injection k1 with k1; subst k1
    have : nv P0 = P0.length := rfl
    omega
  have hd1 : d1 < 3 := by
    obtain ⟨p, k1, k2⟩ := he1
    rw [hp1] at k1; injection k1 with k1; subst k1
    have : nv P1 = P1.length := rfl
    omega
  have hopp : s.oppositeEdge! l0 (d0 : Int) = .ok (l1, (d1 : Int)) := by
    unfold oppositeEdge!; rw [oppositeEdge_eq_opp hs.1.toShape he0, ho]
  have hopp' : s.oppositeEdge! l1 (d1 : Int) = .ok (l0, (d0 : Int)) := by
    unfold oppositeEdge!; rw [oppositeEdge_eq_opp hs.1.toShape he1, ho']
  have hconv := isConvexEdge_iff hs.1 hp0 hp1 h0 h1 ho
  have hnv0 : nv P0 = 3 := h0
  have hnv1 : nv P1 = 3 := h1
  unfold triangleFlip
  rw [wp_bind, wp_get, wp_bind, wp_liftE, hopp]
  refine ⟨fun a ha => ?_, fun _ h' => by cases h'⟩
  injection ha with ha
  subst ha
  dsimp only
  rw [Int.toNat_natCast, wp_bind, wp_liftE, polygon_ok.2 hp0]
  refine ⟨fun a ha => ?_, fun _ h' => by cases h'⟩
  injection ha with ha
  subst ha
  rw [wp_bind, wp_liftE, polygon_ok.2 hp1]
  refine ⟨fun a ha => ?_, fun _ h' => by cases h'⟩
  injection ha with ha
  subst ha
  rw [wp_ite]
  refine ⟨fun h => by omega, fun _ => ?_⟩
  rw [wp_bind, wp_liftE]
  refine ⟨fun conv hc => ?_, fun x hx => Or.inl fun hex => by rw [hconv.2 hex] at hx; cases hx⟩
  rw [wp_ite]
  refine ⟨fun hnc => Or.inl fun hex => ?_, fun hcv => ?_⟩
  · rw [hconv.2 hex] at hc
    injection hc with hc
    exact hnc hc.symm
  rw [not_not] at hcv
  subst hcv
  obtain ⟨g, hT, hturns⟩ := hconv.1 hc
  rw [wp_bind, wp_liftE, hT]
  refine ⟨fun a ha => ?_, fun _ h' => by cases h'⟩
  injection ha with ha
  subst ha
  have hg : g.WF ∧ g.sign = 1 ∧ g.call (P1.vertex d1) = P0.vertex (d0 + 1) ∧ g.call (P1.vertex (d1 + 1)) = P0.vertex d0 := by
    have hT' := hT
    unfold edgeTransformation at hT'
    simp only [bind, Except.bind, polygon_ok.2 hp0, polygon_ok.2 hp1, hopp', Int.toNat_natCast] at hT'
    cases hp : edgeTransformationPts (P1.vertex d1) (P1.vertex (d1 + 1)) (P0.vertex (d0 + 1)) (P0.vertex d0) with
    | none => rw [hp] at hT'; cases hT'
    | some g' =>
      rw [hp] at hT'
      injection hT' with hT'
      subst hT'
      exact edgeTransformationPts_spec _ _ _ _ _ hp
  obtain ⟨hwf, hsign, hga, hgb⟩ := hg
  have hne : P1 ≠ [] := by rintro rfl; simp at h1
  have hv : ∀ i, Poly.vertex (P1.map g.call) i = g.call (P1.vertex i) := fun i => Poly.vertex_map _ _ hne i
  obtain ⟨A, hA⟩ : ∃ A, A = P0.vertex d0 := ⟨_, rfl⟩
  obtain ⟨B, hB⟩ : ∃ A, A = P0.vertex (d0 + 1) := ⟨_, rfl⟩
  obtain ⟨C, hC⟩ : ∃ A, A = P0.vertex (d0 + 2) := ⟨_, rfl⟩
  obtain ⟨D, hD⟩ : ∃ A, A = g.call (P1.vertex (d1 + 2)) := ⟨_, rfl⟩
  have c0 : g.derivative.mulVec (P1.edge d1) = A - B := by
    rw [← Poly.edge_map_call _ hne hsign]
    unfold Poly.edge
    rw [hv, hv, hgb, hga, hA, hB]
  have c1 : g.derivative.mulVec (P1.edge (d1 + 1)) = D - A := by
    rw [← Poly.edge_map_call _ hne hsign]
    unfold Poly.edge
    rw [hv, hv, hgb, hD, hA]
  have c2 : g.derivative.mulVec (P1.edge (d1 + 2)) = B - D := by
    rw [← Poly.edge_map_call _ hne hsign]
    unfold Poly.edge
    rw [hv, hv, show d1 + 2 + 1 = d1 + P1.length by omega, Poly.vertex_add_length, hga, hD, hB]
  have c3 : P0.edge (d0 + 1) = C - B := by rw [hC, hB]; rfl
  have c4 : P0.edge (d0 + 2) = A - C := by
    unfold Poly.edge
    rw [show d0 + 2 + 1 = d0 + P0.length by omega, Poly.vertex_add_length, hA, hC]
  have c5 : P0.edge d0 = B - A := by rw [hA, hB]; rfl
  have hturns' := hturns
  rw [c1, c2, c3, c4] at hturns'
  have hQ : Poly.ofVertices (P1.map g.call) = .ok (P1.map g.call) := by
    -- this was checked by `is_convex`
    have hc' := hc
    unfold isConvexEdge at hc'
    rw [hopp] at hc'
    simp only [bind, Except.bind, polygon_ok.2 hp0, polygon_ok.2 hp1, Int.toNat_natCast, hT] at hc'
    cases hQ : Poly.ofVertices (P1.map g.call) with
    | error e => rw [hQ] at hc'; cases hc'
    | ok Q => obtain ⟨rfl, -⟩ := (Poly.ofVertices_iff _ _).1 hQ; rfl
  rw [wp_bind, wp_liftE, hQ]
  refine ⟨fun a ha => ?_, fun _ h' => by cases h'⟩
  injection ha with ha
  subst ha
  have hE : ∀ l, l = l0 ∨ l = l1 → ∀ i, i < 3 → s.IsEdge l i := by
    rintro l (rfl | rfl) i hi
    · exact ⟨P0, hp0, by omega⟩
    · exact ⟨P1, hp1, by omega⟩
  have hmap : ∀ l, l = l0 ∨ l = l1 → ∀ d, (List.range 3).mapM (fun i => s.oppositeEdge l (((d + i) % 3 : ℕ) : Int)) =
      .ok ((List.range 3).map (fun i => s.opp l ((d + i) % 3))) := by
    intro l hl d
    rw [mapM_ok_iff, List.forall₂_map_right_iff]
    exact List.forall₂_same.2 fun i _ => oppositeEdge_eq_opp hs.1.toShape (hE l hl _ (Nat.mod_lt _ (by norm_num)))
  rw [wp_bind, wp_liftE, hmap l0 (Or.inl rfl)]
  refine ⟨fun g0 hg0 => ?_, fun _ h' => by cases h'⟩
  injection hg0 with hg0
  rw [wp_bind, wp_liftE, hmap l1 (Or.inr rfl)]
  refine ⟨fun g1 hg1 => ?_, fun _ h' => by cases h'⟩
  injection hg1 with hg1
  have g01 : (g0[1]?).join = s.opp l0 ((d0 + 1) % 3) := by rw [← hg0]; rfl
  have g02 : (g0[2]?).join = s.opp l0 ((d0 + 2) % 3) := by rw [← hg0]; rfl
  have g11 : (g1[1]?).join = s.opp l1 ((d1 + 1) % 3) := by rw [← hg1]; rfl
  have g12 : (g1[2]?).join = s.opp l1 ((d1 + 2) % 3) := by rw [← hg1]; rfl
  rw [g01, g02, g11, g12]
  rw [wp_ite]
  refine ⟨fun h => absurd (by rw [hv, hgb]) h, fun _ => ?_⟩
  rw [wp_ite]
  refine ⟨fun h => absurd (by rw [hv, hga]) h, fun _ => ?_⟩
  rw [hv, hv, hga, ← hA, ← hB, ← hC, ← hD]
  obtain ⟨t1, t2, t3, t4⟩ := hturns'
  obtain ⟨Q0, q1, q2, q3, q4, q5, q6⟩ := flipTriangle_spec D C A d0 hd0 (by
    have : ccw (C - D) (A - C) = ccw (A - C) (D - A) := by simp only [ccw, Prod.fst_sub, Prod.snd_sub]; ring
    rw [this]; exact t4)
  obtain ⟨Q1, r1, r2, r3, r4, r5, r6⟩ := flipTriangle_spec C D B d1 hd1 (by
    have : ccw (D - C) (B - D) = ccw (B - D) (C - B) := by simp only [ccw, Prod.fst_sub, Prod.snd_sub]; ring
    rw [this]; exact t2)
  rw [wp_bind, wp_liftE, q1]
  refine ⟨fun a ha => ?_, fun _ h' => by cases h'⟩
  injection ha with ha
  subst ha
  rw [wp_bind, wp_liftE, r1]
  refine ⟨fun a ha => ?_, fun _ h' => by cases h'⟩
  injection ha with ha
  subst ha
  by_cases hd : l0 = l1 ∧ d0 ≠ d1
  · refine wp_mono (Q := fun _ _ => False) (E := fun _ _ => True) ?_ (fun _ _ h => h.elim)
      (fun _ _ _ => Or.inr (Or.inr (Or.inl hd)))
    obtain ⟨rfl, hne⟩ := hd
    rw [wp_bind]
    refine wp_mono (wp_trivial _ _) (fun _ s1 _ => ?_) (fun _ _ _ => trivial)
    rw [wp_bind]
    refine wp_mono (wp_trivial _ _) (fun _ s2 _ => ?_) (fun _ _ _ => trivial)
    rw [wp_bind]
    refine wp_mono (wp_trivial _ _) (fun _ s3 _ => ?_) (fun _ _ _ => trivial)
    rw [wp_bind]
    rcases (show d1 = (d0 + 2) % 3 ∨ d1 = (d0 + 1) % 3 by omega) with hd' | hd'
    · rw [← hd', ho']
      unfold glueToNew
      rw [wp_bind, wp_liftE, flipToNew_diag0]
      exact ⟨fun _ h => (by cases h), fun _ _ => trivial⟩
    · refine wp_mono (wp_trivial _ _) (fun _ s4 _ => ?_) (fun _ _ _ => trivial)
      rw [wp_bind]
      refine wp_mono (wp_trivial _ _) (fun _ s5 _ => ?_) (fun _ _ _ => trivial)
      rw [wp_bind]
      refine wp_mono (wp_trivial _ _) (fun _ s6 _ => ?_) (fun _ _ _ => trivial)
      rw [← hd', ho']
      unfold glueToNew
      rw [wp_bind, wp_liftE, flipToNew_diag0]
      exact ⟨fun _ h => (by cases h), fun _ _ => trivial⟩
  have hd : l0 = l1 → d0 = d1 := by
    intro h
    by_contra h'
    exact hd ⟨h, h'⟩
  rw [wp_bind]
  refine wp_mono (replacePolygon_more hs l0 Q0 P0 hp0 (by omega)) ?_ (fun _ _ hh => hh.elim)
  rintro _ s1 ⟨hg1, hf1, hpol1, ho1⟩
  rw [wp_bind]
  refine wp_mono (replacePolygon_more hg1 l1 Q1 (if l1 = l0 then Q0 else P1) (by
    rw [hpol1]; split_ifs <;> simp [hp1]) (by split_ifs <;> omega)) ?_ (fun _ _ hh => hh.elim)
  rintro _ s2 ⟨hg2, hf2, hpol2, ho2⟩
  have hP : ∀ x, s2.polygons.get x = if x = l1 then some Q1 else if x = l0 then some Q0 else s.polygons.get x := by
    intro x; rw [hpol2, hpol1]
  have hO : ∀ x e, s2.opp x e = s.opp x e := fun x e => by rw [ho2, ho1]
  have hEdge : ∀ x e, s2.IsEdge x e ↔ s.IsEdge x e := by
    intro x e
    unfold IsEdge
    rw [hP]
    by_cases hx1 : x = l1
    · subst hx1
      simp only [if_true, hp1, Option.some.injEq, exists_eq_left']
      rw [hnv1, show nv Q1 = 3 from r2]
    · by_cases hx0 : x = l0
      · subst hx0
        simp only [if_neg hx1, if_true, hp0, Option.some.injEq, exists_eq_left']
        rw [hnv0, show nv Q0 = 3 from q2]
      · simp only [if_neg hx1, if_neg hx0]
  let ok : L × ℕ → Prop := FlipEdge l0 d0 l1 d1
  let old : L × ℕ → L × ℕ := flipOld l0 d0 l1 d1
  let R0 : L × ℕ → L × ℕ → Prop := fun x y => ok x ∧ ok y ∧ s.opp (old x).1 (old x).2 = some ((old y).1, ((old y).2 : Int))
  let R : L × ℕ → L × ℕ → Prop := fun x y => (x = (l0, d0) ∧ y = (l1, d1)) ∨ (x = (l1, d1) ∧ y = (l0, d0)) ∨ R0 x y
  have ok0 : ¬ ok (l0, d0) := fun h => (h.1 rfl).2 rfl
  have ok1 : ¬ ok (l1, d1) := fun h => (h.2 rfl).2 rfl
  have hR0symm : ∀ x y, R0 x y → R0 y x := by
    rintro x y ⟨h1, h2, h4⟩
    obtain ⟨k, h5, h6⟩ := hs.1.inv _ _ _ _ h4
    rw [Int.natCast_inj] at h5
    subst h5
    exact ⟨h2, h1, h6⟩
  have hRsymm : ∀ x y, R x y → R y x := by
    rintro x y (⟨h1, h2⟩ | ⟨h1, h2⟩ | h)
    · exact Or.inr (Or.inl ⟨h2, h1⟩)
    · exact Or.inl ⟨h2, h1⟩
    · exact Or.inr (Or.inr (hR0symm _ _ h))
  have hfold : (l0, d0) = (l1, d1) → (l1, d1) = (l0, d0) := Eq.symm
  have hRfun : ∀ x y z, R x y → R x z → y = z := by
    rintro x y z (⟨h1, h2⟩ | ⟨h1, h2⟩ | ⟨h1, h2, h4⟩) (⟨k1, k2⟩ | ⟨k1, k2⟩ | ⟨k1, k2, k4⟩)
    · rw [h2, k2]
    · rw [h2, k2]; rw [h1] at k1; exact k1.symm
    · rw [h1] at k1; exact absurd k1 ok0
    · rw [h2, k2]; rw [h1] at k1; exact k1.symm
    · rw [h2, k2]
    · rw [h1] at k1; exact absurd k1 ok1
    · rw [k1] at h1; exact absurd h1 ok0
    · rw [k1] at h1; exact absurd h1 ok1
    · rw [h4] at k4
      simp only [Option.some.injEq, Prod.mk.injEq, Int.natCast_inj] at k4
      exact flipOld_inj hd0 hd1 hd (Prod.ext k4.1 k4.2)
  obtain ⟨G, hT2, hG⟩ := target_of_rel (t := s2) R hRsymm hRfun (by
    rintro ⟨a, i⟩ y (⟨h1, -⟩ | ⟨h1, -⟩ | ⟨h1, -, h4⟩)
    · injection h1 with ha hi
      subst ha; subst hi
      exact (hEdge _ _).2 he0
    · injection h1 with ha hi
      subst ha; subst hi
      exact (hEdge _ _).2 he1
    · rw [hEdge]
      by_cases ha : a = l0
      · exact hE a (Or.inl ha) _ (h1.1 ha).1
      · by_cases ha' : a = l1
        · exact hE a (Or.inr ha') _ (h1.2 ha').1
        · have : old (a, i) = (a, i) := by simp [old, flipOld, ha, ha']
          rw [this] at h4
          exact opp_isEdge hs.1.toShape h4)
  -- partners of edges that are not diagonals are not diagonals
  have hokopp : ∀ x : L × ℕ, ok x → ∀ c (k : ℕ), s.opp x.1 x.2 = some (c, (k : Int)) → ok (c, k) := by
    intro x hx c k hc
    obtain ⟨k', h5, h6⟩ := hs.1.inv _ _ _ _ hc
    rw [Int.natCast_inj] at h5
    subst h5
    have hlt : ∀ l, l = l0 ∨ l = l1 → c = l → k < 3 := by
      rintro l hl rfl
      obtain ⟨p, h7, h8⟩ := opp_isEdge hs.1.toShape h6
      rcases hl with rfl | rfl
      · rw [hp0] at h7; injection h7 with h7; subst h7; omega
      · rw [hp1] at h7; injection h7 with h7; subst h7; omega
    refine ⟨fun h => ⟨hlt l0 (Or.inl rfl) h, fun h' => ?_⟩, fun h => ⟨hlt l1 (Or.inr rfl) h, fun h' => ?_⟩⟩
    · dsimp only at h h'
      subst h; subst h'
      rw [ho] at h6
      simp only [Option.some.injEq, Prod.mk.injEq, Int.natCast_inj] at h6
      exact ok1 (by rw [show (l1, d1) = x from Prod.ext h6.1 h6.2]; exact hx)
    · dsimp only at h h'
      subst h; subst h'
      rw [ho'] at h6
      simp only [Option.some.injEq, Prod.mk.injEq, Int.natCast_inj] at h6
      exact ok0 (by rw [show (l0, d0) = x from Prod.ext h6.1 h6.2]; exact hx)
  -- the partner of a new edge
  have step : ∀ x : L × ℕ, ok x → ∀ c, s.opp (old x).1 (old x).2 = some c →
      ∃ y : L × Int, flipToNew l0 d0 l1 d1 c = .ok y ∧ G x.1 x.2 = some y := by
    rintro x hx ⟨c1, c2⟩ hc
    obtain ⟨k, rfl, hk⟩ := hs.1.inv _ _ _ _ hc
    obtain ⟨y, hy1, hy2, hy3⟩ := flipToNew_spec hd0 hd1 hd (c1, k) (hokopp _ (flipOld_edge hd0 hd1 hd hx) _ _ hc)
    refine ⟨_, hy3, ?_⟩
    rw [hG]
    refine ⟨y.2, rfl, Or.inr (Or.inr ⟨hx, hy1, ?_⟩)⟩
    rw [show old (y.1, y.2) = (c1, k) from hy2]
    exact hc
  have rest : ∀ x : L × ℕ, ¬ (x.1 = l0 ∨ x.1 = l1) → (∀ c (k : ℕ), G x.1 x.2 = some (c, (k : Int)) → ¬ (c = l0 ∨ c = l1)) →
      s2.opp x.1 x.2 = G x.1 x.2 := by
    intro x hx hxG
    push Not at hx
    have okx : ok x := ⟨fun h => absurd h hx.1, fun h => absurd h hx.2⟩
    have oldx : ∀ y : L × ℕ, y.1 ≠ l0 → y.1 ≠ l1 → old y = y := by
      intro y hy0 hy1
      have : ∀ (l : L) (k : ℕ), y.1 ≠ l → y ≠ (l, k) := by rintro l k h rfl; exact h rfl
      simp only [old, flipOld, if_neg (this _ _ hy0), if_neg (this _ _ hy1)]
    rw [hO]
    cases hc : s.opp x.1 x.2 with
    | none =>
      cases hc' : G x.1 x.2 with
      | none => rfl
      | some c =>
        obtain ⟨k, hk, h4 | h4 | ⟨-, -, h4⟩⟩ := (hG _ _ _).1 hc'
        · exact absurd (by injection h4.1) hx.1
        · exact absurd (by injection h4.1) hx.2
        · rw [oldx (x.1, x.2) hx.1 hx.2, hc] at h4
          cases h4
    | some c =>
      obtain ⟨c1, c2⟩ := c
      obtain ⟨k, rfl, hk⟩ := hs.1.inv _ _ _ _ hc
      obtain ⟨y, hy, hy'⟩ := step x okx (c1, (k : Int)) (by rw [oldx x hx.1 hx.2]; exact hc)
      have hGy := hy'
      obtain ⟨y1, y2⟩ := y
      obtain ⟨k', rfl, -⟩ := hT2.inv _ _ _ _ hy'
      have hny := hxG _ _ hy'
      push Not at hny
      obtain ⟨j, hj, h4 | h4 | ⟨-, -, h4⟩⟩ := (hG _ _ _).1 hGy
      · exact absurd (by injection h4.1) hx.1
      · exact absurd (by injection h4.1) hx.2
      · dsimp only at hj h4
        rw [Int.natCast_inj] at hj
        subst hj
        rw [oldx (x.1, x.2) hx.1 hx.2, oldx (y1, k') hny.1 hny.2, hc] at h4
        rw [h4, hGy]
  -- start
  have p0 : Patch G (fun x => x.1 = l0 ∨ x.1 = l1) (fun _ => False) s2 s2 :=
    ⟨SameTables.refl hg2.1.toShape, hg2.1, hg2.2.2, id, fun _ h => h.elim, fun _ h => h.elim, rest⟩
  have hfull : ¬ FullRoots s2 → ¬ FullRoots s := fun h h' => h (hf2 (hf1 h'))
  rw [wp_bind]
  refine wp_mono (glue_patch p0 hg2.2.1 hT2 l0 d0 (Or.inl rfl) (l1, (d1 : Int))
    ((hG _ _ _).2 ⟨d1, rfl, Or.inl ⟨rfl, rfl⟩⟩)) ?_ (fun _ _ h => Or.inr (Or.inr (Or.inr (hfull h))))
  rintro _ s3 p1
  -- gluing one of the other edges
  have next : ∀ (D : L × ℕ → Prop) (t : MSurf L (Poly K)), Patch G (fun x => x.1 = l0 ∨ x.1 = l1) D s2 t →
      ∀ x : L × ℕ, (x.1 = l0 ∨ x.1 = l1) → ok x →
      wp (glueToNew l0 d0 l1 d1 (x.1, (x.2 : Int)) (s.opp (old x).1 (old x).2))
        (fun _ t' => s.opp (old x).1 (old x).2 ≠ none ∧
          ∃ D' : L × ℕ → Prop, (∀ y, D y → D' y) ∧ D' x ∧ Patch G (fun x => x.1 = l0 ∨ x.1 = l1) D' s2 t')
        (fun _ _ => s.opp (old x).1 (old x).2 = none ∨ ¬ FullRoots s) t := by
    intro D t hp x hxE hx
    unfold glueToNew
    cases hc : s.opp (old x).1 (old x).2 with
    | none =>
      dsimp only
      rw [wp_throw]
      exact Or.inl rfl
    | some c =>
      obtain ⟨y, hy, hy'⟩ := step x hx c hc
      dsimp only
      rw [wp_bind, wp_liftE, hy]
      refine ⟨fun a ha => ?_, fun _ h' => by cases h'⟩
      injection ha with ha
      subst ha
      refine wp_mono (glue_patch hp hg2.2.1 hT2 x.1 x.2 hxE y hy') ?_ (fun _ _ h => Or.inr (hfull h))
      intro _ t' hp'
      exact ⟨by simp, fun z => D z ∨ z = (x.1, x.2) ∨ z = (y.1, y.2.toNat), fun _ h => Or.inl h, Or.inr (Or.inl rfl), hp'⟩
  have ok01 : ok (l0, (d0 + 1) % 3) :=
    ⟨fun _ => by dsimp only; omega, fun h => by have := hd h; dsimp only; omega⟩
  have ok02 : ok (l0, (d0 + 2) % 3) :=
    ⟨fun _ => by dsimp only; omega, fun h => by have := hd h; dsimp only; omega⟩
  have ok11 : ok (l1, (d1 + 1) % 3) :=
    ⟨fun h => by have := hd h.symm; dsimp only; omega, fun _ => by dsimp only; omega⟩
  have ok12 : ok (l1, (d1 + 2) % 3) :=
    ⟨fun h => by have := hd h.symm; dsimp only; omega, fun _ => by dsimp only; omega⟩
  obtain ⟨o01, o02, o11, o12⟩ : old (l0, (d0 + 1) % 3) = (l0, (d0 + 2) % 3) ∧ old (l0, (d0 + 2) % 3) = (l1, (d1 + 1) % 3) ∧
    old (l1, (d1 + 1) % 3) = (l1, (d1 + 2) % 3) ∧ old (l1, (d1 + 2) % 3) = (l0, (d0 + 1) % 3) := flipOld_values hd0 hd1 hd
  have err : ∀ {Y : Prop} (x : L × ℕ), (x.1 = l0 ∨ x.1 = l1) → x.2 < 3 → s.opp x.1 x.2 = none ∨ ¬ FullRoots s →
      Y ∨ (∃ x : L × ℕ, (x.1 = l0 ∨ x.1 = l1) ∧ x.2 < 3 ∧ s.opp x.1 x.2 = none) ∨ (l0 = l1 ∧ d0 ≠ d1) ∨
        ¬ FullRoots s := by
    rintro Y x hx hx' (h | h)
    · exact Or.inr (Or.inl ⟨x, hx, hx', h⟩)
    · exact Or.inr (Or.inr (Or.inr h))
  have hlt : ∀ i, i % 3 < 3 := fun i => Nat.mod_lt _ (by norm_num)
  rw [wp_bind]
  have n1 := next _ s3 p1 (l0, (d0 + 1) % 3) (Or.inl rfl) ok01
  rw [o01] at n1
  refine wp_mono n1 ?_ (fun _ _ h => err (l0, (d0 + 2) % 3) (Or.inl rfl) (hlt _) h)
  rintro _ s4 ⟨z1, D1, m1, i1, p2⟩
  rw [wp_bind]
  have n2 := next _ s4 p2 (l0, (d0 + 2) % 3) (Or.inl rfl) ok02
  rw [o02] at n2
  refine wp_mono n2 ?_ (fun _ _ h => err (l1, (d1 + 1) % 3) (Or.inr rfl) (hlt _) h)
  rintro _ s5 ⟨z2, D2, m2, i2, p3⟩
  rw [wp_bind]
  have n3 := next _ s5 p3 (l1, (d1 + 1) % 3) (Or.inr rfl) ok11
  rw [o11] at n3
  refine wp_mono n3 ?_ (fun _ _ h => err (l1, (d1 + 2) % 3) (Or.inr rfl) (hlt _) h)
  rintro _ s6 ⟨z3, D3, m3, i3, p4⟩
  have n4 := next _ s6 p4 (l1, (d1 + 2) % 3) (Or.inr rfl) ok12
  rw [o12] at n4
  refine wp_mono n4 ?_ (fun _ _ h => err (l0, (d0 + 1) % 3) (Or.inl rfl) (hlt _) h)
  rintro _ s7 ⟨z4, D4, m4, i4, p5⟩
  have hfin := p5.finish hT2 (by
    rintro ⟨a, i⟩ ha hi
    rw [hEdge] at hi
    dsimp only at ha hi
    have hi3 : i < 3 := by
      obtain ⟨p, h7, h8⟩ := hi
      rcases ha with rfl | rfl
      · rw [hp0] at h7; injection h7 with h7; subst h7; omega
      · rw [hp1] at h7; injection h7 with h7; subst h7; omega
    rcases ha with rfl | rfl
    · rcases (show i = d0 ∨ i = (d0 + 1) % 3 ∨ i = (d0 + 2) % 3 by omega) with rfl | rfl | rfl
      · exact m4 _ (m3 _ (m2 _ (m1 _ (Or.inr (Or.inl rfl)))))
      · exact m4 _ (m3 _ (m2 _ i1))
      · exact m4 _ (m3 _ i2)
    · rcases (show i = d1 ∨ i = (d1 + 1) % 3 ∨ i = (d1 + 2) % 3 by omega) with rfl | rfl | rfl
      · exact m4 _ (m3 _ (m2 _ (m1 _ (Or.inr (Or.inr (by simp))))))
      · exact m4 _ i3
      · exact i4)
  refine ⟨⟨p5.ginv, by rw [p5.mutable]; exact hg2.2.1, p5.rootsOK⟩, fun hf => p5.full (hf2 (hf1 hf)), hd,
    ⟨g, rfl, hsign, hwf, ?_, hturns, Q0, Q1, q2, r2, q3, r3, ?_, ?_, ?_, ?_, ?_, ?_, ?_⟩, ?_, ?_⟩
  · rw [c0, c5, neg_sub]
  · rw [q5, c4]
  · rw [q6, c1]
  · rw [q4, c4, c1]; abel
  · rw [r5, c2]
  · rw [r6, c3]
  · rw [r4, c4, c1]; abel
  · intro x
    rw [p5.polygons, hP]
  · rintro ⟨a, i⟩ ha hi
    dsimp only at ha hi ⊢
    rcases ha with rfl | rfl
    · rcases (show i = d0 ∨ i = (d0 + 1) % 3 ∨ i = (d0 + 2) % 3 by omega) with rfl | rfl | rfl
      · rw [ho]; simp
      · exact z4
      · exact z1
    · rcases (show i = d1 ∨ i = (d1 + 1) % 3 ∨ i = (d1 + 2) % 3 by omega) with rfl | rfl | rfl
      · rw [ho']; simp
      · exact z2
      · exact z3
  · intro x e c
    rw [hfin, hG]

theorem edge_succ_three (p : Poly K) (h : p.length = 3) (d : ℕ) : p.edge d = -(p.edge (d + 1) + p.edge (d + 2)) := by
  unfold Poly.edge
  rw [show d + 2 + 1 = d + p.length by omega, Poly.vertex_add_length]
  abel

/-- A triangle is determined by two edges and a vertex. -/
theorem triangle_ext {p q : Poly K} (hp : p.length = 3) (hq : q.length = 3) (h0 : p.vertex 0 = q.vertex 0) (d : ℕ)
    (h1 : p.edge (d + 1) = q.edge (d + 1)) (h2 : p.edge (d + 2) = q.edge (d + 2)) : p = q := by
  have h3 : p.edge d = q.edge d := by rw [edge_succ_three p hp, edge_succ_three q hq, h1, h2]
  have hall : ∀ i, p.edge i = q.edge i := by
    intro i
    have : i % 3 = d % 3 ∨ i % 3 = (d + 1) % 3 ∨ i % 3 = (d + 2) % 3 := by omega
    rcases this with h | h | h
    · rw [Poly.edge_congr p (i := i) (j := d) (by rw [hp]; exact h), Poly.edge_congr q (i := i) (j := d) (by rw [hq]; exact h), h3]
    · rw [Poly.edge_congr p (i := i) (j := (d + 1)) (by rw [hp]; exact h), Poly.edge_congr q (i := i) (j := (d + 1)) (by rw [hq]; exact h), h1]
    · rw [Poly.edge_congr p (i := i) (j := (d + 2)) (by rw [hp]; exact h), Poly.edge_congr q (i := i) (j := (d + 2)) (by rw [hq]; exact h), h2]
  have hv : ∀ i, p.vertex i = q.vertex i := by
    intro i
    induction i with
    | zero => exact h0
    | succ i ih =>
      have := hall i
      unfold Poly.edge at this
      rw [ih] at this
      exact sub_left_injective this
  apply List.ext_getElem (by rw [hp, hq])
  intro i hi hi'
  rw [← Poly.vertex_of_lt p hi, ← Poly.vertex_of_lt q hi', hv]

theorem rotScale_fixes {g : Similarity K} (hg : g.sign = 1) {v : Vec K} (hv : v ≠ 0) (e : K)
    (h : g.derivative.mulVec v = e • v) (w : Vec K) : g.derivative.mulVec w = e • w := by
  have hn := normSq_ne_zero hv
  simp only [Similarity.derivative, hg, Mat2.mulVec, Int.cast_one, Prod.ext_iff, Prod.smul_fst, Prod.smul_snd,
    smul_eq_mul] at h ⊢
  obtain ⟨h1, h2⟩ := h
  have ha : g.a = e := by
    apply mul_left_cancel₀ hn
    linear_combination v.1 * h1 + v.2 * h2
  have hb : g.b = 0 := by
    apply mul_left_cancel₀ hn
    linear_combination v.1 * h2 - v.2 * h1
  rw [ha, hb]
  constructor <;> ring

theorem edgeTransformation_exists {s : MSurf L (Poly K)} (hs : GInv s) {l0 l1 : L} {d0 d1 : ℕ} {P0 P1 : Poly K}
    (hp0 : s.polygons.get l0 = some P0) (hp1 : s.polygons.get l1 = some P1)
    (ho : s.opp l0 d0 = some (l1, (d1 : Int))) (hn0 : P0.edge d0 ≠ 0) (hn1 : P1.edge d1 ≠ 0) :
    ∃ g, s.edgeTransformation l1 d1 = .ok g ∧ g.sign = 1 ∧ g.derivative.mulVec (P1.edge d1) = - P0.edge d0 := by
  have ho' : s.opp l1 d1 = some (l0, (d0 : Int)) := by
    obtain ⟨k, k1, k2⟩ := hs.inv _ _ _ _ ho
    rw [Int.natCast_inj] at k1
    subst k1
    exact k2
  have he1 : s.IsEdge l1 d1 := opp_isEdge hs.toShape ho'
  have hopp' : s.oppositeEdge! l1 (d1 : Int) = .ok (l0, (d0 : Int)) := by
    unfold oppositeEdge!; rw [oppositeEdge_eq_opp hs.toShape he1, ho']
  obtain ⟨g, hg⟩ := (edgeTransformationPts_isSome (P1.vertex d1) (P1.vertex (d1 + 1)) (P0.vertex (d0 + 1)) (P0.vertex d0)).2
    ⟨fun h => hn1 (by unfold Poly.edge; rw [h, sub_self]), fun h => hn0 (by unfold Poly.edge; rw [h, sub_self])⟩
  obtain ⟨hwf, hsign, hga, hgb⟩ := edgeTransformationPts_spec _ _ _ _ _ hg
  refine ⟨g, ?_, hsign, ?_⟩
  · unfold edgeTransformation
    simp only [bind, Except.bind, polygon_ok.2 hp0, polygon_ok.2 hp1, hopp', Int.toNat_natCast]
    rw [hg]
    rfl
  · unfold Poly.edge
    rw [← Poly.call_sub hsign, hga, hgb, neg_sub]

/-- The condition for a flip to succeed. -/
theorem triangleFlip_ok [LabelNum L] {s : MSurf L (Poly K)} (hs : Good s) (hf : FullRoots s) (l0 l1 : L) (d0 d1 : ℕ)
    (P0 P1 : Poly K) (hp0 : s.polygons.get l0 = some P0) (hp1 : s.polygons.get l1 = some P1) (h0 : P0.length = 3)
    (h1 : P1.length = 3) (ho : s.opp l0 d0 = some (l1, (d1 : Int))) (hd : l0 = l1 → d0 = d1)
    (hT : ∃ g, s.edgeTransformation l1 d1 = .ok g ∧
      Poly.Turns (g.derivative.mulVec (P1.edge (d1 + 1))) (g.derivative.mulVec (P1.edge (d1 + 2)))
        (P0.edge (d0 + 1)) (P0.edge (d0 + 2)))
    (hgl : ∀ x : L × ℕ, x.1 = l0 ∨ x.1 = l1 → x.2 < 3 → s.opp x.1 x.2 ≠ none) :
    ∃ t, triangleFlip l0 d0 s = .ok () t := by
  have spec := triangleFlip_spec hs l0 l1 d0 d1 P0 P1 hp0 hp1 h0 h1 ho
  unfold wp at spec
  cases hr : triangleFlip l0 d0 s with
  | ok a t => exact ⟨t, rfl⟩
  | error e t =>
    rw [hr] at spec
    exfalso
    rcases spec with h | ⟨x, hx, hx', h⟩ | h | h
    · exact h hT
    · exact hgl x hx hx' h
    · exact h.2 (hd h.1)
    · exact h hf

/-- What a flip does to the gluings. -/
def Flipped (l0 : L) (d0 : ℕ) (l1 : L) (d1 : ℕ) (s t : MSurf L (Poly K)) : Prop :=
  ∀ x e c, t.opp x e = some c ↔ ∃ k : ℕ, c.2 = k ∧
    (((x, e) = (l0, d0) ∧ (c.1, k) = (l1, d1)) ∨ ((x, e) = (l1, d1) ∧ (c.1, k) = (l0, d0)) ∨
      (FlipEdge l0 d0 l1 d1 (x, e) ∧ FlipEdge l0 d0 l1 d1 (c.1, k) ∧
        s.opp (flipOld l0 d0 l1 d1 (x, e)).1 (flipOld l0 d0 l1 d1 (x, e)).2 =
          some ((flipOld l0 d0 l1 d1 (c.1, k)).1, ((flipOld l0 d0 l1 d1 (c.1, k)).2 : Int))))

theorem flipEdge_flipOld {l0 l1 : L} {d0 d1 : ℕ} (h0 : d0 < 3) (h1 : d1 < 3) (hd : l0 = l1 → d0 = d1) (x : L × ℕ) :
    FlipEdge l0 d0 l1 d1 (flipOld l0 d0 l1 d1 x) ↔ FlipEdge l0 d0 l1 d1 x := by
  refine ⟨fun h => ?_, flipOld_edge h0 h1 hd⟩
  rw [← flipOld_four h0 h1 hd x]
  exact flipOld_edge h0 h1 hd (flipOld_edge h0 h1 hd (flipOld_edge h0 h1 hd h))

theorem Flipped.rel {l0 l1 : L} {d0 d1 : ℕ} {s t : MSurf L (Poly K)} (h : Flipped l0 d0 l1 d1 s t) {x y : L × ℕ}
    (hx : FlipEdge l0 d0 l1 d1 x) (hy : FlipEdge l0 d0 l1 d1 y) :
    t.opp x.1 x.2 = some (y.1, (y.2 : Int)) ↔ s.opp (flipOld l0 d0 l1 d1 x).1 (flipOld l0 d0 l1 d1 x).2 =
          some ((flipOld l0 d0 l1 d1 y).1, ((flipOld l0 d0 l1 d1 y).2 : Int)) := by
  rw [h]
  constructor
  · rintro ⟨k, hk, h1 | h1 | ⟨-, -, h1⟩⟩
    · have hx' := hx
      rw [show x = (l0, d0) from h1.1] at hx'
      exact absurd rfl (hx'.1 rfl).2
    · have hx' := hx
      rw [show x = (l1, d1) from h1.1] at hx'
      exact absurd rfl (hx'.2 rfl).2
    · dsimp only at hk h1
      rw [Int.natCast_inj] at hk
      subst hk
      exact h1
  · intro h1
    exact ⟨y.2, rfl, Or.inr (Or.inr ⟨hx, hy, h1⟩)⟩

theorem Flipped.of_opp {l0 l1 : L} {d0 d1 : ℕ} {s t : MSurf L (Poly K)} (h : Flipped l0 d0 l1 d1 s t) {x y : L × ℕ} :
    t.opp x.1 x.2 = some (y.1, (y.2 : Int)) ↔ (x = (l0, d0) ∧ y = (l1, d1)) ∨ (x = (l1, d1) ∧ y = (l0, d0)) ∨
      (FlipEdge l0 d0 l1 d1 x ∧ FlipEdge l0 d0 l1 d1 y ∧ t.opp x.1 x.2 = some (y.1, (y.2 : Int))) := by
  constructor
  · intro h0
    obtain ⟨k, hk, h1⟩ := (h _ _ _).1 h0
    dsimp only at hk
    rw [Int.natCast_inj] at hk
    subst hk
    rcases h1 with h1 | h1 | h1
    · exact Or.inl h1
    · exact Or.inr (Or.inl h1)
    · exact Or.inr (Or.inr ⟨h1.1, h1.2.1, h0⟩)
  · rintro (h1 | h1 | h1)
    · exact (h _ _ _).2 ⟨y.2, rfl, Or.inl h1⟩
    · exact (h _ _ _).2 ⟨y.2, rfl, Or.inr (Or.inl h1)⟩
    · exact h1.2.2

/-- After four flips the gluings are back. -/
theorem Flipped.four {l0 l1 : L} {d0 d1 : ℕ} {s t1 t2 t3 t4 : MSurf L (Poly K)} (hs : GInv s) (h4' : GInv t4) (hd0 : d0 < 3) (hd1 : d1 < 3)
    (hd : l0 = l1 → d0 = d1) (ho : s.opp l0 d0 = some (l1, (d1 : Int))) (hlt : ∀ x e c, s.opp x e = some c → (x = l0 ∨ x = l1) → e < 3)
    (h1 : Flipped l0 d0 l1 d1 s t1) (h2 : Flipped l0 d0 l1 d1 t1 t2) (h3 : Flipped l0 d0 l1 d1 t2 t3)
    (h4 : Flipped l0 d0 l1 d1 t3 t4) (l : L) (e : ℕ) : t4.opp l e = s.opp l e := by
  have ho' : s.opp l1 d1 = some (l0, (d0 : Int)) := by
    obtain ⟨k, k1, k2⟩ := hs.inv _ _ _ _ ho
    rw [Int.natCast_inj] at k1
    subst k1
    exact k2
  have key : ∀ x y : L × ℕ, t4.opp x.1 x.2 = some (y.1, (y.2 : Int)) ↔ s.opp x.1 x.2 = some (y.1, (y.2 : Int)) := by
    intro x y
    have fe : ∀ z, FlipEdge l0 d0 l1 d1 z → FlipEdge l0 d0 l1 d1 (flipOld l0 d0 l1 d1 z) := fun z => flipOld_edge hd0 hd1 hd
    have back : FlipEdge l0 d0 l1 d1 x → FlipEdge l0 d0 l1 d1 y →
        (t4.opp x.1 x.2 = some (y.1, (y.2 : Int)) ↔ s.opp x.1 x.2 = some (y.1, (y.2 : Int))) := by
      intro hx hy
      rw [h4.rel hx hy, h3.rel (fe _ hx) (fe _ hy), h2.rel (fe _ (fe _ hx)) (fe _ (fe _ hy)),
        h1.rel (fe _ (fe _ (fe _ hx))) (fe _ (fe _ (fe _ hy))), flipOld_four hd0 hd1 hd, flipOld_four hd0 hd1 hd]
    rw [h4.of_opp]
    constructor
    · rintro (⟨rfl, rfl⟩ | ⟨rfl, rfl⟩ | ⟨hx, hy, h5⟩)
      · exact ho
      · exact ho'
      · exact (back hx hy).1 h5
    · intro h5
      by_cases hx0 : x = (l0, d0)
      · left
        subst hx0
        rw [ho] at h5
        simp only [Option.some.injEq, Prod.mk.injEq, Int.natCast_inj] at h5
        exact ⟨rfl, (Prod.ext h5.1 h5.2).symm⟩
      by_cases hx1 : x = (l1, d1)
      · right; left
        subst hx1
        rw [ho'] at h5
        simp only [Option.some.injEq, Prod.mk.injEq, Int.natCast_inj] at h5
        exact ⟨rfl, (Prod.ext h5.1 h5.2).symm⟩
      right; right
      obtain ⟨k, h6, h7⟩ := hs.inv _ _ _ _ h5
      rw [Int.natCast_inj] at h6
      subst h6
      have hx : FlipEdge l0 d0 l1 d1 x :=
        ⟨fun h => ⟨hlt _ _ _ h5 (Or.inl h), fun h' => hx0 (Prod.ext h h')⟩,
          fun h => ⟨hlt _ _ _ h5 (Or.inr h), fun h' => hx1 (Prod.ext h h')⟩⟩
      have hy : FlipEdge l0 d0 l1 d1 y := by
        refine ⟨fun h => ⟨hlt _ _ _ h7 (Or.inl h), fun h' => ?_⟩, fun h => ⟨hlt _ _ _ h7 (Or.inr h), fun h' => ?_⟩⟩
        · rw [h, h', ho] at h7
          simp only [Option.some.injEq, Prod.mk.injEq, Int.natCast_inj] at h7
          exact hx1 (Prod.ext h7.1.symm h7.2.symm)
        · rw [h, h', ho'] at h7
          simp only [Option.some.injEq, Prod.mk.injEq, Int.natCast_inj] at h7
          exact hx0 (Prod.ext h7.1.symm h7.2.symm)
      exact ⟨hx, hy, (back hx hy).2 h5⟩
  cases hc : s.opp l e with
  | some c =>
    obtain ⟨c1, c2⟩ := c
    obtain ⟨k, rfl, -⟩ := hs.inv _ _ _ _ hc
    exact (key (l, e) (c1, k)).2 hc
  | none =>
    cases hc' : t4.opp l e with
    | none => rfl
    | some c =>
      obtain ⟨c1, c2⟩ := c
      obtain ⟨k, rfl, -⟩ := h4'.inv _ _ _ _ hc'
      have := (key (l, e) (c1, k)).1 hc'
      dsimp only at this
      rw [hc] at this
      cases this

theorem area_of_length_three (p : Poly K) (h : p.length = 3) (d : ℕ) : 2 * p.area = ccw (p.edge (d + 1)) (p.edge (d + 2)) := by
  obtain ⟨a, b, c, rfl⟩ : ∃ a b c, p = [a, b, c] := by
    match p, h with
    | [a, b, c], _ => exact ⟨a, b, c, rfl⟩
  rw [Poly.area3]
  have hd : d % 3 = 0 ∨ d % 3 = 1 ∨ d % 3 = 2 := by omega
  have e0 : Poly.edge [a, b, c] 0 = b - a := rfl
  have e1 : Poly.edge [a, b, c] 1 = c - b := rfl
  have e2 : Poly.edge [a, b, c] 2 = a - c := by simp [Poly.edge, Poly.vertex]
  rcases hd with hd | hd | hd
  · rw [Poly.edge_congr [a, b, c] (i := d + 1) (j := 1) (by simp; omega),
      Poly.edge_congr [a, b, c] (i := d + 2) (j := 2) (by simp; omega), e1, e2]
    simp only [ccw, Prod.fst_sub, Prod.snd_sub]; ring
  · rw [Poly.edge_congr [a, b, c] (i := d + 1) (j := 2) (by simp; omega),
      Poly.edge_congr [a, b, c] (i := d + 2) (j := 0) (by simp; omega), e0, e2]
    simp only [ccw, Prod.fst_sub, Prod.snd_sub]; ring
  · rw [Poly.edge_congr [a, b, c] (i := d + 1) (j := 0) (by simp; omega),
      Poly.edge_congr [a, b, c] (i := d + 2) (j := 1) (by simp; omega), e0, e1]

/-- What can be concluded from a flip not raising. -/
theorem triangleFlip_pre [LabelNum L] {s t : MSurf L (Poly K)} (hs : GInv s) (l0 : L) (d0 : ℕ)
    (ht : triangleFlip l0 d0 s = .ok () t) : ∃ l1 d1 P0 P1, s.opp l0 d0 = some (l1, ((d1 : ℕ) : Int)) ∧
      s.polygons.get l0 = some P0 ∧ s.polygons.get l1 = some P1 ∧ P0.length = 3 ∧ P1.length = 3 := by
  have key : wp (triangleFlip l0 d0) (fun _ _ => ∃ l1 d1 P0 P1, s.opp l0 d0 = some (l1, ((d1 : ℕ) : Int)) ∧
      s.polygons.get l0 = some P0 ∧ s.polygons.get l1 = some P1 ∧ P0.length = 3 ∧ P1.length = 3) (fun _ _ => True) s := by
    unfold triangleFlip
    rw [wp_bind, wp_get, wp_bind, wp_liftE]
    refine ⟨fun c hc => ?_, fun _ _ => trivial⟩
    dsimp only
    rw [wp_bind, wp_liftE]
    refine ⟨fun P0 hP0 => ?_, fun _ _ => trivial⟩
    rw [wp_bind, wp_liftE]
    refine ⟨fun P1 hP1 => ?_, fun _ _ => trivial⟩
    have h0 : nv P0 = P0.length := rfl
    have h1 : nv P1 = P1.length := rfl
    rw [h0, h1, wp_ite]
    refine ⟨fun _ => trivial, fun hlen => ?_⟩
    push Not at hlen
    have : ∃ l1 d1 P0 P1, s.opp l0 d0 = some (l1, ((d1 : ℕ) : Int)) ∧
      s.polygons.get l0 = some P0 ∧ s.polygons.get l1 = some P1 ∧ P0.length = 3 ∧ P1.length = 3 := by
      unfold oppositeEdge! at hc
      have hc' : s.oppositeEdge l0 (d0 : Int) = .ok (some c) := by
        cases ho : s.oppositeEdge l0 (d0 : Int) with
        | error e => rw [ho] at hc; cases hc
        | ok o =>
          rw [ho] at hc
          cases o with
          | none => cases hc
          | some c' => cases hc; rfl
      obtain ⟨c1, c2⟩ := c
      obtain ⟨k, hk, -, -, hopp, -⟩ := oppositeEdge_some hs hc'
      exact ⟨c1, k, P0, P1, hopp, polygon_ok.1 hP0, polygon_ok.1 hP1, hlen.1, hlen.2⟩
    generalize hX : (_ : Act L (Poly K) Unit) = X
    unfold wp
    split <;> first | exact this | trivial
  unfold wp at key
  rw [ht] at key
  exact key

theorem lt_three_of_opp {s : MSurf L (Poly K)} (hs : GInv s) {l : L} {e : ℕ} {c : L × Int} {p : Poly K}
    (hp : s.polygons.get l = some p) (h3 : p.length = 3) (ho : s.opp l e = some c) : e < 3 := by
  obtain ⟨q, k1, k2⟩ := opp_isEdge hs.toShape ho
  rw [hp] at k1; injection k1 with k1; subst k1
  have : nv p = p.length := rfl
  omega

theorem opp_back {s : MSurf L (Poly K)} (hs : GInv s) {l l' : L} {e e' : ℕ}
    (ho : s.opp l e = some (l', (e' : Int))) : s.opp l' e' = some (l, (e : Int)) := by
  obtain ⟨k, k1, k2⟩ := hs.inv _ _ _ _ ho
  rw [Int.natCast_inj] at k1
  subst k1
  exact k2

variable [LabelNum L]

/-- **C26**. After a successful `triangle_flip(l0, d0)` the two triangles at the edge are replaced by the two triangles
at the other diagonal of the quadrilateral which they form: `g` places the second triangle next to the first one, the new
edges are the old ones in the order of the quadrilateral, and the total area is preserved (up to the scaling by `g` of
the second triangle). The new diagonals are glued to each other, every other edge keeps its partner, also when edges
of the quadrilateral are glued to each other, and all other polygons are unchanged. When the edge is glued to itself,
there is only one triangle and it is replaced by the triangle of the same area obtained from half of the
parallelogram. -/
theorem C26_triangle_flip {s t : MSurf L (Poly K)} (h : Reachable s) (hm : s.mutable = true) (l0 : L) (d0 : ℕ)
    (ht : triangleFlip l0 d0 s = .ok () t) :
    ∃ (l1 : L) (d1 : ℕ) (P0 P1 Q0 Q1 : Poly K) (g : Similarity K),
      s.oppositeEdge l0 d0 = .ok (some (l1, (d1 : Int))) ∧ s.edgeTransformation l1 d1 = .ok g ∧
      s.polygon l0 = .ok P0 ∧ s.polygon l1 = .ok P1 ∧ P0.length = 3 ∧ P1.length = 3 ∧
      (l0 = l1 → d0 = d1) ∧ t.polygon l1 = .ok Q1 ∧ (l0 ≠ l1 → t.polygon l0 = .ok Q0) ∧
      (∀ l, l ≠ l0 → l ≠ l1 → t.polygon l = s.polygon l) ∧ Q0.length = 3 ∧ Q1.length = 3 ∧
      Q0.edge (d0 + 1) = P0.edge (d0 + 2) ∧ Q0.edge (d0 + 2) = g.derivative.mulVec (P1.edge (d1 + 1)) ∧
      Q1.edge (d1 + 1) = g.derivative.mulVec (P1.edge (d1 + 2)) ∧ Q1.edge (d1 + 2) = P0.edge (d0 + 1) ∧
      0 < Q0.area ∧ 0 < Q1.area ∧ Q0.area + Q1.area = P0.area + g.derivative.det * P1.area ∧
      (l0 = l1 → Q1.area = P0.area) ∧
      t.oppositeEdge l0 d0 = .ok (some (l1, (d1 : Int))) ∧ t.oppositeEdge l1 d1 = .ok (some (l0, (d0 : Int))) ∧
      ∀ old : L × ℕ → L × ℕ,
        (∀ x, old x = if x = (l0, (d0 + 1) % 3) then (l0, (d0 + 2) % 3)
          else if x = (l0, (d0 + 2) % 3) then (l1, (d1 + 1) % 3)
          else if x = (l1, (d1 + 1) % 3) then (l1, (d1 + 2) % 3)
          else if x = (l1, (d1 + 2) % 3) then (l0, (d0 + 1) % 3) else x) →
        ∀ l q' (e : ℕ), t.polygon l = .ok q' → e < q'.length → (l, e) ≠ (l0, d0) → (l, e) ≠ (l1, d1) →
          ∃ (c : Option (L × ℕ)), t.oppositeEdge l (e : Int) = .ok (c.map (fun c => (c.1, (c.2 : Int)))) ∧
            s.oppositeEdge (old (l, e)).1 ((old (l, e)).2 : Int) = .ok ((c.map old).map (fun c => (c.1, (c.2 : Int)))) := by
  have hgood : Good s := ⟨h.ginv, hm, h.rootsOK⟩
  obtain ⟨l1, d1, P0, P1, ho, hp0, hp1, h0, h1⟩ := triangleFlip_pre h.ginv l0 d0 ht
  have spec := triangleFlip_spec hgood l0 l1 d0 d1 P0 P1 hp0 hp1 h0 h1 ho
  unfold wp at spec
  rw [ht] at spec
  obtain ⟨hg, -, hd, ⟨g, hT, hsign, hwf, hgm, hturn, Q0, Q1, hq0, hq1, hv0, hv1, e01, e02, e00, e11, e12, e10, hpol⟩, hgl, hopp⟩ := spec
  have ho' := opp_back h.ginv ho
  have hd0 : d0 < 3 := lt_three_of_opp h.ginv hp0 h0 ho
  have hd1 : d1 < 3 := lt_three_of_opp h.ginv hp1 h1 ho'
  have hE0 : s.IsEdge l0 d0 := opp_isEdge h.ginv.toShape ho
  have to0 : t.opp l0 d0 = some (l1, (d1 : Int)) := (hopp _ _ _).2 ⟨d1, rfl, Or.inl ⟨rfl, rfl⟩⟩
  have to1 : t.opp l1 d1 = some (l0, (d0 : Int)) := (hopp _ _ _).2 ⟨d0, rfl, Or.inr (Or.inl ⟨rfl, rfl⟩)⟩
  have hE0' : t.IsEdge l0 d0 := opp_isEdge hg.1.toShape to0
  have hE1' : t.IsEdge l1 d1 := opp_isEdge hg.1.toShape to1
  have A0 := area_of_length_three P0 h0 d0
  have A1 := area_of_length_three P1 h1 d1
  have B0 := area_of_length_three Q0 hq0 d0
  have B1 := area_of_length_three Q1 hq1 d1
  rw [e01, e02] at B0
  rw [e11, e12] at B1
  have s0 := edge_succ_three P0 h0 d0
  have s1 := edge_succ_three P1 h1 d1
  have hdet : ∀ a b : Vec K, ccw (g.derivative.mulVec a) (g.derivative.mulVec b) = g.derivative.det * ccw a b := by
    intro a b
    simp only [ccw, Mat2.mulVec, Mat2.det]
    ring
  have hsum : g.derivative.mulVec (P1.edge (d1 + 1)) + g.derivative.mulVec (P1.edge (d1 + 2)) = -(P0.edge (d0 + 1) + P0.edge (d0 + 2)) := by
    rw [← s0, ← neg_inj, ← hgm, s1]
    simp only [Mat2.mulVec, Prod.ext_iff, Prod.fst_add, Prod.snd_add, Prod.fst_neg, Prod.snd_neg]
    constructor <;> ring
  have harea : Q0.area + Q1.area = P0.area + g.derivative.det * P1.area := by
    have hh := hdet (P1.edge (d1 + 1)) (P1.edge (d1 + 2))
    rw [← A1] at hh
    have x1 := congrArg Prod.fst hsum
    have x2 := congrArg Prod.snd hsum
    simp only [Prod.fst_add, Prod.snd_add, Prod.fst_neg, Prod.snd_neg] at x1 x2
    have : (2 : K) ≠ 0 := two_ne_zero
    apply mul_left_cancel₀ this
    rw [mul_add, mul_add, B0, B1, A0, show 2 * (g.derivative.det * P1.area) = g.derivative.det * (2 * P1.area) by ring, ← hh]
    simp only [ccw]
    generalize (g.derivative.mulVec (P1.edge (d1 + 1))).1 = a1 at *
    generalize (g.derivative.mulVec (P1.edge (d1 + 1))).2 = a2 at *
    generalize (g.derivative.mulVec (P1.edge (d1 + 2))).1 = b1 at *
    generalize (g.derivative.mulVec (P1.edge (d1 + 2))).2 = b2 at *
    obtain rfl : b1 = -((P0.edge (d0 + 1)).1 + (P0.edge (d0 + 2)).1) - a1 := by linear_combination x1
    obtain rfl : b2 = -((P0.edge (d0 + 1)).2 + (P0.edge (d0 + 2)).2) - a2 := by linear_combination x2
    ring
  have hfold : l0 = l1 → Q1.area = P0.area := by
    rintro rfl
    obtain rfl := hd rfl
    rw [hp0] at hp1
    injection hp1 with hp1
    subst hp1
    have hv : P0.edge d0 ≠ 0 := by
      rw [s0]
      intro h9
      have h8 : P0.edge (d0 + 1) = - P0.edge (d0 + 2) := by rw [neg_eq_zero] at h9; exact eq_neg_of_add_eq_zero_left h9
      have h7 := hturn.2.2.1
      rw [h8] at h7
      simp only [ccw, Prod.fst_neg, Prod.snd_neg] at h7
      linarith
    have hfix := rotScale_fixes hsign hv (-1) (by rw [hgm]; simp)
    rw [hfix] at B1
    have : (2 : K) ≠ 0 := two_ne_zero
    apply mul_left_cancel₀ this
    rw [B1, A0]
    simp only [ccw, Prod.smul_fst, Prod.smul_snd, smul_eq_mul]
    ring
  refine ⟨l1, d1, P0, P1, Q0, Q1, g, by rw [oppositeEdge_eq_opp h.ginv.toShape hE0, ho], hT, polygon_ok.2 hp0, polygon_ok.2 hp1, h0, h1, hd,
    polygon_ok.2 (by rw [hpol, if_pos rfl]), fun hne => polygon_ok.2 (by rw [hpol, if_neg hne, if_pos rfl]), ?_, hq0, hq1,
    e01, e02, e11, e12, ?_, ?_, harea, hfold, ?_, ?_, ?_⟩
  · intro l hl0 hl1
    exact polygon_of_get (by rw [hpol, if_neg hl1, if_neg hl0])
  · have := hturn.2.2.2
    linarith
  · have := hturn.2.1
    linarith
  · rw [oppositeEdge_eq_opp hg.1.toShape hE0', to0]
  · rw [oppositeEdge_eq_opp hg.1.toShape hE1', to1]
  · intro old hold l q' e hq' he hne0 hne1
    have hq'' := polygon_ok.1 hq'
    have holdEq : ∀ x, old x = flipOld l0 d0 l1 d1 x := fun x => hold x
    have hlen : ∀ x, x = l0 ∨ x = l1 → ∀ q, t.polygons.get x = some q → q.length = 3 := by
      intro x hx q hq
      rw [hpol] at hq
      split_ifs at hq with k1 k2
      · injection hq with hq; rw [← hq]; exact hq1
      · injection hq with hq; rw [← hq]; exact hq0
      · tauto
    have hcut : FlipEdge l0 d0 l1 d1 (l, e) := by
      refine ⟨fun hl => ⟨?_, ?_⟩, fun hl => ⟨?_, ?_⟩⟩
      · have := hlen l (Or.inl hl) q' hq''; dsimp only; omega
      · intro h9; exact hne0 (Prod.ext hl h9)
      · have := hlen l (Or.inr hl) q' hq''; dsimp only; omega
      · intro h9; exact hne1 (Prod.ext hl h9)
    have htE : t.IsEdge l e := ⟨q', hq'', he⟩
    have hsE : s.IsEdge (old (l, e)).1 (old (l, e)).2 := by
      have hh := (flipEdge_flipOld hd0 hd1 hd (l, e)).2 hcut
      rw [holdEq]
      by_cases k1 : (flipOld l0 d0 l1 d1 (l, e)).1 = l0
      · exact ⟨P0, by rw [k1]; exact hp0, by have := hh.1 k1; have : nv P0 = P0.length := rfl; omega⟩
      by_cases k2 : (flipOld l0 d0 l1 d1 (l, e)).1 = l1
      · exact ⟨P1, by rw [k2]; exact hp1, by have := hh.2 k2; have : nv P1 = P1.length := rfl; omega⟩
      have hl : flipOld l0 d0 l1 d1 (l, e) = (l, e) := by
        unfold flipOld at k1 k2 ⊢
        split_ifs at k1 k2 ⊢ <;> first | rfl | exact absurd rfl k1 | exact absurd rfl k2
      rw [hl] at k1 k2 ⊢
      dsimp only at k1 k2
      rw [hpol, if_neg k2, if_neg k1] at hq''
      exact ⟨q', hq'', he⟩
    have fl : Flipped l0 d0 l1 d1 s t := hopp
    cases hc : t.opp l e with
    | some c =>
      obtain ⟨c1, c2⟩ := c
      obtain ⟨k, hk, h4 | h4 | ⟨-, -, h4⟩⟩ := (hopp l e _).1 hc
      · exact absurd h4.1 hne0
      · exact absurd h4.1 hne1
      dsimp only at hk h4
      subst hk
      refine ⟨some (c1, k), by rw [oppositeEdge_eq_opp hg.1.toShape htE, hc]; rfl, ?_⟩
      rw [oppositeEdge_eq_opp h.ginv.toShape hsE, holdEq, h4]
      simp only [Option.map_some, holdEq]
    | none =>
      refine ⟨none, by rw [oppositeEdge_eq_opp hg.1.toShape htE, hc]; rfl, ?_⟩
      rw [oppositeEdge_eq_opp h.ginv.toShape hsE]
      cases hco : s.opp (old (l, e)).1 (old (l, e)).2 with
      | none => rfl
      | some c =>
        exfalso
        obtain ⟨c1, c2⟩ := c
        obtain ⟨k, rfl, hk⟩ := h.ginv.inv _ _ _ _ hco
        rw [holdEq] at hco hk
        have hh := (flipEdge_flipOld hd0 hd1 hd (l, e)).2 hcut
        have hc3 : FlipEdge l0 d0 l1 d1 (c1, k) := by
          refine ⟨?_, ?_⟩ <;> intro k1 <;> dsimp only at k1 <;> subst k1
          · refine ⟨lt_three_of_opp h.ginv hp0 h0 hk, ?_⟩
            rintro rfl
            rw [ho] at hk
            simp only [Option.some.injEq, Prod.mk.injEq, Int.natCast_inj] at hk
            exact (hh.2 hk.1.symm).2 hk.2.symm
          · refine ⟨lt_three_of_opp h.ginv hp1 h1 hk, ?_⟩
            rintro rfl
            rw [ho'] at hk
            simp only [Option.some.injEq, Prod.mk.injEq, Int.natCast_inj] at hk
            exact (hh.1 hk.1.symm).2 hk.2.symm
        obtain ⟨y, hy1, hy2, -⟩ := flipToNew_spec hd0 hd1 hd (c1, k) hc3
        have := (fl.rel hcut hy1).2 (by rw [hco, hy2])
        dsimp only at this
        rw [hc] at this
        cases this

/-- The explicit roots are all the roots there are. -/
theorem full_of_roots {s : MSurf L (Poly K)} (h : Good s) (hr : s.roots ≠ [] → s.rootsList = .ok s.roots) : FullRoots s := by
  by_cases h0 : s.roots = []
  · exact Or.inl h0
  obtain ⟨rs, h1, -, -, h2⟩ := rootsList_spec h.1 h.2.2
  rw [hr h0] at h1
  injection h1 with h1
  right
  intro l hl
  obtain ⟨r, hr1, hr2⟩ := h2 l hl
  rw [← h1] at hr1
  exact ⟨r, hr1, hr2⟩

omit [LabelNum L] in
theorem Flipped.partner {l0 l1 : L} {d0 d1 : ℕ} {s t : MSurf L (Poly K)} {P0 P1 : Poly K} (fl : Flipped l0 d0 l1 d1 s t) (hs : GInv s)
    (hd : l0 = l1 → d0 = d1) (ho : s.opp l0 d0 = some (l1, (d1 : Int)))
    (hp0 : s.polygons.get l0 = some P0) (hp1 : s.polygons.get l1 = some P1) (h0 : P0.length = 3) (h1 : P1.length = 3)
    {x : L × ℕ} (hx : FlipEdge l0 d0 l1 d1 x) {c : L × Int}
    (hc : s.opp (flipOld l0 d0 l1 d1 x).1 (flipOld l0 d0 l1 d1 x).2 = some c) : ∃ y : L × ℕ, FlipEdge l0 d0 l1 d1 y ∧
      t.opp x.1 x.2 = some (y.1, (y.2 : Int)) := by
  have ho' := opp_back hs ho
  have hd0 : d0 < 3 := lt_three_of_opp hs hp0 h0 ho
  have hd1 : d1 < 3 := lt_three_of_opp hs hp1 h1 ho'
  obtain ⟨c1, c2⟩ := c
  obtain ⟨k, rfl, hk⟩ := hs.inv _ _ _ _ hc
  have hh := (flipEdge_flipOld hd0 hd1 hd x).2 hx
  have hc3 : FlipEdge l0 d0 l1 d1 (c1, k) := by
    refine ⟨?_, ?_⟩ <;> intro k1 <;> dsimp only at k1 <;> subst k1
    · refine ⟨lt_three_of_opp hs hp0 h0 hk, ?_⟩
      rintro rfl
      rw [ho] at hk
      simp only [Option.some.injEq, Prod.mk.injEq, Int.natCast_inj] at hk
      exact (hh.2 hk.1.symm).2 hk.2.symm
    · refine ⟨lt_three_of_opp hs hp1 h1 hk, ?_⟩
      rintro rfl
      rw [ho'] at hk
      simp only [Option.some.injEq, Prod.mk.injEq, Int.natCast_inj] at hk
      exact (hh.1 hk.1.symm).2 hk.2.symm
  obtain ⟨y, hy1, hy2, -⟩ := flipToNew_spec hd0 hd1 hd (c1, k) hc3
  exact ⟨y, hy1, (fl.rel hx hy1).2 (by rw [hc, hy2])⟩

omit [LinearOrder K] [IsStrictOrderedRing K] [LabelNum L] in
theorem flipOld_label {l0 l1 : L} {d0 d1 : ℕ} {x : L × ℕ} (hx : x.1 = l0 ∨ x.1 = l1) :
    (flipOld l0 d0 l1 d1 x).1 = l0 ∨ (flipOld l0 d0 l1 d1 x).1 = l1 := by
  unfold flipOld
  split_ifs <;> simp [hx]

/-- The two triangles at an edge which can be flipped. -/
structure Flippable (s : MSurf L (Poly K)) (l0 : L) (d0 : ℕ) (l1 : L) (d1 : ℕ) (P0 P1 : Poly K) : Prop where
  good : Good s
  full : FullRoots s
  p0 : s.polygons.get l0 = some P0
  p1 : s.polygons.get l1 = some P1
  len0 : P0.length = 3
  len1 : P1.length = 3
  opp : s.opp l0 d0 = some (l1, (d1 : Int))
  fold : l0 = l1 → d0 = d1
  turns : ∃ g, s.edgeTransformation l1 d1 = .ok g ∧
      Poly.Turns (g.derivative.mulVec (P1.edge (d1 + 1))) (g.derivative.mulVec (P1.edge (d1 + 2)))
        (P0.edge (d0 + 1)) (P0.edge (d0 + 2))
  glued : ∀ x : L × ℕ, x.1 = l0 ∨ x.1 = l1 → x.2 < 3 → s.opp x.1 x.2 ≠ none

/-- A flip can be followed by another one. -/
theorem flippable_next {s t : MSurf L (Poly K)} {l0 l1 : L} {d0 d1 : ℕ} {P0 P1 : Poly K}
    (h : Flippable s l0 d0 l1 d1 P0 P1) (ht : triangleFlip l0 d0 s = .ok () t) :
    ∃ g Q0 Q1, s.edgeTransformation l1 d1 = .ok g ∧ g.sign = 1 ∧ g.derivative.mulVec (P1.edge d1) = - P0.edge d0 ∧
      P1.edge d1 ≠ 0 ∧
      Flippable t l0 d0 l1 d1 Q0 Q1 ∧ Q0.vertex 0 = 0 ∧ Q1.vertex 0 = 0 ∧ Flipped l0 d0 l1 d1 s t ∧
      (∀ l, l ≠ l0 → l ≠ l1 → t.polygons.get l = s.polygons.get l) ∧
      (l0 ≠ l1 → Q0.edge d0 = - Q1.edge d1 ∧ Q0.edge (d0 + 1) = P0.edge (d0 + 2) ∧ Q0.edge (d0 + 2) = g.derivative.mulVec (P1.edge (d1 + 1)) ∧
        Q1.edge (d1 + 1) = g.derivative.mulVec (P1.edge (d1 + 2)) ∧ Q1.edge (d1 + 2) = P0.edge (d0 + 1)) ∧
      (l0 = l1 → Q0 = Q1 ∧ Q1.edge (d1 + 1) = - P0.edge (d0 + 2) ∧ Q1.edge (d1 + 2) = P0.edge (d0 + 1)) := by
  have spec := triangleFlip_spec h.good l0 l1 d0 d1 P0 P1 h.p0 h.p1 h.len0 h.len1 h.opp
  unfold wp at spec
  rw [ht] at spec
  obtain ⟨hg, hfull, hd, ⟨g, hT, hsign, hwf, hgm, hturn, Q0, Q1, hq0, hq1, hv0, hv1, e01, e02, e00, e11, e12, e10, hpol⟩, hgl, hopp⟩ := spec
  have fl : Flipped l0 d0 l1 d1 s t := hopp
  have ho' := opp_back h.good.1 h.opp
  have hd0 : d0 < 3 := lt_three_of_opp h.good.1 h.p0 h.len0 h.opp
  have hd1 : d1 < 3 := lt_three_of_opp h.good.1 h.p1 h.len1 ho'
  have to0 : t.opp l0 d0 = some (l1, (d1 : Int)) := (hopp _ _ _).2 ⟨d1, rfl, Or.inl ⟨rfl, rfl⟩⟩
  have to1 : t.opp l1 d1 = some (l0, (d0 : Int)) := (hopp _ _ _).2 ⟨d0, rfl, Or.inr (Or.inl ⟨rfl, rfl⟩)⟩
  have hvP : P0.edge d0 ≠ 0 := by
    rw [edge_succ_three P0 h.len0]
    intro h9
    have h8 : P0.edge (d0 + 1) = - P0.edge (d0 + 2) := by rw [neg_eq_zero] at h9; exact eq_neg_of_add_eq_zero_left h9
    have h7 := hturn.2.2.1
    rw [h8] at h7
    simp only [ccw, Prod.fst_neg, Prod.snd_neg] at h7
    linarith
  have hvP1 : P1.edge d1 ≠ 0 := by
    intro h9
    rw [h9] at hgm
    apply hvP
    rw [← neg_inj, ← hgm]
    simp [Mat2.mulVec]
  have hvQ1 : Q1.edge d1 ≠ 0 := by
    rw [e10]
    intro h9
    have h8 := eq_neg_of_add_eq_zero_left h9
    have h7 := hturn.2.2.2
    rw [h8] at h7
    simp only [ccw, Prod.fst_neg, Prod.snd_neg] at h7
    linarith
  have hQ01 : Q0.edge d0 = - Q1.edge d1 := by rw [e00, e10]
  have hvQ0 : Q0.edge d0 ≠ 0 := by rw [hQ01]; exact neg_ne_zero.2 hvQ1
  have hglue : ∀ x : L × ℕ, x.1 = l0 ∨ x.1 = l1 → x.2 < 3 → t.opp x.1 x.2 ≠ none := by
    intro x hx hx3
    by_cases k0 : x = (l0, d0)
    · rw [k0, to0]; simp
    by_cases k1 : x = (l1, d1)
    · rw [k1, to1]; simp
    have hxe : FlipEdge l0 d0 l1 d1 x := ⟨fun k => ⟨hx3, fun k' => k0 (Prod.ext k k')⟩, fun k => ⟨hx3, fun k' => k1 (Prod.ext k k')⟩⟩
    have hxo := (flipEdge_flipOld hd0 hd1 hd x).2 hxe
    have hlab := flipOld_label (d0 := d0) (d1 := d1) hx
    have hlt : (flipOld l0 d0 l1 d1 x).2 < 3 := by
      rcases hlab with k | k
      · exact (hxo.1 k).1
      · exact (hxo.2 k).1
    cases hc : s.opp (flipOld l0 d0 l1 d1 x).1 (flipOld l0 d0 l1 d1 x).2 with
    | none => exact absurd hc (hgl _ hlab hlt)
    | some c =>
      obtain ⟨y, -, hy⟩ := fl.partner h.good.1 hd h.opp h.p0 h.p1 h.len0 h.len1 hxe hc
      rw [hy]; simp
  have hoth : ∀ l, l ≠ l0 → l ≠ l1 → t.polygons.get l = s.polygons.get l := by
    intro l k0 k1
    rw [hpol, if_neg k1, if_neg k0]
  by_cases hl : l0 = l1
  · subst hl
    obtain rfl := hd rfl
    have hPP : P1 = P0 := by have := h.p1; rw [h.p0] at this; injection this with this; exact this.symm
    subst hPP
    have hfix := rotScale_fixes hsign hvP (-1) (by rw [hgm]; simp)
    have tp : t.polygons.get l0 = some Q1 := by rw [hpol, if_pos rfl]
    refine ⟨g, Q1, Q1, hT, hsign, hgm, hvP1, ⟨hg, hfull h.full, tp, tp, hq1, hq1, to0, fun _ => rfl, ?_, hglue⟩, hv1, hv1, fl, hoth,
      fun k => absurd rfl k, fun _ => ⟨rfl, ?_, e12⟩⟩
    · obtain ⟨g', k1, k2, k3⟩ := edgeTransformation_exists hg.1 tp tp to0 hvQ1 hvQ1
      refine ⟨g', k1, ?_⟩
      have hfix' := rotScale_fixes k2 hvQ1 (-1) (by rw [k3]; simp)
      rw [hfix', hfix', e11, e12, hfix]
      rw [hfix, hfix] at hturn
      simp only [neg_smul, one_smul, neg_neg] at hturn ⊢
      exact hturn.rotate
    · rw [e11, hfix]; simp
  · have tp0 : t.polygons.get l0 = some Q0 := by rw [hpol, if_neg hl, if_pos rfl]
    have tp1 : t.polygons.get l1 = some Q1 := by rw [hpol, if_pos rfl]
    refine ⟨g, Q0, Q1, hT, hsign, hgm, hvP1, ⟨hg, hfull h.full, tp0, tp1, hq0, hq1, to0, fun k => absurd k hl, ?_, hglue⟩, hv0, hv1, fl, hoth,
      fun _ => ⟨hQ01, e01, e02, e11, e12⟩, fun k => absurd k hl⟩
    obtain ⟨g', k1, k2, k3⟩ := edgeTransformation_exists hg.1 tp0 tp1 to0 hvQ0 hvQ1
    refine ⟨g', k1, ?_⟩
    have hfix' := rotScale_fixes k2 hvQ1 1 (by rw [k3, hQ01]; simp)
    rw [hfix', hfix', e11, e12, e01, e02, one_smul, one_smul]
    exact hturn.rotate.rotate.rotate

theorem Flippable.run {s : MSurf L (Poly K)} {l0 l1 : L} {d0 d1 : ℕ} {P0 P1 : Poly K}
    (h : Flippable s l0 d0 l1 d1 P0 P1) : ∃ t, triangleFlip l0 d0 s = .ok () t :=
  triangleFlip_ok h.good h.full l0 l1 d0 d1 P0 P1 h.p0 h.p1 h.len0 h.len1 h.opp h.fold h.turns h.glued

/-- **C26**, when it succeeds: the edge is between two triangles which form a strictly convex quadrilateral, all edges of the
two triangles are glued, and the explicit roots, if any, are in all components. -/
theorem C26_triangle_flip_succeeds {s : MSurf L (Poly K)} (h : Reachable s) (hm : s.mutable = true) (l0 l1 : L) (d0 d1 : ℕ)
    (P0 P1 : Poly K) (hp0 : s.polygon l0 = .ok P0) (hp1 : s.polygon l1 = .ok P1) (h0 : P0.length = 3) (h1 : P1.length = 3)
    (ho : s.oppositeEdge l0 d0 = .ok (some (l1, (d1 : Int)))) (hd : l0 = l1 → d0 = d1)
    (hconv : s.isConvexEdge l0 d0 true = .ok true)
    (hglued : ∀ e : ℕ, e < 3 → s.oppositeEdge l0 e ≠ .ok none ∧ s.oppositeEdge l1 e ≠ .ok none)
    (hroots : s.roots ≠ [] → s.rootsList = .ok s.roots) :
    ∃ t, triangleFlip l0 d0 s = .ok () t := by
  have hgood : Good s := ⟨h.ginv, hm, h.rootsOK⟩
  have hp0' := polygon_ok.1 hp0
  have hp1' := polygon_ok.1 hp1
  obtain ⟨k, hk, -, -, ho', -⟩ := oppositeEdge_some h.ginv ho
  dsimp only at hk ho'
  rw [Int.natCast_inj] at hk
  subst hk
  refine triangleFlip_ok hgood (full_of_roots hgood hroots) l0 l1 d0 d1 P0 P1 hp0' hp1' h0 h1 ho' hd
    ((isConvexEdge_iff h.ginv hp0' hp1' h0 h1 ho').1 hconv) ?_
  rintro ⟨x, e⟩ hx he hn
  dsimp only at hx he hn
  rcases hx with rfl | rfl
  · apply (hglued e he).1
    rw [oppositeEdge_eq_opp h.ginv.toShape ⟨P0, hp0', by have : nv P0 = P0.length := rfl; omega⟩, hn]
  · apply (hglued e he).2
    rw [oppositeEdge_eq_opp h.ginv.toShape ⟨P1, hp1', by have : nv P1 = P1.length := rfl; omega⟩, hn]

omit [LabelNum L] in
theorem edge_of_vertices_translate (p : Poly K) (h : p.length = 3) (c : Vec K) (i : ℕ) : Poly.edge (p.translate c) i = p.edge i := by
  have hne : p ≠ [] := by intro h'; rw [h'] at h; cases h
  unfold Poly.edge
  rw [Poly.vertex_translate _ hne, Poly.vertex_translate _ hne, add_sub_add_left_eq_sub]

/-- **C26**. Flipping an edge four times restores the triangulation: after a successful flip three more flips succeed,
and then all edges are glued as before, the first triangle is back up to translation, the second one is back, placed next
to the first one by the similarity of their common edge, and all other polygons are unchanged. -/
theorem C26_four_flips {s t : MSurf L (Poly K)} (h : Reachable s) (hm : s.mutable = true) (l0 : L) (d0 : ℕ)
    (ht : triangleFlip l0 d0 s = .ok () t) (hroots : s.roots ≠ [] → s.rootsList = .ok s.roots) :
    ∃ t2 t3 t4, triangleFlip l0 d0 t = .ok () t2 ∧ triangleFlip l0 d0 t2 = .ok () t3 ∧ triangleFlip l0 d0 t3 = .ok () t4 ∧
      (∀ l (e : ℕ), t4.oppositeEdge l e = s.oppositeEdge l e) ∧
      ∃ (l1 : L) (d1 : ℕ) (P0 P1 : Poly K) (g : Similarity K),
        s.oppositeEdge l0 d0 = .ok (some (l1, (d1 : Int))) ∧ s.polygon l0 = .ok P0 ∧ s.polygon l1 = .ok P1 ∧
        s.edgeTransformation l1 d1 = .ok g ∧ t4.polygon l0 = .ok (P0.translate (-P0.vertex 0)) ∧
        (l0 ≠ l1 → t4.polygon l1 = .ok (Poly.translate (P1.map g.call) (-g.call (P1.vertex 0)))) ∧
        ∀ l, l ≠ l0 → l ≠ l1 → t4.polygon l = s.polygon l := by
  have hgood : Good s := ⟨h.ginv, hm, h.rootsOK⟩
  obtain ⟨l1, d1, P0, P1, ho, hp0, hp1, h0, h1⟩ := triangleFlip_pre h.ginv l0 d0 ht
  have spec := triangleFlip_spec hgood l0 l1 d0 d1 P0 P1 hp0 hp1 h0 h1 ho
  unfold wp at spec
  rw [ht] at spec
  obtain ⟨-, -, hd, ⟨g, hT, hsign, -, hgm, hturn, -⟩, hgl, -⟩ := spec
  have fs : Flippable s l0 d0 l1 d1 P0 P1 :=
    ⟨hgood, full_of_roots hgood hroots, hp0, hp1, h0, h1, ho, hd, ⟨g, hT, hturn⟩, hgl⟩
  obtain ⟨g1, A0, A1, hT1, -, -, -, f1, -, -, fl1, o1, n1, c1⟩ := flippable_next fs ht
  have : g1 = g := by rw [hT] at hT1; injection hT1 with hT1; exact hT1.symm
  subst this
  obtain ⟨t2, ht2⟩ := f1.run
  obtain ⟨g2, B0, B1, hT2, s2, m2, z2, f2, -, -, fl2, o2, n2, c2⟩ := flippable_next f1 ht2
  obtain ⟨t3, ht3⟩ := f2.run
  obtain ⟨g3, C0, C1, hT3, s3, m3, z3, f3, -, -, fl3, o3, n3, c3⟩ := flippable_next f2 ht3
  obtain ⟨t4, ht4⟩ := f3.run
  obtain ⟨g4, D0, D1, hT4, s4, m4, z4, f4, v0, v1, fl4, o4, n4, c4⟩ := flippable_next f3 ht4
  have ho' := opp_back h.ginv ho
  have hd0 : d0 < 3 := lt_three_of_opp h.ginv hp0 h0 ho
  have hd1 : d1 < 3 := lt_three_of_opp h.ginv hp1 h1 ho'
  have hoth : ∀ l, l ≠ l0 → l ≠ l1 → t4.polygons.get l = s.polygons.get l := by
    intro l k0 k1
    rw [o4 l k0 k1, o3 l k0 k1, o2 l k0 k1, o1 l k0 k1]
  have hopp4 : ∀ l e, t4.opp l e = s.opp l e := by
    intro l e
    refine Flipped.four h.ginv f4.good.1 hd0 hd1 hd ho ?_ fl1 fl2 fl3 fl4 l e
    rintro x e c hx (rfl | rfl)
    · exact lt_three_of_opp h.ginv hp0 h0 hx
    · exact lt_three_of_opp h.ginv hp1 h1 hx
  have hedge4 : ∀ l e, t4.IsEdge l e ↔ s.IsEdge l e := by
    intro l e
    unfold IsEdge
    by_cases k0 : l = l0
    · subst k0
      rw [f4.p0, hp0]
      simp only [Option.some.injEq, exists_eq_left']
      have a1 : nv D0 = D0.length := rfl
      have a2 : nv P0 = P0.length := rfl
      rw [a1, a2, f4.len0, h0]
    by_cases k1 : l = l1
    · subst k1
      rw [f4.p1, hp1]
      simp only [Option.some.injEq, exists_eq_left']
      have a1 : nv D1 = D1.length := rfl
      have a2 : nv P1 = P1.length := rfl
      rw [a1, a2, f4.len1, h1]
    rw [hoth l k0 k1]
  refine ⟨t2, t3, t4, ht2, ht3, ht4, ?_, l1, d1, P0, P1, g1, ?_, polygon_ok.2 hp0, polygon_ok.2 hp1, hT, ?_, ?_, ?_⟩
  · intro l e
    by_cases he : s.IsEdge l e
    · rw [oppositeEdge_eq_opp f4.good.1.toShape ((hedge4 l e).2 he), oppositeEdge_eq_opp h.ginv.toShape he, hopp4]
    · rw [oppositeEdge_error f4.good.1.toShape (fun k => he ((hedge4 l e).1 k)), oppositeEdge_error h.ginv.toShape he]
      have : l ∈ t4.polygons.keys ↔ l ∈ s.polygons.keys := by
        rw [Dict.mem_keys_iff, Dict.mem_keys_iff]
        by_cases k0 : l = l0
        · subst k0; rw [f4.p0, hp0]; simp
        by_cases k1 : l = l1
        · subst k1; rw [f4.p1, hp1]; simp
        rw [hoth l k0 k1]
      simp only [this]
  · rw [oppositeEdge_eq_opp h.ginv.toShape (opp_isEdge h.ginv.toShape ho), ho]
  · rw [polygon_ok, f4.p0]
    congr 1
    have hl0 : (P0.translate (-P0.vertex 0)).length = 3 := by simp [Poly.translate, h0]
    have hv : Poly.vertex (P0.translate (-P0.vertex 0)) 0 = 0 := by
      rw [Poly.vertex_translate _ (by intro h'; rw [h'] at h0; cases h0)]
      simp
    by_cases hl : l0 = l1
    · obtain ⟨x1, x2, x3⟩ := c1 hl
      obtain ⟨y1, y2, y3⟩ := c2 hl
      obtain ⟨z1, z2, z3⟩ := c3 hl
      obtain ⟨w1, w2, w3⟩ := c4 hl
      obtain rfl := hd hl
      refine triangle_ext f4.len0 hl0 (by rw [v0, hv]) d0 ?_ ?_
      · rw [edge_of_vertices_translate _ h0, w1, w2, z1, z3, y1, y2, x1, x3, neg_neg]
      · rw [edge_of_vertices_translate _ h0, w1, w3, z1, z2, y1, y3, x1, x2, neg_neg]
    · obtain ⟨x0, x1, x2, x3, x4⟩ := n1 hl
      obtain ⟨y0, y1, y2, y3, y4⟩ := n2 hl
      obtain ⟨z0, z1, z2', z3', z4'⟩ := n3 hl
      obtain ⟨w0, w1, w2, w3, w4⟩ := n4 hl
      have i2 := rotScale_fixes s2 z2 1 (by rw [m2, x0]; simp)
      have i3 := rotScale_fixes s3 z3 1 (by rw [m3, y0]; simp)
      have i4 := rotScale_fixes s4 z4 1 (by rw [m4, z0]; simp)
      simp only [one_smul] at i2 i3 i4
      refine triangle_ext f4.len0 hl0 (by rw [v0, hv]) d0 ?_ ?_
      · rw [edge_of_vertices_translate _ h0, w1, z2', i3, y3, i2, x4]
      · rw [edge_of_vertices_translate _ h0, w2, i4, z3', i3, y4, x1]
  · intro hl
    rw [polygon_ok, f4.p1]
    congr 1
    have hne : P1 ≠ [] := by intro h'; rw [h'] at h1; cases h1
    have hl1 : (P1.map g1.call).length = 3 := by simp [h1]
    have hl1' : (Poly.translate (P1.map g1.call) (-g1.call (P1.vertex 0))).length = 3 := by simp [Poly.translate, h1]
    have hv : Poly.vertex (Poly.translate (P1.map g1.call) (-g1.call (P1.vertex 0))) 0 = 0 := by
      rw [Poly.vertex_translate _ (by simpa using hne), Poly.vertex_map _ _ hne]
      simp
    obtain ⟨x0, x1, x2, x3, x4⟩ := n1 hl
    obtain ⟨y0, y1, y2, y3, y4⟩ := n2 hl
    obtain ⟨z0, z1, z2', z3', z4'⟩ := n3 hl
    obtain ⟨w0, w1, w2, w3, w4⟩ := n4 hl
    have i2 := rotScale_fixes s2 z2 1 (by rw [m2, x0]; simp)
    have i3 := rotScale_fixes s3 z3 1 (by rw [m3, y0]; simp)
    have i4 := rotScale_fixes s4 z4 1 (by rw [m4, z0]; simp)
    simp only [one_smul] at i2 i3 i4
    refine triangle_ext f4.len1 hl1' (by rw [v1, hv]) d1 ?_ ?_
    · rw [edge_of_vertices_translate _ hl1, Poly.edge_map_call _ hne hsign, w3, i4, z4', y1, x2]
    · rw [edge_of_vertices_translate _ hl1, Poly.edge_map_call _ hne hsign, w4, z1, y2, i2, x3]
  · intro l k0 k1
    exact polygon_of_get (hoth l k0 k1)

/-- The hypotheses are satisfiable: the hypotenuse of the triangulated torus can be flipped. -/
theorem exTorus_flip : ∃ t, triangleFlip 0 1 exTorus = .ok () t :=
  C26_triangle_flip_succeeds exTorus_reachable (by decide +kernel) 0 1 1 1 tri tri (by decide +kernel) (by decide +kernel) rfl rfl
    (by decide +kernel) (by simp) (by decide +kernel) (by decide +kernel) (by decide +kernel)

example : ∃ t t2 t3 t4, triangleFlip 0 1 exTorus = .ok () t ∧ triangleFlip 0 1 t = .ok () t2 ∧ triangleFlip 0 1 t2 = .ok () t3 ∧
    triangleFlip 0 1 t3 = .ok () t4 ∧ ∀ l (e : ℕ), t4.oppositeEdge l e = exTorus.oppositeEdge l e := by
  obtain ⟨t, ht⟩ := exTorus_flip
  obtain ⟨t2, t3, t4, h2, h3, h4, h5, -⟩ :=
    C26_four_flips exTorus_reachable (by decide +kernel) 0 1 ht (by decide +kernel)
  exact ⟨t, t2, t3, t4, ht, h2, h3, h4, h5⟩

/-- A triangle with an edge glued to itself, to which the theorems apply, too. -/
def exFoldOps : List (Op ℕ ℚ) := [.addPolygon tri none, .glue (0, 0) (0, 0), .glue (0, 1) (0, 1), .glue (0, 2) (0, 2)]

theorem exFold_reachable : Reachable (runOps exFoldOps empty) := by
  refine reachable_runOps _ _ .empty (by decide +kernel) ?_ ?_
  · intro op hop
    simp only [exFoldOps, List.mem_cons, List.not_mem_nil, or_false] at hop
    rcases hop with rfl | rfl | rfl | rfl <;> simp [Op.NonNeg]
  · intro op hop
    simp only [exFoldOps, List.mem_cons, List.not_mem_nil, or_false] at hop
    rcases hop with rfl | rfl | rfl | rfl <;> simp

example : ∃ t, triangleFlip 0 1 (runOps exFoldOps empty) = .ok () t :=
  C26_triangle_flip_succeeds exFold_reachable (by decide +kernel) 0 0 1 1 tri tri (by decide +kernel) (by decide +kernel) rfl rfl
    (by decide +kernel) (by simp) (by decide +kernel) (by decide +kernel) (by decide +kernel)

/-- A triangle with two different edges glued to each other. -/
def exConeOps : List (Op ℕ ℚ) := [.addPolygon tri none, .glue (0, 0) (0, 1), .glue (0, 2) (0, 2)]

/-- Whether a call ended with an `AssertionError` after it has changed polygon 0. -/
def failedChanged (r : EStateM.Result Err (MSurf ℕ (Poly ℚ)) Unit) (p : Poly ℚ) : Bool :=
  match r with
  | .error e s => e == .assertionError && (match s.polygon 0 with | .ok q => q != p | .error _ => false)
  | _ => false

theorem failedChanged_iff (r : EStateM.Result Err (MSurf ℕ (Poly ℚ)) Unit) (p : Poly ℚ) (h : failedChanged r p = true) :
    ∃ s q, r = .error .assertionError s ∧ s.polygon 0 = .ok q ∧ q ≠ p := by
  unfold failedChanged at h
  split at h
  · rename_i e s
    rw [Bool.and_eq_true, beq_iff_eq] at h
    obtain ⟨rfl, h⟩ := h
    split at h
    · rename_i q hq
      exact ⟨s, q, rfl, hq, by simpa using h⟩
    · cases h
  · cases h

/-- **C26** fails when two different edges of one triangle are glued to each other: although the edge is strictly convex
and all edges are glued, the flip ends with a failed assertion, and the triangle has already been replaced. -/
theorem C26_cone_violation : ∃ s : MSurf ℕ (Poly ℚ), Reachable s ∧ s.mutable = true ∧ s.polygon 0 = .ok tri ∧
    s.roots = [] ∧ s.oppositeEdge 0 0 = .ok (some (0, 1)) ∧ (∀ e < 3, s.oppositeEdge 0 (e : ℕ) ≠ .ok none) ∧
    s.isConvexEdge 0 0 true = .ok true ∧
    ∃ t q, triangleFlip 0 0 s = .error .assertionError t ∧ t.polygon 0 = .ok q ∧ q ≠ tri := by
  refine ⟨runOps exConeOps empty, reachable_runOps _ _ .empty (by decide +kernel) ?_ ?_, by decide +kernel, by decide +kernel,
    by decide +kernel, by decide +kernel, by decide +kernel, by decide +kernel,
    failedChanged_iff _ _ (by decide +kernel)⟩
  · intro op hop
    simp only [exConeOps, List.mem_cons, List.not_mem_nil, or_false] at hop
    rcases hop with rfl | rfl | rfl <;> simp [Op.NonNeg]
  · intro op hop
    simp only [exConeOps, List.mem_cons, List.not_mem_nil, or_false] at hop
    rcases hop with rfl | rfl | rfl <;> simp

end MSurf
end Flat
