import Verif.Lemmas.Swap
import Verif.Props.PolygonCheck
import Verif.Props.Copy

/-!
# C25: `set_vertex_zero`
-/

namespace Flat

theorem rot_back {n v e : ℕ} (hv : v < n) (he : e < n) : ((((v + e) % n : ℕ) : Int) + n - v) % n = e := by
  rcases Nat.lt_or_ge (v + e) n with h | h
  · rw [Nat.mod_eq_of_lt h]
    have : ((v + e : ℕ) : Int) + n - v = e + n := by push_cast; ring
    rw [this, Int.add_emod_right]
    exact Int.emod_eq_of_lt (by omega) (by omega)
  · rw [Nat.mod_eq_sub_mod h, Nat.mod_eq_of_lt (by omega)]
    have : ((v + e - n : ℕ) : Int) + n - v = e := by omega
    rw [this]
    exact Int.emod_eq_of_lt (by omega) (by omega)

theorem rot_forth {n v k : ℕ} (hv : v < n) (hk : k < n) : (v + (k + n - v) % n) % n = k := by
  rcases Nat.lt_or_ge k v with h | h
  · rw [Nat.mod_eq_of_lt (show k + n - v < n by omega)]
    have : v + (k + n - v) = k + n := by omega
    rw [this, Nat.add_mod_right, Nat.mod_eq_of_lt hk]
  · have : k + n - v = (k - v) + n := by omega
    rw [this, Nat.add_mod_right, Nat.mod_eq_of_lt (show k - v < n by omega)]
    have : v + (k - v) = k := by omega
    rw [this, Nat.mod_eq_of_lt hk]

theorem rot_cast {n v k : ℕ} (hv : v < n) : ((k : Int) + n - v) % n = ((k + n - v) % n : ℕ) := by
  have : ((k : Int) + n - v) = ((k + n - v : ℕ) : Int) := by omega
  rw [this]
  norm_cast

namespace Poly
variable {K : Type} [Field K] [LinearOrder K] [IsStrictOrderedRing K]

theorem edges_rotate (p : Poly K) (v : ℕ) :
    (List.range p.length).map (fun i => p.edge ((i + v) % p.length)) = edges (List.rotate p v) := by
  unfold edges
  rw [List.length_rotate]
  apply List.map_congr_left
  intro i _
  rw [edge_mod]
  unfold edge
  rw [vertex_rotate, vertex_rotate, Nat.add_right_comm]

theorem ofEdges_eq {p q : Poly K} (hp : p ≠ []) (h : ofEdges p.edges = .ok q) : q = p.translate (-p.vertex 0) := by
  rw [(ofEdges_ok h).1, ofEdges_edges p hp]

end Poly

namespace MSurf
variable {L K : Type} [LinearOrder L] [LabelNum L] [Field K] [LinearOrder K] [IsStrictOrderedRing K]

/-- The new name of an edge after `set_vertex_zero`. -/
def shiftEdge (l : L) (n v : ℕ) (c : L × Int) : L × Int := (c.1, if c.1 = l then (c.2 + n - v) % n else c.2)

/-- The gluings after `set_vertex_zero`. -/
def shiftOpp (s : MSurf L (Poly K)) (l : L) (n v : ℕ) (x : L) (e : ℕ) : Option (L × Int) :=
  if x = l then (if e < n then (s.opp l ((v + e) % n)).map (shiftEdge l n v) else none)
  else (s.opp x e).map (shiftEdge l n v)

theorem setVertexZero_spec {s : MSurf L (Poly K)} (hs : Good s) (l : L) (v : ℕ) (p : Poly K)
    (hp : s.polygons.get l = some p) (hv : v < p.length) :
    wp (setVertexZero l v) (fun _ t => Good t ∧
        (∀ x, t.polygons.get x = if x = l then some (Poly.translate (List.rotate p v) (-p.vertex v)) else s.polygons.get x) ∧
        (∀ e < p.length, s.opp l e ≠ none) ∧
        ∀ x e, t.opp x e = shiftOpp s l p.length v x e)
      (fun _ _ => ¬ p.Valid ∨ (∃ e < p.length, s.opp l e = none) ∨ ∃ r ∈ s.roots, r ≠ l) s := by
  have hlk : l ∈ s.polygons.keys := by rw [Dict.mem_keys_iff, hp]; rfl
  have hpl : s.polygon l = .ok p := polygon_ok.2 hp
  have hrne : List.rotate p v ≠ [] := by
    intro h
    have := congrArg List.length h
    rw [List.length_rotate] at this
    simp at this
    rw [this] at hv
    simp at hv
  have hv0 : Poly.vertex (List.rotate p v) 0 = p.vertex v := by rw [Poly.vertex_rotate, Nat.zero_add]
  have hnv : nv p = p.length := rfl
  set n := p.length with hn
  unfold setVertexZero
  rw [wp_bind, wp_get, wp_ite]
  refine ⟨fun h => absurd hs.2.1 h, fun _ => ?_⟩
  rw [wp_bind, wp_liftE, hpl]
  refine ⟨fun a ha => ?_, fun _ h' => by cases h'⟩
  injection ha with ha
  subst ha
  dsimp only
  rw [hnv, wp_ite]
  refine ⟨fun h => absurd hv h, fun _ => ?_⟩
  rw [wp_bind, wp_liftE, hn, Poly.edges_rotate]
  constructor
  swap
  · intro x hx
    left
    intro hval
    rw [Poly.ofEdges_of_valid (hval.rotate v)] at hx
    cases hx
  intro pp hpp
  have hpp' := Poly.ofEdges_eq hrne hpp
  rw [hv0] at hpp'
  rw [wp_bind, wp_liftE]
  have hE : ∀ i, s.IsEdge l ((v + i) % n) := fun i => ⟨p, hp, Nat.mod_lt _ (by omega)⟩
  have hopp : ∀ i, s.oppositeEdge l (((v + i) % n : ℕ) : Int) = .ok (s.opp l ((v + i) % n)) :=
    fun i => oppositeEdge_eq_opp hs.1.toShape (hE i)
  by_cases hall : ∃ e < n, s.opp l e = none
  · constructor
    · intro gl hgl
      exfalso
      obtain ⟨e, he, hne⟩ := hall
      rw [mapM_ok_iff] at hgl
      have hmem : (e + n - v) % n ∈ List.range n := List.mem_range.2 (Nat.mod_lt _ (by omega))
      obtain ⟨y, hy⟩ : ∃ y, (do
          let c ← s.oppositeEdge! l (((v + (e + n - v) % n) % n : ℕ) : Int)
          return (c.1, if c.1 = l then (c.2 + n - v) % n else c.2) : Except Err (L × Int)) = .ok y := by
        clear hpp hpp'
        generalize List.range n = r at hmem hgl
        induction hgl with
        | nil => cases hmem
        | cons h1 h2 ih =>
          rcases List.mem_cons.1 hmem with h3 | h3
          · subst h3; exact ⟨_, h1⟩
          · exact ih h3
      unfold oppositeEdge! at hy
      rw [hopp, rot_forth hv he, hne] at hy
      cases hy
    · intro x hx
      exact Or.inr (Or.inl hall)
  push Not at hall
  have hsome : ∀ i, ∃ c, s.opp l ((v + i) % n) = some c := fun i =>
    Option.ne_none_iff_exists'.1 (hall _ (Nat.mod_lt _ (by omega)))
  set G := shiftOpp s l n v with hG
  have hGl : ∀ i < n, G l i = (s.opp l ((v + i) % n)).map (shiftEdge l n v) := by
    intro i hi
    simp [hG, shiftOpp, hi]
  have hmap : (List.range n).mapM (fun i => do
      let c ← s.oppositeEdge! l (((v + i) % n : ℕ) : Int)
      return (c.1, if c.1 = l then (c.2 + n - v) % n else c.2) : ℕ → Except Err (L × Int)) =
      .ok ((List.range n).map (fun i => (G l i).getD (l, 0))) := by
    rw [mapM_ok_iff, List.forall₂_map_right_iff]
    refine List.forall₂_same.2 fun i hi => ?_
    obtain ⟨c, hc⟩ := hsome i
    rw [hGl i (List.mem_range.1 hi)]
    unfold oppositeEdge!
    rw [hopp, hc]
    rfl
  rw [hmap]
  refine ⟨fun gl hgl => ?_, fun _ h' => by cases h'⟩
  injection hgl with hgl
  rw [wp_bind]
  refine wp_mono (removePolygon_left hs l hlk) ?_ (fun _ _ hh => hh.elim)
  rintro _ t1 ⟨hg1, hp1, ho1, hr1, -⟩
  rw [wp_bind]
  refine wp_mono (addPolygon_more hg1 pp (some l) (fun l' hl' => ?_)) ?_ (fun _ _ hh => hh.elim)
  · injection hl' with hl'
    subst hl'
    rw [Dict.mem_keys_iff, hp1]
    simp
  rintro l' t2 ⟨hg2, hl', -, hp2, ho2, hr2⟩
  have := hl' l rfl
  subst this
  have hP2 : ∀ x, t2.polygons.get x = if x = l' then some pp else s.polygons.get x := by
    intro x
    rw [hp2, hp1]
    split_ifs <;> rfl
  have hO2 : ∀ x e c, t2.opp x e = some c ↔ s.opp x e = some c ∧ x ≠ l' ∧ c.1 ≠ l' := by
    intro x e c
    rw [ho2, ho1]
  have hlen : pp.length = n := by rw [hpp']; simp [Poly.translate, List.length_rotate, hn]
  -- new to old names
  have fwd : ∀ x (e : ℕ) c, G x e = some c → ∃ e0 c0, s.opp x e0 = some c0 ∧ c = shiftEdge l' n v c0 ∧
      (x = l' → e < n ∧ e0 = (v + e) % n) ∧ (x ≠ l' → e0 = e) := by
    intro x e c hc
    simp only [hG, shiftOpp] at hc
    split_ifs at hc with h1 h2
    · rw [Option.map_eq_some_iff] at hc
      obtain ⟨c0, h3, h4⟩ := hc
      exact ⟨_, c0, by rw [h1]; exact h3, h4.symm, fun _ => ⟨h2, rfl⟩, fun h => absurd h1 h⟩
    · rw [Option.map_eq_some_iff] at hc
      obtain ⟨c0, h3, h4⟩ := hc
      exact ⟨_, c0, h3, h4.symm, fun h => absurd h h1, fun _ => rfl⟩
  have bwd : ∀ x (k : ℕ) c0, s.opp x k = some c0 →
      ∃ k' : ℕ, shiftEdge l' n v (x, (k : Int)) = (x, (k' : Int)) ∧ G x k' = some (shiftEdge l' n v c0) := by
    intro x k c0 hc
    by_cases hx : x = l'
    · subst hx
      have hk : k < n := by
        obtain ⟨p', h1, h2⟩ := opp_isEdge hs.1.toShape hc
        rw [hp] at h1
        injection h1 with h1
        subst h1
        exact h2
      refine ⟨(k + n - v) % n, ?_, ?_⟩
      · unfold shiftEdge
        rw [if_pos rfl]
        dsimp only
        rw [rot_cast hv]
      · rw [hGl _ (Nat.mod_lt _ (by omega)), rot_forth hv hk, hc]; rfl
    · refine ⟨k, by unfold shiftEdge; rw [if_neg hx], ?_⟩
      simp only [hG, shiftOpp, if_neg hx, hc]; rfl
  have hT : Target t2 G := by
    constructor
    · intro x e x' e' hc
      obtain ⟨e0, ⟨y, j⟩, h1, h2, h3, h4⟩ := fwd x e _ hc
      obtain ⟨k, rfl, hk⟩ := hs.1.inv _ _ _ _ h1
      obtain ⟨k', h5, h6⟩ := bwd y k _ hk
      rw [h5] at h2
      injection h2 with h2 h2'
      subst h2
      refine ⟨k', h2', ?_⟩
      rw [h6]
      congr 1
      unfold shiftEdge
      dsimp only
      by_cases hx : x = l'
      · obtain ⟨h7, rfl⟩ := h3 hx
        rw [if_pos hx, rot_back hv h7]
      · rw [if_neg hx, h4 hx]
    · intro x e c hc
      obtain ⟨e0, c0, h1, h2, h3, h4⟩ := fwd x e _ hc
      by_cases hx : x = l'
      · exact ⟨pp, by rw [hP2, if_pos hx], by show e < pp.length; rw [hlen]; exact (h3 hx).1⟩
      · obtain ⟨p', h5, h6⟩ := opp_isEdge hs.1.toShape h1
        exact ⟨p', by rw [hP2, if_neg hx, h5], by rw [← h4 hx]; exact h6⟩
  have hSub : Sub t2 G := by
    intro x e c hc
    obtain ⟨h1, h2, h3⟩ := (hO2 x e c).1 hc
    simp only [hG, shiftOpp, if_neg h2, h1, Option.map_some]
    unfold shiftEdge
    rw [if_neg h3]
  have hgll : gl.length = n := by rw [← hgl]; simp
  have hgli : ∀ i (hi : i < gl.length), G l' i = some gl[i] := by
    intro i hi
    have hi' : i < n := by rw [← hgll]; exact hi
    have h0 : gl[i] = (G l' i).getD (l', 0) := by subst hgl; simp
    rw [h0, hGl i hi']
    obtain ⟨c, hc⟩ := hsome i
    rw [hc]; rfl
  refine wp_mono (glueAll_sub hg2.1 hg2.2.1 hg2.2.2 hT hSub l' 0 gl (fun i hi => by rw [Nat.zero_add]; exact hgli i hi)) ?_ ?_
  · rintro _ t3 ⟨g3, h3⟩
    refine ⟨⟨g3.ginv, by rw [g3.mutable, hg2.2.1], g3.rootsOK⟩, fun x => ?_, fun e he => hall e he, ?_⟩
    · rw [g3.polygons, hP2, hpp']
    · refine g3.finish hT (fun x => x = l') ?_ ?_
      · rintro x e c rfl hc
        obtain ⟨_, _, _, _, h4, _⟩ := fwd x e _ hc
        have he : e < gl.length := by rw [hgll]; exact (h4 rfl).1
        have := h3 e he
        rw [Nat.zero_add] at this
        rw [this, ← hgli e he, hc]
      · intro x e c hx hcx hc
        obtain ⟨e0, c0, h4, rfl, _, h5⟩ := fwd x e _ hc
        rw [h5 hx] at h4
        rw [hO2]
        have : shiftEdge l' n v c0 = c0 := by
          unfold shiftEdge at hcx ⊢
          rw [if_neg hcx]
        rw [this] at hcx ⊢
        exact ⟨h4, hx, hcx⟩
  · rintro e t3 ⟨_, hf⟩
    right; right
    by_contra hno
    push Not at hno
    apply hf
    left
    rw [hr2, hr1, if_pos]
    rw [List.filter_eq_nil_iff]
    intro r hr
    simp [hno r hr]

/-- **C25.** `set_vertex_zero(l, v)`: polygon `l` becomes the same polygon starting at the old vertex `v` (placed
at the origin), all other polygons stay, and every edge is glued to the same edge as before, with `old` giving
the old index of an edge. -/
theorem C25_set_vertex_zero {s t : MSurf L (Poly K)} (h : Reachable s) (hm : s.mutable = true) (l : L) (v : ℕ)
    (p : Poly K) (hp : s.polygon l = .ok p) (hv : v < p.length) (ht : setVertexZero l v s = .ok () t) :
    (∃ q, t.polygon l = .ok q ∧ q.length = p.length ∧ ∀ i, q.vertex i = p.vertex (i + v) - p.vertex v) ∧
      (∀ l' ≠ l, t.polygon l' = s.polygon l') ∧
      ∀ old : L × Int → L × Int, (∀ x, old x = if x.1 = l then (x.1, (x.2 + v) % p.length) else x) →
        ∀ l' q' (e : ℕ), t.polygon l' = .ok q' → e < q'.length → ∃ c,
          t.oppositeEdge l' (e : Int) = .ok c ∧
          s.oppositeEdge l' (old (l', (e : Int))).2 = .ok (c.map old) := by
  have hgood : Good s := ⟨h.ginv, hm, h.rootsOK⟩
  have hp' := polygon_ok.1 hp
  have spec := setVertexZero_spec hgood l v p hp' hv
  unfold wp at spec
  rw [ht] at spec
  obtain ⟨h1, h2, h3, h4⟩ := spec
  have hrne : List.rotate p v ≠ [] := by
    intro h
    have := congrArg List.length h
    rw [List.length_rotate] at this
    simp at this
    rw [this] at hv
    simp at hv
  refine ⟨⟨_, polygon_ok.2 (by rw [h2, if_pos rfl]), by simp [Poly.translate], fun i => ?_⟩,
    fun l' hl' => polygon_of_get (by rw [h2, if_neg hl']), ?_⟩
  · rw [Poly.vertex_translate _ hrne, Poly.vertex_rotate, neg_add_eq_sub]
  · intro old hold l' q' e hq' he
    have hq'' := polygon_ok.1 hq'
    have hedge : t.IsEdge l' e := ⟨q', hq'', he⟩
    have hold' : ∀ c, (∃ x e, s.opp x e = some c) → old (shiftEdge l p.length v c) = c := by
      rintro ⟨a, b⟩ ⟨x, e, hc⟩
      rw [hold]
      unfold shiftEdge
      dsimp only
      by_cases ha : a = l
      · rw [if_pos ha, if_pos ha]
        obtain ⟨k, rfl, hk⟩ := h.ginv.inv _ _ _ _ hc
        have hkn : k < p.length := by
          obtain ⟨p', h5, h6⟩ := opp_isEdge h.ginv.toShape hk
          rw [ha, hp'] at h5
          injection h5 with h5
          subst h5
          exact h6
        rw [rot_cast hv]
        congr 1
        have := rot_forth hv hkn
        rw [Nat.add_comm] at this
        exact_mod_cast this
      · rw [if_neg ha, if_neg ha]
    refine ⟨_, oppositeEdge_eq_opp h1.1.toShape hedge, ?_⟩
    rw [h4, hold]
    unfold shiftOpp
    by_cases hl : l' = l
    · subst hl
      rw [h2, if_pos rfl] at hq''
      injection hq'' with hq''
      have he' : e < p.length := by rw [← hq''] at he; simpa [Poly.translate] using he
      rw [if_pos rfl, if_pos rfl, if_pos he']
      dsimp only
      have : (((e : Int) + v) % p.length) = ((v + e) % p.length : ℕ) := by push_cast; rw [add_comm]
      have hed : s.IsEdge l' ((v + e) % p.length) := ⟨p, hp', Nat.mod_lt _ (Nat.lt_of_le_of_lt (Nat.zero_le _) hv)⟩
      rw [this, oppositeEdge_eq_opp h.ginv.toShape hed]
      cases hc : s.opp l' ((v + e) % p.length) with
      | none => rfl
      | some c => simp only [Option.map_some]; rw [hold' c ⟨_, _, hc⟩]
    · rw [if_neg hl, if_neg hl]
      rw [h2, if_neg hl] at hq''
      dsimp only
      rw [oppositeEdge_eq_opp h.ginv.toShape ⟨q', hq'', he⟩]
      cases hc : s.opp l' e with
      | none => rfl
      | some c => simp only [Option.map_some]; rw [hold' c ⟨_, _, hc⟩]

/-- **C25**, when it succeeds: the polygon is valid, all its edges are glued and no other polygon is an explicit
root. -/
theorem C25_set_vertex_zero_succeeds {s : MSurf L (Poly K)} (h : Reachable s) (hm : s.mutable = true) (l : L) (v : ℕ)
    (p : Poly K) (hp : s.polygon l = .ok p) (hv : v < p.length) (hvalid : Poly.ofVertices p = .ok p)
    (hglued : ∀ e : ℕ, e < p.length → s.oppositeEdge l (e : Int) ≠ .ok none) (hroots : ∀ r ∈ s.roots, r = l) :
    ∃ t, setVertexZero l v s = .ok () t := by
  have hgood : Good s := ⟨h.ginv, hm, h.rootsOK⟩
  have hp' := polygon_ok.1 hp
  have spec := setVertexZero_spec hgood l v p hp' hv
  unfold wp at spec
  cases hr : setVertexZero l v s with
  | ok a t => exact ⟨t, rfl⟩
  | error e t =>
    rw [hr] at spec
    exfalso
    rcases spec with h1 | ⟨e, he, h1⟩ | ⟨r, hr, h1⟩
    · apply h1
      unfold Poly.ofVertices at hvalid
      split_ifs at hvalid with h3
      cases hc : Poly.check p with
      | error e => rw [hc] at hvalid; cases hvalid
      | ok u => exact (Poly.check_iff p (by omega)).1 hc
    · exact hglued e he (by rw [oppositeEdge_eq_opp h.ginv.toShape ⟨p, hp', he⟩, h1])
    · exact h1 (hroots r hr)

/-- The hypotheses are satisfiable, and the result on the torus made of two triangles. -/
example : ∃ t, setVertexZero 0 1 exTorus = .ok () t ∧ ∃ q, t.polygon 0 = .ok q ∧ q.vertex 1 = (-1, 1) := by
  obtain ⟨t, ht⟩ := C25_set_vertex_zero_succeeds exTorus_reachable (by decide +kernel) 0 1 tri (by decide +kernel)
    (by decide) (by decide +kernel) (by decide +kernel) (by decide +kernel)
  obtain ⟨⟨q, h1, _, h2⟩, _⟩ := C25_set_vertex_zero exTorus_reachable (by decide +kernel) 0 1 tri
    (by decide +kernel) (by decide) ht
  exact ⟨t, ht, q, h1, by rw [h2]; decide +kernel⟩

/-- **C25** loses the explicit root: `set_vertex_zero` on the polygon chosen with `set_root` removes the choice. -/
theorem C25_root_lost_violation :
    ∃ s t : MSurf ℕ (Poly ℚ), Reachable s ∧ s.rootsList = .ok [1] ∧ setVertexZero 1 1 s = .ok () t ∧
      t.rootsList = .ok [0] := by
  have hr := Reachable.step _ (.setRoot 1) exTorus_reachable (by decide +kernel) trivial
    (fun l t gl he => by cases he)
  obtain ⟨t, ht⟩ := C25_set_vertex_zero_succeeds hr (by decide +kernel) 1 1 tri (by decide +kernel)
    (by decide) (by decide +kernel) (by decide +kernel) (by decide +kernel)
  refine ⟨_, t, hr, by decide +kernel, ht, ?_⟩
  have : t = stateOf (setVertexZero 1 1 (stateOf (Op.run (.setRoot 1) exTorus))) := by rw [ht]; rfl
  rw [this]
  decide +kernel

end MSurf
end Flat
