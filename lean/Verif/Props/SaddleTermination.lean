import Verif.Lemmas.SaddleTerm

/-!
# C68: the search for saddle connections comes to an end
-/

namespace Flat
variable {L K : Type} [Field K] [LinearOrder K] [IsStrictOrderedRing K]

namespace RSurf
open Poly
variable {S : RSurf L K} {valid : L → Prop}

/-- The test of an edge does not fail. -/
theorem scCross_total (hS : S.Closed valid) {bound : K} {sim : Similarity K} {label : L} (hl : valid label) {w : Vec K × Vec K} {p : Poly K}
    (hp : S.polygon label = .ok p) {i : ℕ} (hi : i < p.length) (P Q : Vec K) : ∃ r, S.scCross bound sim label w i P Q = .ok r := by
  obtain ⟨l', e', p', g, -, h2, h3, -, h5, -⟩ := gluesTo_ok hS hl hp hi
  unfold scCross
  by_cases hc : 0 < ccw P Q ∧ 0 < ccw w.1 Q ∧ 0 < ccw P w.2
  · rw [if_pos hc]
    have hne : P ≠ Q := by
      intro he
      rw [he, ccw_self] at hc
      exact lt_irrefl _ hc.1
    obtain ⟨x, x1, -⟩ := Circle.C44_line_segment_position ⟨0, bound⟩ P Q hne
    simp only [x1, bind, Except.bind, h2, h3, h5, pure, Except.pure]
    by_cases hx : x = 1
    · exact ⟨_, if_pos hx⟩
    · exact ⟨_, if_neg hx⟩
  · exact ⟨_, if_neg hc⟩

/-- A node of the search below which there are only finitely many nodes. -/
theorem acc_of_chains {bound : K} (d : ℕ) (n : ScNode L K)
    (h : ∀ (k : ℕ) (ns : ℕ → ScNode L K), ns 0 = n → (∀ j < k, ∃ p i, S.Child bound (ns j) p i (ns (j + 1))) → k < d) :
    Acc (fun m n => ∃ p i, S.Child bound n p i m) n := by
  induction d generalizing n with
  | zero => exact absurd (h 0 (fun _ => n) rfl (by simp)) (by simp)
  | succ d ih =>
    refine ⟨_, fun m hm => ih m fun k ns h0 hc => ?_⟩
    have := h (k + 1) (fun j => match j with | 0 => n | j + 1 => ns j) rfl (fun j hj => by
      cases j with
      | zero => dsimp only; rw [h0]; exact hm
      | succ j => exact hc j (by omega))
    omega

variable [DecidableEq L]

/-- The loop comes to an end when there are only finitely many nodes below the nodes of its list. -/
theorem scLoop_total (hS : S.Closed valid) (hconv : S.AllConvex valid) (kinds : Kinds) (start : L × ℕ) {bound : K} {n : ScNode L K}
    (hacc : Acc (fun m n => ∃ p i, S.Child bound n p i m) n) (hn : S.NodeOk valid n) {stack : List (ScNode L K)}
    (hst : ∃ N, ∀ fuel ≥ N, ∀ acc, ∃ res, S.scLoop kinds start bound false fuel stack acc = .ok res) :
    ∃ N, ∀ fuel ≥ N, ∀ acc, ∃ res, S.scLoop kinds start bound false fuel (n :: stack) acc = .ok res := by
  induction hacc generalizing stack with
  | intro n _ ih =>
    obtain ⟨p, o, U, hG, h2, -⟩ := id hn
    have key : ∀ vs, (∀ i ∈ vs, i ∈ n.verts) →
        ∃ N, ∀ fuel ≥ N, ∀ acc, ∃ res, S.scLoop kinds start bound false fuel (⟨n.sim, n.label, n.wedge, vs⟩ :: stack) acc = .ok res := by
      intro vs
      induction vs with
      | nil =>
        intro _
        obtain ⟨N, hN⟩ := hst
        refine ⟨N + 1, fun fuel hf acc => ?_⟩
        obtain ⟨fuel, rfl⟩ : ∃ f, fuel = f + 1 := ⟨fuel - 1, by omega⟩
        unfold scLoop
        exact hN fuel (by omega) acc
      | cons i vs ihv =>
        intro hvs
        have hrest := ihv fun j hj => hvs j (List.mem_cons_of_mem _ hj)
        have hi := hvs i (List.mem_cons_self ..)
        obtain ⟨r, hr⟩ := scCross_total hS (bound := bound) (sim := n.sim) (w := n.wedge) hG.mem hG.polygon (hG.lt i (h2 i hi)) (n.sim.call (p.vertex i))
          (n.sim.call (p.vertex ((i + 1) % p.length)))
        have hnext : ∃ N, ∀ fuel ≥ N, ∀ acc, ∃ res, S.scLoop kinds start bound false fuel (r ++ ⟨n.sim, n.label, n.wedge, vs⟩ :: stack) acc = .ok res := by
          rcases scCross_list hr with rfl | ⟨m, rfl⟩
          · exact hrest
          · exact ih m ⟨p, i, hG.polygon, hi, hr⟩ (nodeOk_child hS hconv hn hG.polygon hi hr).1 hrest
        obtain ⟨N, hN⟩ := hnext
        refine ⟨N + 1, fun fuel hf acc => ?_⟩
        obtain ⟨fuel, rfl⟩ : ∃ f, fuel = f + 1 := ⟨fuel - 1, by omega⟩
        unfold scLoop
        simp only [hG.polygon, scVertex_false, hr, bind, Except.bind]
        exact hN fuel (by omega) _
    exact key n.verts fun i hi => hi

/-- **C68.** On a surface of finite type that is made of strictly convex polygons glued isometrically, the search for the saddle connections from a
vertex comes to an end and does not raise. -/
theorem C68_terminates_at [Archimedean K] (hS : S.Closed valid) (hi : S.Isometric valid) (hconv : S.AllStrict valid) {labels : List L}
    (hlab : ∀ l, valid l → l ∈ labels) {kinds : Kinds} (hk : kinds.positive = true → S.PositiveDilation valid) {bound : K} (hb : 0 < bound)
    {start : L × ℕ} {p : Poly K} (hl : valid start.1) (hp : S.polygon start.1 = .ok p) (hv : start.2 < p.length) :
    ∃ N, ∀ fuel ≥ N, ∀ acc, ∃ res, S.saddleConnectionsAt kinds bound false fuel start acc = .ok res := by
  have hB := hS.bordered
  have hV := hB.valid_of_polygon hl hp
  have hcx : S.AllConvex valid := fun l p h1 h2 => (hconv l p h1 h2).1
  obtain ⟨hc, hsh⟩ := hconv _ _ hl hp
  have hsharp := hsh _ hv
  have hn : 0 < p.length := by have := hV.len3; omega
  obtain ⟨l, v⟩ := start
  dsimp only at hl hp hv hsharp
  obtain ⟨es, b0, k0, he⟩ := edge_isSaddle hS hl hp hv
  have hctor := C68_constructor hS hk he (limit := 1000) (by simp) one_pos true
  rw [one_smul] at hctor
  set n : ScNode L K := ⟨.ofVec (-p.vertex v), l, (p.edge v, -p.edge (v + (p.length - 1))), scVerts p.length v 2⟩ with hnd
  obtain ⟨-, hok, -⟩ := nodeOk_root hS hl hp hc hv hsharp hnd
  have hw1 : (Similarity.ofVec (-p.vertex v)).call (p.vertex ((v + 1) % p.length)) = p.edge v := by
    rw [ofVec_call, vertex_mod]; unfold edge; abel
  have hw2 : (Similarity.ofVec (-p.vertex v)).call (p.vertex ((v + p.length - 1) % p.length)) = -p.edge (v + (p.length - 1)) := by
    have hprev : p.vertex (v + (p.length - 1) + 1) = p.vertex v := by
      rw [← vertex_mod, show v + (p.length - 1) + 1 = v + p.length by omega, Nat.add_mod_right, vertex_mod]
    rw [ofVec_call, vertex_mod, show v + p.length - 1 = v + (p.length - 1) by omega, ← hprev]; unfold edge; abel
  have hterm : S.Term valid n := by
    refine ⟨hok, ?_, ?_⟩
    · rw [hnd]
      dsimp only
      rw [show ccw (p.edge v) (-p.edge (v + (p.length - 1))) = ccw (p.edge (v + (p.length - 1))) (p.edge v) by
        unfold ccw; simp only [Prod.fst_neg, Prod.snd_neg]; ring]
      exact hsharp
    · rw [hnd]; unfold Similarity.ofVec; simp
  obtain ⟨d, hd⟩ := chain_bound hS hi hconv hlab bound
  have hacc := acc_of_chains (S := S) (bound := bound) d n fun k ns h0 => hd k ns (by rw [h0]; exact hterm)
  obtain ⟨N, hN⟩ := scLoop_total hS hcx kinds (l, v) hacc hok (stack := []) ⟨0, fun fuel _ acc => ⟨acc, by cases fuel <;> rfl⟩⟩
  refine ⟨N, fun fuel hf acc => ?_⟩
  unfold saddleConnectionsAt
  rw [if_neg (not_le.2 hb)]
  simp only [hp, hctor, bind, Except.bind, pure, Except.pure, hw1, hw2]
  by_cases he2 : (p.edge v).1 ^ 2 + (p.edge v).2 ^ 2 ≤ bound
  · rw [if_pos he2]; exact hN fuel hf _
  · rw [if_neg he2]; exact hN fuel hf _

omit [Field K] [LinearOrder K] [IsStrictOrderedRing K] [DecidableEq L] in
theorem foldlM_total {α β : Type} {f : ℕ → List β → α → Except Err (List β)} {xs : List α}
    (hf : ∀ x ∈ xs, ∃ N, ∀ fuel ≥ N, ∀ acc, ∃ res, f fuel acc x = .ok res) : ∃ N, ∀ fuel ≥ N, ∀ acc, ∃ res, xs.foldlM (f fuel) acc = .ok res := by
  induction xs with
  | nil => exact ⟨0, fun fuel _ acc => ⟨acc, rfl⟩⟩
  | cons x xs ih =>
    obtain ⟨N, hN⟩ := ih fun y hy => hf y (List.mem_cons_of_mem _ hy)
    obtain ⟨N', hN'⟩ := hf x (List.mem_cons_self ..)
    refine ⟨max N N', fun fuel h acc => ?_⟩
    obtain ⟨r, hr⟩ := hN' fuel (le_trans (le_max_right _ _) h) acc
    obtain ⟨r', hr'⟩ := hN fuel (le_trans (le_max_left _ _) h) r
    exact ⟨r', by rw [List.foldlM_cons, hr]; exact hr'⟩

/-- **C68.** On a surface of finite type that is made of strictly convex polygons glued isometrically, the search for the saddle connections of the
surface comes to an end, for every bound, and returns the saddle connections whose holonomy is not longer than the bound, each of them once. -/
theorem C68_terminates [Archimedean K] (hS : S.Closed valid) (hi : S.Isometric valid) (hconv : S.AllStrict valid) {labels : List L} (hnd : labels.Nodup)
    (hlab : ∀ l, l ∈ labels ↔ valid l) {kinds : Kinds} (hk : kinds.positive = true → S.PositiveDilation valid) {bound : K} (hb : 0 < bound) :
    ∃ N, ∀ fuel ≥ N, ∃ res, S.saddleConnections kinds bound fuel labels = .ok res ∧ res.Nodup ∧
      ∀ c, c ∈ res ↔ ∃ a h b k, S.IsSaddle valid a h b k ∧ h.1 ^ 2 + h.2 ^ 2 ≤ bound ∧ c = saddleOf a h b k := by
  obtain ⟨N, hN⟩ := foldlM_total (f := fun fuel acc l => S.saddleConnectionsIn kinds bound fuel l acc) (xs := labels) fun l hl => by
    have hl' := (hlab l).1 hl
    obtain ⟨p, hp, -⟩ := hS.poly l hl'
    obtain ⟨N, hN⟩ := foldlM_total (f := fun fuel acc v => S.saddleConnectionsAt kinds bound false fuel (l, v) acc) (xs := List.range p.length) fun v hv =>
      C68_terminates_at hS hi hconv (fun l hl => (hlab l).2 hl) hk hb hl' hp (by simpa using hv)
    refine ⟨N, fun fuel hf acc => ?_⟩
    unfold saddleConnectionsIn
    rw [if_neg (not_le.2 hb)]
    simp only [hp, bind, Except.bind]
    exact hN fuel hf acc
  refine ⟨N, fun fuel hf => ?_⟩
  obtain ⟨res, hres⟩ := hN fuel hf []
  have h : S.saddleConnections kinds bound fuel labels = .ok res := by
    unfold saddleConnections
    rw [if_neg (not_le.2 hb)]
    exact hres
  exact ⟨res, h, C68_list_partial hS hconv hk hnd hlab h⟩

end RSurf
end Flat
