import Verif.Props.SaddleSearch

/-!
# C68: the lists of saddle connections
-/

namespace Flat
variable {L K : Type} [Field K] [LinearOrder K] [IsStrictOrderedRing K]

namespace RSurf
open Poly
variable {S : RSurf L K} {valid : L → Prop}

/-- All polygons of the surface are convex. -/
def AllConvex (S : RSurf L K) (valid : L → Prop) : Prop := ∀ l p, valid l → S.polygon l = .ok p → p.Convex

/-- Every edge is a saddle connection. -/
theorem edge_isSaddle (hS : S.Closed valid) {l : L} (hl : valid l) {p : Poly K} (hp : S.polygon l = .ok p) {e : ℕ} (he : e < p.length) :
    ∃ s b k, S.IsSaddleVia valid [s] (l, e) (p.edge e) b k := by
  obtain ⟨l', e', p', g, h1, h2, h3, h4, h5, h6, g1, g2⟩ := gluesTo_ok hS hl hp he
  have hv := hS.bordered.valid_of_polygon hl hp
  have hal : S.IsAlong valid ⟨⟨l, p.vertex e, p.edge e, .vertex e⟩, ⟨l', p'.vertex e', -g.derivative.mulVec (p.edge e), .vertex e'⟩⟩ p p' e e' g := by
    refine ⟨hl, hp, he, h1.opp, h5, h1.wf, h1.sign, g1, g2, rfl, rfl, ?_, rfl, rfl, rfl⟩
    rw [C05_isParallel_iff _ _ (hv.edge_ne e)]
    exact ⟨1, one_pos, (one_smul _ _).symm⟩
  exact ⟨_, (l', e'), p'.edge e', .inr ⟨_, p, p', e, e', g, rfl, hal, rfl, rfl, rfl, rfl⟩⟩

/-- What the search knows about an entry of its list. -/
def NodeOk (S : RSurf L K) (valid : L → Prop) (n : ScNode L K) : Prop :=
  ∃ p o U, S.ScGood valid n.sim n.label n.wedge p o U ∧ (∀ i ∈ n.verts, i ∈ U) ∧ n.verts.Nodup ∧
    ∀ h, InWedge n.wedge h → ∃ t s, S.Entry valid n.sim t h s ∧ t.label = n.label ∧ t.position = o

theorem nodeOk_tail {sim : Similarity K} {l : L} {w : Vec K × Vec K} {i : ℕ} {vs : List ℕ} (h : S.NodeOk valid ⟨sim, l, w, i :: vs⟩) :
    S.NodeOk valid ⟨sim, l, w, vs⟩ := by
  obtain ⟨p, o, U, h1, h2, h3, h4⟩ := h
  exact ⟨p, o, U, h1, fun j hj => h2 j (List.mem_cons_of_mem _ hj), (List.nodup_cons.1 h3).2, h4⟩

theorem nodeOk_child (hS : S.Closed valid) (hconv : S.AllConvex valid) {bound : K} {n m : ScNode L K} (hn : S.NodeOk valid n) {p : Poly K}
    (hp : S.polygon n.label = .ok p) {i : ℕ} (hi : i ∈ n.verts)
    (hc : S.scCross bound n.sim n.label n.wedge i (n.sim.call (p.vertex i)) (n.sim.call (p.vertex ((i + 1) % p.length))) = .ok [m]) :
    S.NodeOk valid m ∧ ∀ h, InWedge m.wedge h → InWedge (n.sim.call (p.vertex i), n.sim.call (p.vertex (i + 1))) h := by
  obtain ⟨q, o, U, hG, h2, h3, h4⟩ := hn
  have hq := hG.polygon
  rw [hp] at hq; injection hq with hq; subst hq
  have hiU := h2 i hi
  obtain ⟨l', e', g, p', g1, g2, g3, g4, g5⟩ := scCross_iff hS (bound := bound) (sim := n.sim) (w := n.wedge) hG.mem hG.polygon (hG.lt i hiU)
  obtain ⟨a1, a2, a3, -, rfl⟩ := (g5 m).1 hc
  have hG' := good_child hS hG g1 g3 g4 (hconv _ _ g2 g3) a1 a2 a3
  refine ⟨⟨p', _, _, hG', fun j hj => hj, nodup_scVerts _ _ _ g4 le_rfl, fun h hw => ?_⟩, fun h hw => ((scWedge_iff hG.wedge a1 a2 a3 h).1 hw).2⟩
  obtain ⟨w1, w2⟩ := (scWedge_iff hG.wedge a1 a2 a3 h).1 hw
  obtain ⟨t, s, ht, k1, k2⟩ := h4 h w1
  obtain ⟨c, τ, c1, c2, ⟨s1, s01, hs1⟩, -, c3⟩ := hG.step hS w1 ht k1 k2
  have hpos := (c3 i hiU).2.2 ⟨a1, w2⟩
  have hs0 := ht.nonneg
  have hg' : S.GluesTo c.start.label i l' e' g := by rw [c2, k1]; exact g1
  obtain ⟨-, -, k3⟩ := entry_child hS c1 hpos hg' hG.sign hs1 (by rw [c2]; exact ht.vector) (by linarith)
  exact ⟨_, _, k3, rfl, rfl⟩

/-- A direction is not seen twice from a polygon. -/
theorem sees_disjoint (hS : S.Closed valid) (hconv : S.AllConvex valid) {bound : K} {sim : Similarity K} {l : L} {w : Vec K × Vec K} {us vs ws : List ℕ}
    (hn : S.NodeOk valid ⟨sim, l, w, ws⟩) (hus : ∀ i ∈ us, i ∈ ws) (hvs : ∀ i ∈ vs, i ∈ ws) (hd : ∀ i ∈ us, i ∉ vs) {h : Vec K} {b b' : L × ℕ}
    {G G' : Similarity K} (h1 : S.Sees bound ⟨sim, l, w, us⟩ h b G) (h2 : S.Sees bound ⟨sim, l, w, vs⟩ h b' G') : False := by
  obtain ⟨p, o, U, hG, u1, u2, u3⟩ := hn
  obtain ⟨a1, -, a2⟩ := sees_sound hS hconv h1 hG fun i hi => u1 i (hus i hi)
  obtain ⟨b1, -, b2⟩ := sees_sound hS hconv h2 hG fun i hi => u1 i (hvs i hi)
  obtain ⟨t, s, t1, t2, t3⟩ := u3 h a1
  obtain ⟨s1, f1, l1, G1, p1, i, hi, e1⟩ := a2 t s t1 t2 t3
  obtain ⟨s2, f2, l2, G2, p2, j, hj, e2⟩ := b2 t s t1 t2 t3
  obtain ⟨_, _, c1⟩ := p1.chord f1 (List.mem_of_head? p1.head)
  obtain ⟨_, _, c2⟩ := p2.chord f2 (List.mem_of_head? p2.head)
  have : f1 = f2 := chord_ext hS.bordered c1 c2 (p1.start.trans p2.start.symm)
  subst this
  have hij : i = j := by
    rcases e1 with e1 | e1 <;> rcases e2 with e2 | e2 <;> rw [e1] at e2
    · injection e2
    · cases e2
    · cases e2
    · injection e2
  subst hij
  exact hd i hi hj

variable [DecidableEq L]

omit [IsStrictOrderedRing K] in
theorem seenAs_holonomy {start : L × ℕ} {h h' : Vec K} {b b' : L × ℕ} {G G' : Similarity K} (he : seenAs start h b G = seenAs start h' b' G') : h = h' := by
  unfold seenAs saddleOf at he
  injection he

/-- Two entries of the list do not see the same. -/
def Apart (S : RSurf L K) (bound : K) (n n' : ScNode L K) : Prop := ∀ h b G b' G', S.Sees bound n h b G → ¬ S.Sees bound n' h b' G'

/-- The loop does not collect anything twice. -/
theorem scLoop_nodup (hS : S.Closed valid) (hconv : S.AllConvex valid) {kinds : Kinds} {start : L × ℕ} {bound : K} (fuel : ℕ) (stack : List (ScNode L K))
    (acc : List (Saddle L K)) {res : List (Saddle L K)} (hok : ∀ n ∈ stack, S.NodeOk valid n) (hap : stack.Pairwise (S.Apart bound))
    (h : S.scLoop kinds start bound false fuel stack acc = .ok res) : ∃ new, res = acc ++ new ∧ new.Nodup := by
  induction fuel generalizing stack acc with
  | zero =>
    cases stack with
    | nil => unfold scLoop at h; injection h with h; exact ⟨[], by simp [h], by simp⟩
    | cons => unfold scLoop at h; cases h
  | succ fuel ih =>
    cases stack with
    | nil => unfold scLoop at h; injection h with h; exact ⟨[], by simp [h], by simp⟩
    | cons n stack =>
      obtain ⟨sim, label, w, verts⟩ := n
      obtain ⟨hap1, hap2⟩ := List.pairwise_cons.1 hap
      have hn := hok _ (List.mem_cons_self ..)
      have hok' : ∀ n ∈ stack, S.NodeOk valid n := fun n hn => hok n (List.mem_cons_of_mem _ hn)
      cases verts with
      | nil => unfold scLoop at h; exact ih _ _ hok' hap2 h
      | cons i verts =>
        unfold scLoop at h
        cases hp : S.polygon label with
        | error e => simp [hp, bind, Except.bind] at h
        | ok p =>
        cases hx : S.scCross bound sim label w i (sim.call (p.vertex i)) (sim.call (p.vertex ((i + 1) % p.length))) with
        | error e => simp [hp, scVertex_false, hx, bind, Except.bind] at h
        | ok next =>
        simp only [hp, scVertex_false, hx, bind, Except.bind] at h
        have hnd : i ∉ verts := by obtain ⟨_, _, _, _, _, h3, _⟩ := hn; exact (List.nodup_cons.1 h3).1
        -- the polygon on the other side
        have hm : ∀ m ∈ next, S.NodeOk valid m ∧ (∀ h b G, S.Sees bound m h b G → S.Sees bound ⟨sim, label, w, [i]⟩ h b G) ∧
            ∀ b G, ¬ S.Sees bound m (sim.call (p.vertex i)) b G := by
          intro m hm
          rcases scCross_list hx with rfl | ⟨m', rfl⟩
          · cases hm
          · rw [List.mem_singleton] at hm
            subst hm
            obtain ⟨m1, m2⟩ := nodeOk_child hS hconv hn hp (by simp) hx
            refine ⟨m1, fun h b G hs => (sees_cons hp).2 (.inr (.inl ⟨m, hx, hs⟩)), fun b G hs => ?_⟩
            obtain ⟨_, _, _, k1, k2, _, _⟩ := m1
            have := (m2 _ (sees_sound hS hconv hs k1 k2).1).1
            dsimp only at this
            rw [ccw_self] at this
            exact lt_irrefl _ this
        have hone : ∀ {h b G}, S.Sees bound ⟨sim, label, w, [i]⟩ h b G → S.Sees bound ⟨sim, label, w, i :: verts⟩ h b G := fun hs =>
          hs.mono rfl rfl rfl (by simp)
        have htail : ∀ {h b G}, S.Sees bound ⟨sim, label, w, verts⟩ h b G → S.Sees bound ⟨sim, label, w, i :: verts⟩ h b G := fun hs =>
          hs.mono rfl rfl rfl (by simp +contextual)
        have hdis : ∀ {h b G b' G'}, S.Sees bound ⟨sim, label, w, [i]⟩ h b G → ¬ S.Sees bound ⟨sim, label, w, verts⟩ h b' G' := fun h1 h2 =>
          sees_disjoint hS hconv hn (by simp) (by simp +contextual) (by simpa using hnd) h1 h2
        have hok2 : ∀ n ∈ next ++ ⟨sim, label, w, verts⟩ :: stack, S.NodeOk valid n := by
          intro n hn'
          rcases List.mem_append.1 hn' with hn' | hn'
          · exact (hm n hn').1
          · rcases List.mem_cons.1 hn' with rfl | hn'
            · exact nodeOk_tail hn
            · exact hok' n hn'
        have hap3 : (next ++ ⟨sim, label, w, verts⟩ :: stack).Pairwise (S.Apart bound) := by
          rw [List.pairwise_append]
          refine ⟨?_, ?_, ?_⟩
          · rcases scCross_list hx with rfl | ⟨m', rfl⟩ <;> simp
          · refine List.pairwise_cons.2 ⟨fun n hn' h b G b' G' s1 s2 => ?_, hap2⟩
            exact hap1 n hn' h b G b' G' (htail s1) s2
          · intro m hm' n hn' h b G b' G' s1 s2
            rcases List.mem_cons.1 hn' with rfl | hn'
            · exact hdis ((hm m hm').2.1 h b G s1) s2
            · exact hap1 n hn' h b G b' G' (hone ((hm m hm').2.1 h b G s1)) s2
        obtain ⟨new, h1, h2⟩ := ih _ _ hok2 hap3 h
        obtain ⟨new', h1', h3⟩ := scLoop_iff _ _ _ h
        rw [h1] at h1'
        have := List.append_cancel_left h1'
        subst this
        refine ⟨_, by rw [h1, List.append_assoc], ?_⟩
        by_cases hc : InWedge w (sim.call (p.vertex i)) ∧ (sim.call (p.vertex i)).1 ^ 2 + (sim.call (p.vertex i)).2 ^ 2 ≤ bound
        · rw [if_pos hc, List.singleton_append, List.nodup_cons]
          refine ⟨fun hmem => ?_, h2⟩
          have hsee : S.Sees bound ⟨sim, label, w, [i]⟩ (sim.call (p.vertex i)) (label, i) sim := (sees_cons hp).2 (.inl ⟨hc.1, hc.2, rfl, rfl, rfl⟩)
          obtain ⟨n, hn', h', b, G, hs, he⟩ := (h3 _).1 hmem
          have := seenAs_holonomy he
          subst this
          rcases List.mem_append.1 hn' with hn' | hn'
          · exact (hm n hn').2.2 _ _ hs
          · rcases List.mem_cons.1 hn' with rfl | hn'
            · exact hdis hsee hs
            · exact hap1 n hn' _ _ _ _ _ (hone hsee) hs
        · rw [if_neg hc, List.nil_append]
          exact h2

/-- The first entry of the list. -/
theorem nodeOk_root (hS : S.Closed valid) {l : L} (hl : valid l) {p : Poly K} (hp : S.polygon l = .ok p) (hc : p.Convex) {v : ℕ} (hv : v < p.length)
    (hsharp : 0 < ccw (p.edge (v + (p.length - 1))) (p.edge v)) {n : ScNode L K}
    (hn : n = ⟨.ofVec (-p.vertex v), l, (p.edge v, -p.edge (v + (p.length - 1))), scVerts p.length v 2⟩) :
    S.ScGood valid n.sim n.label n.wedge p (.vertex v) n.verts ∧ S.NodeOk valid n ∧
      ∀ h, InWedge n.wedge h → S.Entry valid n.sim ⟨l, p.vertex v, h, .vertex v⟩ h 0 := by
  subst hn
  have hB := hS.bordered
  have hV := hB.valid_of_polygon hl hp
  have hG := good_root hS hl hp hc hv hsharp
  have he : ∀ h, InWedge (p.edge v, -p.edge (v + (p.length - 1))) h → S.Entry valid (.ofVec (-p.vertex v)) ⟨l, p.vertex v, h, .vertex v⟩ h 0 := by
    intro h hw
    refine ⟨isTangent_of hB hl hp ((C12_vertex hV _ v).2 ⟨hv, rfl⟩).symm ?_, ?_, ofVec_deriv _ _, le_rfl⟩
    · rw [points_vertex hV hv]
      refine ⟨inWedge_ne hw, .inr ?_⟩
      have huv : 0 < ccw (p.edge v) (-p.edge (v + (p.length - 1))) := by
        rw [show ccw (p.edge v) (-p.edge (v + (p.length - 1))) = ccw (p.edge (v + (p.length - 1))) (p.edge v) by
          unfold ccw; simp only [Prod.fst_neg, Prod.snd_neg]; ring]
        exact hsharp
      have hw1 := hw.1
      have hw2 := hw.2
      dsimp only at hw1 hw2 ⊢
      generalize p.edge v = a at *
      generalize -p.edge (v + (p.length - 1)) = b at *
      unfold isBetween
      unfold ccw at hw1 hw2 huv
      rw [if_pos (by linarith), decide_eq_true_eq]
      constructor <;> linarith
    · dsimp only
      rw [ofVec_call, add_neg_cancel, zero_smul]
  exact ⟨hG, ⟨p, _, _, hG, fun i hi => hi, nodup_scVerts _ _ _ hv (by norm_num), fun h hw => ⟨_, _, he h hw, rfl, rfl⟩⟩, he⟩

/-- A line through the inside of a convex polygon that starts at a vertex points between the two edges. -/
theorem diagonal_wedge {p : Poly K} (hv : p.Valid) (hc : p.Convex) {v : ℕ} {h : Vec K} {τ : K} (hτ : 0 < τ)
    (hi : ∀ r : K, 0 < r → r < τ → p.pointPosition (p.vertex v + r • h) = .interior) : InWedge (p.edge v, -p.edge (v + (p.length - 1))) h := by
  have hn : 0 < p.length := by have := hv.len3; omega
  have h1 := (C12_interior hv hc _).1.1 (hi (τ / 2) (half_pos hτ) (half_lt_self hτ))
  have h2 := h1 v
  have h3 := h1 (v + (p.length - 1))
  have hprev : p.vertex (v + (p.length - 1) + 1) = p.vertex v := by
    rw [← vertex_mod, show v + (p.length - 1) + 1 = v + p.length by omega, Nat.add_mod_right, vertex_mod]
  rw [add_sub_cancel_left, ccw_smul_right] at h2
  have e : p.vertex v + (τ / 2) • h - p.vertex (v + (p.length - 1)) = p.edge (v + (p.length - 1)) + (τ / 2) • h := by
    rw [← hprev]; unfold edge; abel
  rw [e] at h3
  have e2 : ccw (p.edge (v + (p.length - 1))) (p.edge (v + (p.length - 1)) + (τ / 2) • h) = (τ / 2) * ccw h (-p.edge (v + (p.length - 1))) := by
    unfold ccw; simp only [Prod.fst_add, Prod.snd_add, Prod.smul_fst, Prod.smul_snd, smul_eq_mul, Prod.fst_neg, Prod.snd_neg]; ring
  rw [e2] at h3
  exact ⟨(pos_iff_pos_of_mul_pos h2).1 (half_pos hτ), (pos_iff_pos_of_mul_pos h3).1 (half_pos hτ)⟩

/-- **C68.** The list of saddle connections that start at a vertex, not longer than a bound: it consists of the saddle connections that start at the
vertex and whose holonomy is not longer than the bound, each of them once. -/
theorem C68_search_partial (hS : S.Closed valid) (hconv : S.AllConvex valid) {kinds : Kinds} (hk : kinds.positive = true → S.PositiveDilation valid) {bound : K}
    {check : Bool} {fuel : ℕ} {start : L × ℕ} {acc res : List (Saddle L K)} {p : Poly K} (hl : valid start.1) (hp : S.polygon start.1 = .ok p)
    (hv : start.2 < p.length) (hsharp : 0 < ccw (p.edge (start.2 + (p.length - 1))) (p.edge start.2))
    (hres : S.saddleConnectionsAt kinds bound check fuel start acc = .ok res) :
    ∃ new, res = acc ++ new ∧ new.Nodup ∧
      ∀ c, c ∈ new ↔ ∃ h b k, S.IsSaddle valid start h b k ∧ h.1 ^ 2 + h.2 ^ 2 ≤ bound ∧ c = saddleOf start h b k := by
  have hB := hS.bordered
  have hV := hB.valid_of_polygon hl hp
  have hc := hconv _ _ hl hp
  have hn : 0 < p.length := by have := hV.len3; omega
  obtain ⟨l, v⟩ := start
  dsimp only at hl hp hv hsharp
  obtain ⟨es, b0, k0, he⟩ := edge_isSaddle hS hl hp hv
  have hctor := C68_constructor hS hk he (limit := 1000) (by simp) one_pos true
  rw [one_smul] at hctor
  set n : ScNode L K := ⟨.ofVec (-p.vertex v), l, (p.edge v, -p.edge (v + (p.length - 1))), scVerts p.length v 2⟩ with hnd
  obtain ⟨hG, hok, hent⟩ := nodeOk_root hS hl hp hc hv hsharp hnd
  set new0 : List (Saddle L K) := if (p.edge v).1 ^ 2 + (p.edge v).2 ^ 2 ≤ bound then [saddleOf (l, v) (p.edge v) b0 k0] else [] with hnew0
  have hw1 : (Similarity.ofVec (-p.vertex v)).call (p.vertex ((v + 1) % p.length)) = p.edge v := by
    rw [ofVec_call, vertex_mod]; unfold edge; abel
  have hw2 : (Similarity.ofVec (-p.vertex v)).call (p.vertex ((v + p.length - 1) % p.length)) = -p.edge (v + (p.length - 1)) := by
    have hprev : p.vertex (v + (p.length - 1) + 1) = p.vertex v := by
      rw [← vertex_mod, show v + (p.length - 1) + 1 = v + p.length by omega, Nat.add_mod_right, vertex_mod]
    rw [ofVec_call, vertex_mod, show v + p.length - 1 = v + (p.length - 1) by omega, ← hprev]; unfold edge; abel
  have hloop : S.scLoop kinds (l, v) bound check fuel [n] (acc ++ new0) = .ok res := by
    unfold saddleConnectionsAt at hres
    by_cases hb : bound ≤ 0
    · rw [if_pos hb] at hres; cases hres
    rw [if_neg hb] at hres
    dsimp only at hres
    simp only [hp, hctor, bind, Except.bind, pure, Except.pure, hw1, hw2] at hres
    by_cases he2 : (p.edge v).1 ^ 2 + (p.edge v).2 ^ 2 ≤ bound
    · rw [if_pos he2] at hres; rw [hnew0, if_pos he2]; exact hres
    · rw [if_neg he2] at hres; rw [hnew0, if_neg he2]; exact hres
  have hloop := scLoop_check _ _ _ hloop
  obtain ⟨new, h1, h2⟩ := scLoop_iff _ _ _ hloop
  obtain ⟨new', h1', h3⟩ := scLoop_nodup hS hconv _ _ _ (by simpa using hok) (by simp) hloop
  rw [h1] at h1'
  have := List.append_cancel_left h1'
  subst this
  have hinv : ∀ {G' : Similarity K} {h : Vec K}, G'.WF → G'.sign = 1 →
      ((Similarity.ofVec (-p.vertex v)).mul G').derivative.inverse.mulVec (-h) = -(G'.inv.derivative.mulVec h) := by
    intro G' h wf sg
    have wf2 := Similarity.C01_mul_wf _ _ (ofVec_wf (-p.vertex v)) wf
    have sg2 : ((Similarity.ofVec (-p.vertex v)).mul G').sign = 1 := mul_sign rfl sg
    rw [inverse_deriv wf2 sg2]
    apply deriv_inj wf2 sg2
    rw [(inv_deriv wf2 sg2 _).2, mul_deriv rfl sg, ofVec_deriv, Similarity.derivative_neg, (inv_deriv wf sg _).2]
  have hnew : ∀ c, c ∈ new ↔ ∃ h b k, S.IsSaddle valid (l, v) h b k ∧ h.1 ^ 2 + h.2 ^ 2 ≤ bound ∧ c = saddleOf (l, v) h b k ∧
      InWedge n.wedge h := by
    intro c
    rw [h2]
    constructor
    · rintro ⟨m, hm, h, b, G, hs, rfl⟩
      rw [List.mem_singleton] at hm
      subst hm
      obtain ⟨a1, a2, a3⟩ := sees_sound hS hconv hs hG fun i hi => hi
      obtain ⟨segs, first, last, G', hP, -⟩ := a3 _ _ (hent h a1) rfl rfl
      have wf := develops_wf hP.develops
      have hG'p : G'.call last.stop.point = p.vertex v + h := by
        have := hP.point
        rw [hP.eq, mul_call rfl wf.2, ofVec_call] at this
        rw [← this]; abel
      have hd : S.IsDiagonal valid segs (l, v) h b (G'.inv.call first.start.point - last.stop.point) first last G' := by
        refine ⟨hP.chord, hP.chain, hP.head, hP.getLast, by rw [hP.start], by rw [hP.start], hP.label', hP.position', hP.develops, ?_, rfl⟩
        rw [hP.start, hG'p]; simp
      refine ⟨h, b, _, ⟨segs, .inl ⟨_, _, _, hd⟩⟩, a2, ?_, a1⟩
      unfold seenAs
      rw [hP.eq, hinv wf.1 wf.2, ← (isDiagonal_holonomy hS hd).1]
    · rintro ⟨h, b, k, ⟨segs, hs⟩, hb, rfl, hw⟩
      refine ⟨n, by simp, h, b, ?_⟩
      rcases hs with ⟨first, last, G', hd⟩ | ⟨s, q, q', e, e', g, rfl, hal, ha, rfl, rfl, rfl⟩
      · obtain ⟨hkk, c, c0, e1, e2⟩ := isDiagonal_holonomy hS hd
        have hd' := isDiagonal_scale hS hd c0
        have wf := develops_wf hd.develops
        obtain ⟨q, τ, hch⟩ := hd'.chord _ (List.mem_of_head? hd'.head)
        have hst : (first.scale c).start = ⟨l, p.vertex v, h, .vertex v⟩ := by
          have e3 := hd'.label
          dsimp only at e3
          have e4 := hch.polygon
          rw [e3, hp] at e4; injection e4 with e4; subst e4
          have e5 := hch.position
          rw [hd'.position] at e5
          have e6 := ((C12_vertex hV _ _).1 e5.symm).2
          have e7 : (first.scale c).start.vector = h := by rw [e1]; rfl
          have e8 := hd'.position
          generalize (first.scale c).start = t at *
          obtain ⟨t1, t2, t3, t4⟩ := t
          dsimp only at *
          subst e3 e6 e7 e8
          rfl
        refine ⟨(Similarity.ofVec (-p.vertex v)).mul G', ?_, ?_⟩
        · refine sees_complete hS hconv hd'.develops hG (hent h hw) rfl rfl
            ⟨hd'.chord, hd'.chain, hd'.head, hst, hd'.getLast, hd'.label', hd'.position', hd'.develops, rfl, ?_⟩ hw hb
          have e9 := hd'.holonomy
          rw [hst] at e9
          dsimp only at e9
          rw [mul_call rfl wf.2, ofVec_call, ← sub_eq_add_neg]
          exact e9.symm
        · unfold seenAs
          rw [hinv wf.1 wf.2, ← hkk]
      · exfalso
        injection ha with ha1 ha2
        have hq := hal.polygon
        rw [← ha1, hp] at hq; injection hq with hq; subst hq
        subst ha2
        have := hw.1
        rw [hnd] at this
        dsimp only at this
        rw [ccw_self] at this
        exact lt_irrefl _ this
  refine ⟨new0 ++ new, by rw [h1, List.append_assoc], ?_, fun c => ?_⟩
  · rw [List.nodup_append]
    refine ⟨?_, h3, ?_⟩
    · rw [hnew0]; split_ifs <;> simp
    · intro a ha b hb hab
      subst hab
      rw [hnew0] at ha
      split_ifs at ha with he2
      · rw [List.mem_singleton] at ha
        obtain ⟨h, b, k, -, -, e1, hw⟩ := (hnew _).1 hb
        rw [ha] at e1
        unfold saddleOf at e1
        injection e1 with _ _ _ _ e1 _
        have := hw.1
        rw [← e1, hnd] at this
        dsimp only at this
        rw [ccw_self] at this
        exact lt_irrefl _ this
      · cases ha
  · rw [List.mem_append, hnew]
    constructor
    · rintro (ha | ⟨h, b, k, x1, x2, x3, -⟩)
      · rw [hnew0] at ha
        split_ifs at ha with he2
        · rw [List.mem_singleton] at ha
          exact ⟨_, _, _, ⟨_, he⟩, he2, ha⟩
        · cases ha
      · exact ⟨h, b, k, x1, x2, x3⟩
    · rintro ⟨h, b, k, hs, hb, rfl⟩
      have hs' := hs
      obtain ⟨segs, ⟨first, last, G', hd⟩ | ⟨s, q, q', e, e', g, rfl, hal, ha, rfl, rfl, rfl⟩⟩ := hs
      · right
        refine ⟨h, b, k, hs', hb, rfl, ?_⟩
        obtain ⟨-, c, c0, e1, -⟩ := isDiagonal_holonomy hS hd
        obtain ⟨q, τ, hch⟩ := hd.chord _ (List.mem_of_head? hd.head)
        have e4 := hch.polygon
        rw [hd.label, hp] at e4; injection e4 with e4; subst e4
        have e5 := hch.position
        rw [hd.position] at e5
        have e6 := ((C12_vertex hV _ _).1 e5.symm).2
        have hi := hch.interior
        rw [e6] at hi
        have := diagonal_wedge hV hc hch.pos hi
        rw [e1, inWedge_smul c0]
        exact this
      · left
        injection ha with ha1 ha2
        have hq := hal.polygon
        rw [← ha1, hp] at hq; injection hq with hq; subst hq
        subst ha2
        obtain ⟨-, x1, x2⟩ := C68_unique hS ⟨_, he⟩ hs' one_pos (one_smul _ _).symm
        rw [hnew0, if_pos hb, List.mem_singleton, x1, x2]

/-- All polygons of the surface are strictly convex. -/
def AllStrict (S : RSurf L K) (valid : L → Prop) : Prop :=
  ∀ l p, valid l → S.polygon l = .ok p → p.Convex ∧ ∀ v < p.length, 0 < ccw (p.edge (v + (p.length - 1))) (p.edge v)

omit [IsStrictOrderedRing K] [DecidableEq L] [Field K] [LinearOrder K] in
/-- Lists that are collected one after the other. -/
theorem foldlM_collect {α β : Type} {f : List β → α → Except Err (List β)} {R : α → β → Prop} {xs : List α} (hnd : xs.Nodup)
    (hdis : ∀ x ∈ xs, ∀ y ∈ xs, x ≠ y → ∀ c, R x c → ¬ R y c)
    (hf : ∀ acc, ∀ x ∈ xs, ∀ res, f acc x = .ok res → ∃ new, res = acc ++ new ∧ new.Nodup ∧ ∀ c, c ∈ new ↔ R x c) {acc res : List β}
    (h : xs.foldlM f acc = .ok res) : ∃ new, res = acc ++ new ∧ new.Nodup ∧ ∀ c, c ∈ new ↔ ∃ x ∈ xs, R x c := by
  induction xs generalizing acc with
  | nil =>
    rw [List.foldlM_nil] at h
    injection h with h
    exact ⟨[], by simp [h], by simp, by simp⟩
  | cons x xs ih =>
    rw [List.foldlM_cons] at h
    cases hx : f acc x with
    | error e => simp [hx, bind, Except.bind] at h
    | ok r =>
      simp only [hx, bind, Except.bind] at h
      obtain ⟨new, h1, h2, h3⟩ := hf acc x (by simp) r hx
      obtain ⟨new', h1', h2', h3'⟩ := ih (List.nodup_cons.1 hnd).2 (fun a ha b hb => hdis a (List.mem_cons_of_mem _ ha) b (List.mem_cons_of_mem _ hb))
        (fun acc a ha => hf acc a (List.mem_cons_of_mem _ ha)) h
      refine ⟨new ++ new', by rw [h1', h1, List.append_assoc], ?_, fun c => ?_⟩
      · rw [List.nodup_append]
        refine ⟨h2, h2', fun a ha b hb hab => ?_⟩
        subst hab
        obtain ⟨y, hy, hr⟩ := (h3' a).1 hb
        exact hdis x (by simp) y (by simp [hy]) (by rintro rfl; exact (List.nodup_cons.1 hnd).1 hy) a ((h3 a).1 ha) hr
      · rw [List.mem_append, h3, h3']
        simp

/-- The saddle connections from a vertex that are not longer than a bound, as objects. -/
def ShortFrom (S : RSurf L K) (valid : L → Prop) (bound : K) (a : L × ℕ) (c : Saddle L K) : Prop :=
  ∃ h b k, S.IsSaddle valid a h b k ∧ h.1 ^ 2 + h.2 ^ 2 ≤ bound ∧ c = saddleOf a h b k

omit [IsStrictOrderedRing K] in
theorem shortFrom_start {bound : K} {a : L × ℕ} {c : Saddle L K} (h : S.ShortFrom valid bound a c) : c.start = a := by
  obtain ⟨_, _, _, _, _, rfl⟩ := h; rfl

/-- The list for one polygon. -/
theorem searchIn (hS : S.Closed valid) (hconv : S.AllStrict valid) {kinds : Kinds} (hk : kinds.positive = true → S.PositiveDilation valid) {bound : K}
    {fuel : ℕ} {l : L} {acc res : List (Saddle L K)} (hl : valid l) (hres : S.saddleConnectionsIn kinds bound fuel l acc = .ok res) :
    ∃ new, res = acc ++ new ∧ new.Nodup ∧ ∀ c, c ∈ new ↔ ∃ v, S.ShortFrom valid bound (l, v) c := by
  obtain ⟨p, hp, -⟩ := hS.poly l hl
  unfold saddleConnectionsIn at hres
  by_cases hb : bound ≤ 0
  · rw [if_pos hb] at hres; cases hres
  rw [if_neg hb] at hres
  simp only [hp, bind, Except.bind] at hres
  obtain ⟨new, h1, h2, h3⟩ := foldlM_collect (R := fun v c => S.ShortFrom valid bound (l, v) c) List.nodup_range
    (fun x _ y _ hxy c h1 h2 => hxy (by have := (shortFrom_start h1).symm.trans (shortFrom_start h2); injection this))
    (fun acc v hv res h => C68_search_partial hS (fun l p h1 h2 => (hconv l p h1 h2).1) hk hl hp (by simpa using hv) ((hconv l p hl hp).2 v (by simpa using hv)) h)
    hres
  refine ⟨new, h1, h2, fun c => ?_⟩
  rw [h3]
  constructor
  · rintro ⟨v, -, h⟩; exact ⟨v, h⟩
  · rintro ⟨v, h⟩
    refine ⟨v, ?_, h⟩
    obtain ⟨_, _, _, hs, _⟩ := h
    obtain ⟨q, -, hq, hv, -⟩ := C68_direction hS hs
    dsimp only at hq hv
    rw [hp] at hq; injection hq with hq; subst hq
    simpa using hv

/-- **C68.** The list of all saddle connections of a surface that are not longer than a bound, when all polygons are strictly convex: it consists of
the saddle connections of the surface whose holonomy is not longer than the bound, each of them once. -/
theorem C68_list_partial (hS : S.Closed valid) (hconv : S.AllStrict valid) {kinds : Kinds} (hk : kinds.positive = true → S.PositiveDilation valid) {bound : K}
    {fuel : ℕ} {labels : List L} (hnd : labels.Nodup) (hlab : ∀ l, l ∈ labels ↔ valid l) {res : List (Saddle L K)}
    (hres : S.saddleConnections kinds bound fuel labels = .ok res) :
    res.Nodup ∧ ∀ c, c ∈ res ↔ ∃ a h b k, S.IsSaddle valid a h b k ∧ h.1 ^ 2 + h.2 ^ 2 ≤ bound ∧ c = saddleOf a h b k := by
  unfold saddleConnections at hres
  by_cases hb : bound ≤ 0
  · rw [if_pos hb] at hres; cases hres
  rw [if_neg hb] at hres
  obtain ⟨new, h1, h2, h3⟩ := foldlM_collect (R := fun l c => ∃ v, S.ShortFrom valid bound (l, v) c) hnd
    (fun x _ y _ hxy c h1 h2 => by
      obtain ⟨v, h1⟩ := h1
      obtain ⟨w, h2⟩ := h2
      exact hxy (by have := (shortFrom_start h1).symm.trans (shortFrom_start h2); injection this))
    (fun acc l hl res h => searchIn hS hconv hk ((hlab l).1 hl) h) hres
  rw [List.nil_append] at h1
  subst h1
  refine ⟨h2, fun c => ?_⟩
  rw [h3]
  constructor
  · rintro ⟨l, -, v, h, b, k, x⟩; exact ⟨(l, v), h, b, k, x⟩
  · rintro ⟨⟨l, v⟩, h, b, k, x1, x2, x3⟩
    obtain ⟨q, hl, -⟩ := C68_direction hS x1
    exact ⟨l, (hlab l).2 hl, v, h, b, k, x1, x2, x3⟩

/-- Similarities that glue isometrically do not change the length of vectors. -/
theorem develops_isometric (hS : S.Closed valid) (hi : S.Isometric valid) {segs : List (Seg L K)} {G : Similarity K} (h : S.Develops segs G)
    (hv : ∀ s ∈ segs, valid s.stop.label) (v : Vec K) : dot (G.derivative.mulVec v) (G.derivative.mulVec v) = dot v v := by
  induction h with
  | single s => unfold Similarity.derivative Mat2.mulVec Similarity.one dot; simp
  | @cons s t rest k k' f G hk1 hk2 hf h ih =>
    obtain ⟨h1, h2⟩ := gluesTo_symm hS.bordered (hv s (by simp)) hf
    rw [mul_deriv h1.sign (develops_wf h).2, ← ih fun x hx => hv x (List.mem_cons_of_mem _ hx)]
    generalize G.derivative.mulVec v = u
    obtain ⟨p, p', hp, hp', he, g1, g2⟩ := h1.ends
    have e1 := derivative_edge h1.sign g1 g2
    have e2 := hi _ _ _ _ p p' h2 hp he h1.opp hp'
    have hn := (normSq_pos' ((hS.bordered.valid_of_polygon h2 hp).edge_ne k')).ne'
    have e3 : dot (f.inv.derivative.mulVec (p.edge k')) (f.inv.derivative.mulVec (p.edge k')) = dot (p.edge k') (p.edge k') := by
      rw [e1, e2]; unfold dot; simp
    generalize p.edge k' = w at hn e3
    generalize f.inv = g at h1 e3 ⊢
    obtain ⟨a, b, s, t, σ⟩ := g
    have hs := h1.sign
    dsimp only at hs
    subst hs
    unfold dot Similarity.derivative Mat2.mulVec at *
    dsimp only at *
    push_cast at *
    apply mul_left_cancel₀ hn
    linear_combination (u.1 * u.1 + u.2 * u.2) * e3

/-- **C68.** When edges are glued isometrically, the two holonomies of a saddle connection have the same length. -/
theorem C68_length (hS : S.Closed valid) (hi : S.Isometric valid) {a b : L × ℕ} {h k : Vec K} (hs : S.IsSaddle valid a h b k) :
    k.1 ^ 2 + k.2 ^ 2 = h.1 ^ 2 + h.2 ^ 2 := by
  obtain ⟨segs, ⟨first, last, G, hd⟩ | ⟨s, p, p', e, e', g, rfl, hal, rfl, rfl, rfl, rfl⟩⟩ := hs
  · obtain ⟨h1, -⟩ := isDiagonal_holonomy hS hd
    have wf := develops_wf hd.develops
    have h2 := develops_isometric hS hi hd.develops (fun s hs => by
      obtain ⟨p, τ, hch⟩ := hd.chord s hs
      rw [hch.label]; exact hch.valid) k
    have h3 : G.derivative.mulVec k = -h := by rw [h1, Similarity.derivative_neg, (inv_deriv wf.1 wf.2 h).2]
    rw [h3] at h2
    unfold dot at h2
    simp only [Prod.fst_neg, Prod.snd_neg] at h2
    linear_combination -h2
  · have := hi _ _ _ _ _ _ hal.valid hal.polygon hal.lt hal.opp hal.polygon'
    unfold dot at this
    linear_combination -this

/-- **C68.** When edges are glued isometrically, the list of all saddle connections contains with each saddle connection its inverse. -/
theorem C68_list_invert_partial (hS : S.Closed valid) (hi : S.Isometric valid) (hconv : S.AllStrict valid) {kinds : Kinds}
    (hk : kinds.positive = true → S.PositiveDilation valid) {bound : K} {fuel : ℕ} {labels : List L} (hnd : labels.Nodup) (hlab : ∀ l, l ∈ labels ↔ valid l)
    {res : List (Saddle L K)} (hres : S.saddleConnections kinds bound fuel labels = .ok res) {c : Saddle L K} (hc : c ∈ res) :
    ∃ c' ∈ res, c.invert S kinds = .ok c' ∧ c'.invert S kinds = .ok c := by
  obtain ⟨-, h1⟩ := C68_list_partial hS hconv hk hnd hlab hres
  obtain ⟨a, h, b, k, hs, hb, rfl⟩ := (h1 c).1 hc
  obtain ⟨i1, i2, i3⟩ := C68_invert hS kinds hs
  exact ⟨_, (h1 _).2 ⟨_, _, _, _, i2, by rw [C68_length hS hi hs]; exact hb, rfl⟩, i1, i3⟩

end RSurf
end Flat
