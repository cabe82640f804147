import Verif.Lemmas.SaddleSearch

/-!
# The search for saddle connections: what the loop collects
-/

namespace Flat
variable {L K : Type} [Field K] [LinearOrder K] [IsStrictOrderedRing K]

namespace RSurf
open Poly
variable {S : RSurf L K} {valid : L → Prop}

/-- From the polygon `n` of the search a vertex `b` is seen at the position `h`: it is one of the vertices that are looked at, in the wedge and close
enough, or it is seen from the polygon on the other side of one of the edges.  `G` puts the polygon of the vertex into the plane. -/
inductive Sees (S : RSurf L K) (bound : K) : ScNode L K → Vec K → L × ℕ → Similarity K → Prop
  | vertex {n : ScNode L K} {p : Poly K} {i : ℕ} (hp : S.polygon n.label = .ok p) (hi : i ∈ n.verts) (hw : InWedge n.wedge (n.sim.call (p.vertex i)))
      (hb : (n.sim.call (p.vertex i)).1 ^ 2 + (n.sim.call (p.vertex i)).2 ^ 2 ≤ bound) : Sees S bound n (n.sim.call (p.vertex i)) (n.label, i) n.sim
  | edge {n m : ScNode L K} {p : Poly K} {i : ℕ} {h : Vec K} {b : L × ℕ} {G : Similarity K} (hp : S.polygon n.label = .ok p) (hi : i ∈ n.verts)
      (hc : S.scCross bound n.sim n.label n.wedge i (n.sim.call (p.vertex i)) (n.sim.call (p.vertex ((i + 1) % p.length))) = .ok [m])
      (hs : Sees S bound m h b G) : Sees S bound n h b G

omit [IsStrictOrderedRing K] in
theorem Sees.mono {bound : K} {n n' : ScNode L K} {h : Vec K} {b : L × ℕ} {G : Similarity K} (hs : S.Sees bound n h b G) (h1 : n'.sim = n.sim)
    (h2 : n'.label = n.label) (h3 : n'.wedge = n.wedge) (h4 : ∀ i ∈ n.verts, i ∈ n'.verts) : S.Sees bound n' h b G := by
  cases hs with
  | @vertex _ p i hp hi hw hb =>
    rw [← h1] at hw hb ⊢
    rw [← h2] at hp ⊢
    rw [← h3] at hw
    exact .vertex hp (h4 i hi) hw hb
  | @edge _ m p i _ _ _ hp hi hc h =>
    rw [← h1, ← h2, ← h3] at hc
    rw [← h2] at hp
    exact .edge hp (h4 i hi) hc h

omit [IsStrictOrderedRing K] in
/-- What is seen from a polygon is seen with the first of the vertices or with the others. -/
theorem sees_cons {bound : K} {sim : Similarity K} {label : L} {w : Vec K × Vec K} {i : ℕ} {verts : List ℕ} {p : Poly K} (hp : S.polygon label = .ok p)
    {h : Vec K} {b : L × ℕ} {G : Similarity K} :
    S.Sees bound ⟨sim, label, w, i :: verts⟩ h b G ↔
      (InWedge w (sim.call (p.vertex i)) ∧ (sim.call (p.vertex i)).1 ^ 2 + (sim.call (p.vertex i)).2 ^ 2 ≤ bound ∧ h = sim.call (p.vertex i) ∧ b = (label, i) ∧
        G = sim) ∨
      (∃ m, S.scCross bound sim label w i (sim.call (p.vertex i)) (sim.call (p.vertex ((i + 1) % p.length))) = .ok [m] ∧ S.Sees bound m h b G) ∨
      S.Sees bound ⟨sim, label, w, verts⟩ h b G := by
  constructor
  · intro hs
    cases hs with
    | @vertex _ q j hq hj hw hb =>
      dsimp only at hq hj hw hb ⊢
      rcases List.mem_cons.1 hj with rfl | hj
      · rw [hp] at hq; injection hq with hq; subst hq
        exact .inl ⟨hw, hb, rfl, rfl, rfl⟩
      · exact .inr (.inr (.vertex hq hj hw hb))
    | @edge _ m q j _ _ _ hq hj hc h =>
      dsimp only at hq hj hc
      rcases List.mem_cons.1 hj with rfl | hj
      · rw [hp] at hq; injection hq with hq; subst hq
        exact .inr (.inl ⟨m, hc, h⟩)
      · exact .inr (.inr (.edge hq hj hc h))
  · rintro (⟨h1, h2, rfl, rfl, e3⟩ | ⟨m, h1, h2⟩ | hs)
    · rw [e3]; exact .vertex (n := ⟨sim, label, w, i :: verts⟩) hp (by simp) h1 h2
    · exact .edge (n := ⟨sim, label, w, i :: verts⟩) hp (by simp) h1 h2
    · exact hs.mono rfl rfl rfl (by simp +contextual)

omit [IsStrictOrderedRing K] in
theorem not_sees_nil {bound : K} {n : ScNode L K} (hn : n.verts = []) {h : Vec K} {b : L × ℕ} {G : Similarity K} : ¬ S.Sees bound n h b G := by
  intro hs
  cases hs with
  | vertex hp hi hw hb => rw [hn] at hi; cases hi
  | edge hp hi hc h => rw [hn] at hi; cases hi

omit [IsStrictOrderedRing K] in
/-- At most one polygon is on the other side of an edge. -/
theorem scCross_list {bound : K} {sim : Similarity K} {label : L} {w : Vec K × Vec K} {i : ℕ} {x y : Vec K} {l : List (ScNode L K)}
    (h : S.scCross bound sim label w i x y = .ok l) : l = [] ∨ ∃ m, l = [m] := by
  unfold scCross at h
  split_ifs at h with h1
  · cases hx : (⟨0, bound⟩ : Circle K).lineSegmentPosition x y with
    | error e => simp [hx, bind, Except.bind] at h
    | ok r =>
      simp only [hx, bind, Except.bind] at h
      split_ifs at h with h2
      · cases h3 : S.opp! label i with
        | error e => simp [h3] at h
        | ok c =>
          cases h4 : S.edgeTransformation label i with
          | error e => simp [h3, h4] at h
          | ok g =>
            cases h5 : S.polygon c.1 with
            | error e => simp [h3, h4, h5] at h
            | ok q =>
              simp only [h3, h4, h5, pure, Except.pure] at h
              injection h with h
              exact .inr ⟨_, h.symm⟩
      · injection h with h; exact .inl h.symm
  · injection h with h; exact .inl h.symm

instance (w : Vec K × Vec K) (h : Vec K) : Decidable (InWedge w h) := by unfold InWedge; infer_instance

variable [DecidableEq L]

/-- The saddle connection that the search makes of a vertex that is seen. -/
def seenAs (start : L × ℕ) (h : Vec K) (b : L × ℕ) (G : Similarity K) : Saddle L K := saddleOf start h b (G.derivative.inverse.mulVec (-h))

omit [IsStrictOrderedRing K] in
theorem saddleConnection_given (kinds : Kinds) {a b : L × ℕ} {h k : Vec K} (hh : h ≠ 0) (limit : ℕ) :
    S.saddleConnection kinds a h (some b) (some k) (some h) (some k) false limit = .ok (saddleOf a h b k) := by
  unfold saddleConnection
  rw [if_neg hh]
  rfl

theorem scVertex_false (kinds : Kinds) (start : L × ℕ) (bound : K) (sim : Similarity K) (label : L) (w : Vec K × Vec K) (i : ℕ) (x : Vec K) :
    S.scVertex kinds start bound false sim label w i x =
      .ok (if InWedge w x ∧ x.1 ^ 2 + x.2 ^ 2 ≤ bound then [seenAs start x (label, i) sim] else []) := by
  unfold scVertex
  by_cases h : InWedge w x ∧ x.1 ^ 2 + x.2 ^ 2 ≤ bound
  · have hne := inWedge_ne h.1
    rw [if_pos ⟨h.1.1, h.1.2, h.2⟩, if_pos h]
    simp only [saddleConnection_given kinds hne, bind, Except.bind, pure, Except.pure]
    rfl
  · rw [if_neg (fun hn => h ⟨⟨hn.1, hn.2.1⟩, hn.2.2⟩), if_neg h]
    rfl

omit [IsStrictOrderedRing K] in
/-- A saddle connection for which everything is given is made of what is given, also when it is checked. -/
theorem flowSaddle_given {a b : L × ℕ} {d d' h k : Vec K} {limit : ℕ} {x : Saddle L K}
    (hx : S.flowSaddle a d (some b) (some d') (some h) (some k) limit = .ok x) : x = ⟨a, d, b, d', h, k⟩ := by
  unfold flowSaddle at hx
  cases h1 : S.polygon a.1 with
  | error e => simp [h1, bind, Except.bind] at hx
  | ok p =>
  cases h2 : S.tangentVector a.1 (p.vertex a.2) d with
  | error e => simp [h1, h2, bind, Except.bind] at hx
  | ok t =>
  cases h3 : S.trajectory t with
  | error e => simp [h1, h2, h3, bind, Except.bind] at hx
  | ok y =>
  cases h4 : S.flowForward limit y with
  | error e => simp [h1, h2, h3, h4, bind, Except.bind] at hx
  | ok z =>
  simp only [h1, h2, h3, h4, bind, Except.bind] at hx
  by_cases h5 : (!z.isSaddleConnection) = true
  · rw [if_pos h5] at hx; cases hx
  rw [if_neg h5] at hx
  cases h6 : z.segments with
  | nil => rw [h6] at hx; cases hx
  | cons s l =>
    simp only [h6, pure, Except.pure] at hx
    cases h7 : (List.getLast (s :: l) (by simp)).stop.position.getVertex with
    | error e => rw [h7] at hx; cases hx
    | ok j =>
      rw [h7] at hx
      dsimp only [Option.any_some] at hx
      by_cases h8 : decide (b ≠ ((List.getLast (s :: l) (by simp)).stop.label, j)) = true
      · rw [if_pos h8] at hx; cases hx
      rw [if_neg h8] at hx
      by_cases h9 : decide (d' ≠ unitMax (List.getLast (s :: l) (by simp)).stop.vector) = true
      · rw [if_pos h9] at hx; cases hx
      rw [if_neg h9] at hx
      · cases h10 : S.trajHolonomy a ((List.getLast (s :: l) (by simp)).stop.label, j) s (List.getLast (s :: l) (by simp)) l with
        | error e => rw [h10] at hx; cases hx
        | ok hk =>
          rw [h10] at hx
          dsimp only at hx
          by_cases h11 : decide (h ≠ hk.1) = true
          · rw [if_pos h11] at hx; cases hx
          rw [if_neg h11] at hx
          by_cases h12 : decide (k ≠ hk.2) = true
          · rw [if_pos h12] at hx; cases hx
          rw [if_neg h12] at hx
          · injection hx with hx
            simp at h8 h9 h11 h12
            rw [← hx, ← h8, ← h9, ← h11, ← h12]

theorem scVertex_check {kinds : Kinds} {start : L × ℕ} {bound : K} {check : Bool} {sim : Similarity K} {label : L} {w : Vec K × Vec K} {i : ℕ} {x : Vec K}
    {l : List (Saddle L K)} (h : S.scVertex kinds start bound check sim label w i x = .ok l) : S.scVertex kinds start bound false sim label w i x = .ok l := by
  cases check with
  | false => exact h
  | true =>
    unfold scVertex at h ⊢
    split_ifs at h ⊢ with h1
    · cases hs : S.saddleConnection kinds start x (some (label, i)) (some (sim.derivative.inverse.mulVec (-x))) (some x)
        (some (sim.derivative.inverse.mulVec (-x))) true 1000 with
      | error e => simp [hs, bind, Except.bind] at h
      | ok c =>
        simp only [hs, bind, Except.bind, pure, Except.pure] at h
        have hne : x ≠ 0 := inWedge_ne (w := w) ⟨h1.1, h1.2.1⟩
        have hc : c = ⟨start, unitMax x, (label, i), unitMax (sim.derivative.inverse.mulVec (-x)), x, sim.derivative.inverse.mulVec (-x)⟩ := by
          unfold saddleConnection at hs
          rw [if_neg hne] at hs
          exact flowSaddle_given hs
        rw [hc] at h
        simp only [saddleConnection_given kinds hne, bind, Except.bind, pure, Except.pure]
        exact h
    · exact h

/-- When the checks of the search do not fail, it returns the same as without checks. -/
theorem scLoop_check {kinds : Kinds} {start : L × ℕ} {bound : K} {check : Bool} (fuel : ℕ) (stack : List (ScNode L K)) (acc : List (Saddle L K))
    {res : List (Saddle L K)} (h : S.scLoop kinds start bound check fuel stack acc = .ok res) : S.scLoop kinds start bound false fuel stack acc = .ok res := by
  induction fuel generalizing stack acc with
  | zero =>
    cases stack with
    | nil => exact h
    | cons => unfold scLoop at h; cases h
  | succ fuel ih =>
    cases stack with
    | nil => unfold scLoop at h ⊢; exact h
    | cons n stack =>
      obtain ⟨sim, label, w, verts⟩ := n
      cases verts with
      | nil => unfold scLoop at h ⊢; exact ih _ _ h
      | cons i verts =>
        unfold scLoop at h ⊢
        cases hp : S.polygon label with
        | error e => simp [hp, bind, Except.bind] at h
        | ok p =>
        cases h1 : S.scVertex kinds start bound check sim label w i (sim.call (p.vertex i)) with
        | error e => simp [hp, h1, bind, Except.bind] at h
        | ok new =>
        cases h2 : S.scCross bound sim label w i (sim.call (p.vertex i)) (sim.call (p.vertex ((i + 1) % p.length))) with
        | error e => simp [hp, h1, h2, bind, Except.bind] at h
        | ok next =>
        simp only [hp, h1, h2, bind, Except.bind] at h
        simp only [hp, scVertex_check h1, h2, bind, Except.bind]
        exact ih _ _ h

/-- The loop collects exactly what is seen from the polygons of the stack. -/
theorem scLoop_iff {kinds : Kinds} {start : L × ℕ} {bound : K} (fuel : ℕ) (stack : List (ScNode L K)) (acc : List (Saddle L K))
    {res : List (Saddle L K)} (h : S.scLoop kinds start bound false fuel stack acc = .ok res) :
    ∃ new, res = acc ++ new ∧ ∀ c, c ∈ new ↔ ∃ n ∈ stack, ∃ h b G, S.Sees bound n h b G ∧ c = seenAs start h b G := by
  induction fuel generalizing stack acc with
  | zero =>
    cases stack with
    | nil => unfold scLoop at h; injection h with h; exact ⟨[], by simp [h], by simp⟩
    | cons => unfold scLoop at h; cases h
  | succ fuel ih =>
    cases stack with
    | nil => unfold scLoop at h; injection h with h; exact ⟨[], by simp [h], by simp⟩
    | cons n stack =>
      obtain ⟨sim, label, w, verts⟩ := n
      cases verts with
      | nil =>
        unfold scLoop at h
        obtain ⟨new, h1, h2⟩ := ih _ _ h
        refine ⟨new, h1, fun c => ?_⟩
        rw [h2]
        constructor
        · rintro ⟨n, hn, hx⟩; exact ⟨n, List.mem_cons_of_mem _ hn, hx⟩
        · rintro ⟨n, hn, h, b, G, hx, hc⟩
          rcases List.mem_cons.1 hn with rfl | hn
          · exact absurd hx (not_sees_nil rfl)
          · exact ⟨n, hn, h, b, G, hx, hc⟩
      | cons i verts =>
        unfold scLoop at h
        cases hp : S.polygon label with
        | error e => simp [hp, bind, Except.bind] at h
        | ok p =>
        cases hx : S.scCross bound sim label w i (sim.call (p.vertex i)) (sim.call (p.vertex ((i + 1) % p.length))) with
        | error e => simp [hp, scVertex_false, hx, bind, Except.bind] at h
        | ok next =>
        simp only [hp, scVertex_false, hx, bind, Except.bind] at h
        obtain ⟨new, h1, h2⟩ := ih _ _ h
        refine ⟨_, by rw [h1, List.append_assoc], fun c => ?_⟩
        rw [List.mem_append, h2]
        constructor
        · rintro (hc | ⟨n, hn, h, b, G, hs, hc⟩)
          · split_ifs at hc with hw
            · rw [List.mem_singleton] at hc
              exact ⟨_, List.mem_cons_self .., _, _, _, (sees_cons hp).2 (.inl ⟨hw.1, hw.2, rfl, rfl, rfl⟩), hc⟩
            · cases hc
          · rcases List.mem_append.1 hn with hn | hn
            · rcases scCross_list hx with rfl | ⟨m, rfl⟩
              · cases hn
              · rw [List.mem_singleton] at hn
                subst hn
                exact ⟨_, List.mem_cons_self .., _, _, _, (sees_cons hp).2 (.inr (.inl ⟨_, hx, hs⟩)), hc⟩
            · rcases List.mem_cons.1 hn with rfl | hn
              · exact ⟨_, List.mem_cons_self .., h, b, G, (sees_cons hp).2 (.inr (.inr hs)), hc⟩
              · exact ⟨n, List.mem_cons_of_mem _ hn, h, b, G, hs, hc⟩
        · rintro ⟨n, hn, h, b, G, hs, hc⟩
          rcases List.mem_cons.1 hn with rfl | hn
          · rcases (sees_cons hp).1 hs with ⟨a1, a2, rfl, rfl, rfl⟩ | ⟨m, a1, a2⟩ | hs
            · left
              rw [if_pos ⟨a1, a2⟩, List.mem_singleton]
              exact hc
            · right
              rw [hx] at a1
              injection a1 with a1
              exact ⟨m, by rw [a1]; simp, h, b, G, a2, hc⟩
            · exact .inr ⟨_, List.mem_append_right _ (List.mem_cons_self ..), h, b, G, hs, hc⟩
          · exact .inr ⟨n, List.mem_append_right _ (List.mem_cons_of_mem _ hn), h, b, G, hs, hc⟩

end RSurf
end Flat
