import Verif.Lemmas.Strip

/-!
# Saddle connections on the side of a strip
-/

namespace Flat
variable {L K : Type} [Field K] [LinearOrder K] [IsStrictOrderedRing K]

namespace RSurf
open Poly
variable {S : RSurf L K} {valid : L → Prop}

namespace Strip
variable {l : ℤ → L} {p : ℤ → Poly K} {e e' : ℤ → ℕ} {g G : ℤ → Similarity K} {v : Vec K} {y : K}

/-- The segment runs inside of the polygon if its ends are not on a common side. -/
theorem seg_chord_of (hB : S.Bordered valid) (h : S.Strip valid l p e e' g G) (hw : Wide p e G v y) {i : ℤ} {τ : K} (τp : 0 < τ)
    (h2 : (G (i + 1)).inv.call (hit p e G v y (i + 1)) = (G (i + 1)).inv.call (hit p e G v y i) + τ • dir G v (i + 1))
    (hn : ∀ k, (p (i + 1)).left ((G (i + 1)).inv.call (hit p e G v y i)) k = 0 → (p (i + 1)).left ((G (i + 1)).inv.call (hit p e G v y (i + 1))) k ≠ 0) :
    S.IsChord valid (seg l p e G v y i) (p (i + 1)) τ where
  valid := h.valid _
  polygon := h.polygon _
  label := rfl
  vector := rfl
  ne := h.dir_ne hw _
  pos := τp
  stop := h2
  side := ⟨e' i, by
    show (G (i + 1)).inv.call (hit p e G v y i) ∈ _
    rw [h.hit_after]
    exact ⟨_, by linarith [(ratio_mem hw i).2], by linarith [(ratio_mem hw i).1], rfl⟩⟩
  side' := ⟨e (i + 1), by
    show (G (i + 1)).inv.call (hit p e G v y (i + 1)) ∈ _
    rw [h.hit_before]
    exact ⟨_, (ratio_mem hw _).1, (ratio_mem hw _).2.le, rfl⟩⟩
  interior := by
    intro r r0 r1
    refine (h.convex _).between_interior (h.valid_poly hB _) (h.hit_left' hw i) ?_ ?_ r0 r1
    · change ∀ k, 0 ≤ (p (i + 1)).left ((G (i + 1)).inv.call (hit p e G v y i) + τ • dir G v (i + 1)) k
      rw [← h2]; exact h.hit_left hw (i + 1)
    · change ∀ k, _ → (p (i + 1)).left ((G (i + 1)).inv.call (hit p e G v y i) + τ • dir G v (i + 1)) k ≠ 0
      rw [← h2]; exact hn
  position := rfl
  position' := rfl

theorem start_after (h : S.Strip valid l p e e' g G) {i : ℤ} (hi : ccw v (gateA p e G i) = y) :
    (G (i + 1)).inv.call (hit p e G v y i) = (p (i + 1)).vertex (e' i + 1) := by
  rw [hit_start hi]
  exact inv_call (h.wf _) (h.sign _) (h.gateA_next i)

theorem start_before (h : S.Strip valid l p e e' g G) {i : ℤ} (hi : ccw v (gateA p e G i) = y) :
    (G i).inv.call (hit p e G v y i) = (p i).vertex (e i) := by
  rw [hit_start hi]
  exact inv_call (h.wf _) (h.sign _) rfl

theorem seg_start_vertex (hB : S.Bordered valid) (h : S.Strip valid l p e e' g G) {i : ℤ} (hi : ccw v (gateA p e G i) = y) :
    (seg l p e G v y i).start.position = .vertex ((e' i + 1) % (p (i + 1)).length) := by
  have hv := h.valid_poly hB (i + 1)
  refine (C12_vertex hv _ _).2 ⟨Nat.mod_lt _ (by have := hv.len3; omega), ?_⟩
  rw [h.start_after hi, vertex_mod]

theorem seg_stop_vertex (hB : S.Bordered valid) (h : S.Strip valid l p e e' g G) {i : ℤ} (hi : ccw v (gateA p e G (i + 1)) = y) :
    (seg l p e G v y i).stop.position = .vertex (e (i + 1)) :=
  (C12_vertex (h.valid_poly hB (i + 1)) _ _).2 ⟨h.lt _, h.start_before hi⟩

/-- The vertices of a strictly convex polygon on the line through a side are its ends. -/
theorem strict_on {q : Poly K} (hv : q.Valid) (hc : q.Convex) (hs : ∀ v < q.length, 0 < ccw (q.edge (v + (q.length - 1))) (q.edge v)) {k j : ℕ}
    (hj : j < q.length) (h : q.left (q.vertex j) k = 0) : j = k % q.length ∨ j = (k + 1) % q.length := by
  have hk : k % q.length < q.length := Nat.mod_lt _ (by omega)
  by_contra hn
  rw [not_or] at hn
  have := strict_left hv hc hs hk hj hn.1 (by rw [Nat.mod_add_mod]; exact hn.2)
  rw [edge_mod, vertex_mod] at this
  exact this.ne' h

/-- Segments of the line, one after the other. -/
def segs (l : ℤ → L) (p : ℤ → Poly K) (e : ℤ → ℕ) (G : ℤ → Similarity K) (v : Vec K) (y : K) : ℤ → ℕ → List (Seg L K)
  | i, 0 => [seg l p e G v y i]
  | i, n + 1 => seg l p e G v y i :: segs l p e G v y (i + 1) n

theorem segs_cons (l : ℤ → L) (p : ℤ → Poly K) (e : ℤ → ℕ) (G : ℤ → Similarity K) (v : Vec K) (y : K) (i : ℤ) (n : ℕ) :
    ∃ r, segs l p e G v y i n = seg l p e G v y i :: r := by
  cases n <;> exact ⟨_, rfl⟩

theorem segs_length (l : ℤ → L) (p : ℤ → Poly K) (e : ℤ → ℕ) (G : ℤ → Similarity K) (v : Vec K) (y : K) (n : ℕ) :
    ∀ i : ℤ, (segs l p e G v y i n).length = n + 1 := by
  induction n with
  | zero => exact fun i => rfl
  | succ n ih => exact fun i => by simp [segs, ih]

theorem segs_getLast (l : ℤ → L) (p : ℤ → Poly K) (e : ℤ → ℕ) (G : ℤ → Similarity K) (v : Vec K) (y : K) (n : ℕ) :
    ∀ i : ℤ, (segs l p e G v y i n).getLast? = some (seg l p e G v y (i + n)) := by
  induction n with
  | zero => intro i; simp [segs]
  | succ n ih =>
    intro i
    obtain ⟨r, hr⟩ := segs_cons l p e G v y (i + 1) n
    have := ih (i + 1)
    unfold segs
    rw [hr] at this ⊢
    rw [List.getLast?_cons_cons, this]
    push_cast
    ring_nf

theorem segs_mem (n : ℕ) : ∀ i : ℤ, ∀ s, s ∈ segs l p e G v y i n ↔ ∃ m ≤ n, s = seg l p e G v y (i + (m : ℕ)) := by
  induction n with
  | zero => intro i s; simp [segs]
  | succ n ih =>
    intro i s
    unfold segs
    rw [List.mem_cons, ih]
    constructor
    · rintro (rfl | ⟨m, hm, rfl⟩)
      · exact ⟨0, by omega, by simp⟩
      · exact ⟨m + 1, by omega, by push_cast; ring_nf⟩
    · rintro ⟨m, hm, rfl⟩
      cases m with
      | zero => left; simp
      | succ m => exact .inr ⟨m, by omega, by push_cast; ring_nf⟩

theorem segs_chain (hS : S.Closed valid) (h : S.Strip valid l p e e' g G) (hw : Wide p e G v y) (n : ℕ) :
    ∀ i : ℤ, (∀ m : ℕ, 0 < m → m ≤ n → ccw v (gateA p e G (i + m)) < y) → (segs l p e G v y i n).IsChain S.Follows ∧
      S.Develops (segs l p e G v y i n) ((G (i + 1)).inv.mul (G (i + n + 1))) := by
  induction n with
  | zero =>
    intro i _
    refine ⟨List.isChain_singleton _, ?_⟩
    rw [Nat.cast_zero, add_zero, Similarity.C01_inv_mul _ (h.wf _)]
    exact .single _
  | succ n ih =>
    intro i hm
    have h1 := hm 1 (by omega) (by omega)
    rw [Nat.cast_one] at h1
    obtain ⟨r, hr⟩ := segs_cons l p e G v y (i + 1) n
    obtain ⟨h2, h3⟩ := ih (i + 1) (fun m m0 hmn => by
      have := hm (m + 1) (by omega) (by omega)
      push_cast at this
      rwa [show i + 1 + (m : ℤ) = i + (m + 1) by ring])
    unfold segs
    rw [hr] at h2 h3 ⊢
    refine ⟨List.IsChain.cons_cons (h.seg_follows hS hw h1) h2, ?_⟩
    have h4 := Develops.cons (h.seg_stop hS.bordered hw h1) (h.seg_start hS.bordered hw h1) (h.glues (i + 1)) h3
    have h5 : (g (i + 1)).inv.mul ((G (i + 1 + 1)).inv.mul (G (i + 1 + n + 1))) = (G (i + 1)).inv.mul (G (i + (n + 1 : ℕ) + 1)) := by
      have hgw := (h.glues (i + 1)).wf
      rw [h.step (i + 1), mul_inv_rev (h.wf _) (Similarity.C01_inv_wf _ hgw), inv_inv_call hgw]
      push_cast
      rw [show i + 1 + (n : ℤ) + 1 = i + (n + 1) + 1 by ring]
      have hi := Similarity.C01_inv_wf _ hgw
      have hGi := Similarity.C01_inv_wf _ (h.wf (i + 1))
      rw [Similarity.C01_mul_assoc (g (i + 1)) _ _ hgw hGi, ← Similarity.C01_mul_assoc _ (g (i + 1)) _ hi hgw, Similarity.C01_inv_mul _ hgw, Similarity.C01_one_mul]
    rw [h5] at h4
    exact h4

/-- From one vertex on the side of the strip to the next one runs a saddle connection. -/
theorem saddle_via (hS : S.Closed valid) (hA : S.AllStrict valid) (h : S.Strip valid l p e e' g G) (hw : Wide p e G v y) {i : ℤ} {n : ℕ}
    (hi : ccw v (gateA p e G i) = y) (hj : ccw v (gateA p e G (i + n + 1)) = y) (hm : ∀ m : ℕ, 0 < m → m ≤ n → ccw v (gateA p e G (i + m)) < y)
    (hne : gateA p e G i ≠ gateA p e G (i + n + 1)) :
    ∃ ss b k, ss.length = n + 1 ∧ S.IsSaddleVia valid ss (l (i + 1), (e' i + 1) % (p (i + 1)).length)
      ((G (i + 1)).inv.call (gateA p e G (i + n + 1)) - (G (i + 1)).inv.call (gateA p e G i)) b k := by
  have hB := hS.bordered
  by_cases hch : ∀ m : ℕ, m ≤ n → ∃ τ, S.IsChord valid (seg l p e G v y (i + m)) (p (i + m + 1)) τ
  · obtain ⟨c1, c2⟩ := h.segs_chain hS hw n i hm
    obtain ⟨r, hr⟩ := segs_cons l p e G v y i n
    refine ⟨segs l p e G v y i n, (l (i + n + 1), e (i + n + 1)), _, segs_length .., .inl ⟨seg l p e G v y i, seg l p e G v y (i + n), _, ?_, c1, ?_, segs_getLast .., rfl,
      h.seg_start_vertex hB hi, rfl, h.seg_stop_vertex hB hj, c2, ?_, rfl⟩⟩
    · intro s hs
      obtain ⟨m, hmn, rfl⟩ := (segs_mem n i s).1 hs
      obtain ⟨τ, hτ⟩ := hch m hmn
      exact ⟨_, _, hτ⟩
    · rw [hr]; rfl
    · show _ = ((G (i + 1)).inv.mul (G (i + n + 1))).call ((G (i + n + 1)).inv.call (hit p e G v y (i + n + 1))) - (G (i + 1)).inv.call (hit p e G v y i)
      have hs : (G (i + 1)).inv.sign = 1 := h.sign _
      rw [mul_call hs (h.sign _), hit_start hi, hit_start hj]
      have h1 := inv_call (Similarity.C01_inv_wf _ (h.wf (i + n + 1))) (h.sign _ : (G (i + n + 1)).inv.sign = 1) (v := gateA p e G (i + n + 1)) rfl
      rw [inv_inv_call (h.wf _)] at h1
      rw [h1]
  · have hn0 : n = 0 := by
      by_contra hn0
      refine hch fun m hmn => ?_
      have : ccw v (gateA p e G (i + m)) < y ∨ ccw v (gateA p e G (i + m + 1)) < y := by
        by_cases hm0 : m = 0
        · subst hm0
          right
          have := hm 1 (by omega) (by omega)
          simpa using this
        · exact .inl (hm m (by omega) hmn)
      obtain ⟨τ, hτ, -⟩ := h.seg_chord hB hw this
      exact ⟨τ, hτ⟩
    subst hn0
    simp only [Nat.cast_zero, add_zero, Nat.le_zero] at hch hj hne ⊢
    obtain ⟨τ, τ0, h1, h2⟩ := h.exists_step hw i
    have hτ : τ ≠ 0 := by
      rintro rfl
      rw [zero_smul, add_zero, hit_start hi, hit_start hj] at h1
      exact hne h1.symm
    obtain ⟨k, hk, hk'⟩ : ∃ k, (p (i + 1)).left ((G (i + 1)).inv.call (hit p e G v y i)) k = 0 ∧
        (p (i + 1)).left ((G (i + 1)).inv.call (hit p e G v y (i + 1))) k = 0 := by
      by_contra hcon
      push Not at hcon
      exact hch fun m hm0 => by subst hm0; exact ⟨τ, by simpa using h.seg_chord_of hB hw (lt_of_le_of_ne τ0 hτ.symm) h2 hcon⟩
    have hv := h.valid_poly hB (i + 1)
    obtain ⟨hc, hst⟩ := hA _ _ (h.valid (i + 1)) (h.polygon (i + 1))
    have hlen : 0 < (p (i + 1)).length := by have := hv.len3; omega
    rw [h.start_after hi] at hk
    rw [h.start_before hj] at hk'
    rw [← vertex_mod] at hk
    have a1 := strict_on hv hc hst (Nat.mod_lt _ hlen) hk
    have a2 := strict_on hv hc hst (h.lt _) hk'
    have a3 : (e' i + 1) % (p (i + 1)).length ≠ e (i + 1) := by
      intro h3
      rw [h.start_after hi, h.start_before hj, ← h3, vertex_mod] at h2
      have : τ • dir G v (i + 1) = 0 := by
        have := congrArg (fun x => x - (p (i + 1)).vertex (e' i + 1)) h2
        simpa using this.symm
      exact RSurf.smul_ne (lt_of_le_of_ne τ0 hτ.symm) (h.dir_ne hw _) this
    have a4 : e (i + 1) = ((e' i + 1) % (p (i + 1)).length + 1) % (p (i + 1)).length := by
      have b1 := h.edge_ne hw i
      have b2 := h.lt' i
      have b3 := h.lt (i + 1)
      rcases a1 with a1 | a1 <;> rcases a2 with a2 | a2
      · exact absurd (a1.trans a2.symm) a3
      · rw [a1, Nat.mod_add_mod]; exact a2
      · exfalso
        apply b1
        have : (e' i + 1) ≡ (k + 1) [MOD (p (i + 1)).length] := a1
        have := Nat.ModEq.add_right_cancel' 1 this
        rw [a2, ← this, Nat.mod_eq_of_lt b2]
      · exact absurd (a1.trans a2.symm) a3
    have hf : (e' i + 1) % (p (i + 1)).length < (p (i + 1)).length := Nat.mod_lt _ hlen
    obtain ⟨l', f', p', g', k1, k2, k3, k4, k5, k6, k7, k8⟩ := gluesTo_ok hS (h.valid (i + 1)) (h.polygon (i + 1)) hf
    have hh : (G (i + 1)).inv.call (gateA p e G (i + 1)) - (G (i + 1)).inv.call (gateA p e G i) = (p (i + 1)).edge ((e' i + 1) % (p (i + 1)).length) := by
      have b1 := h.start_before hj
      have b2 := h.start_after hi
      rw [hit_start hj] at b1
      rw [hit_start hi] at b2
      rw [b1, b2]
      unfold edge
      rw [vertex_mod, a4, vertex_mod]
    refine ⟨[⟨⟨l (i + 1), (p (i + 1)).vertex ((e' i + 1) % (p (i + 1)).length), (p (i + 1)).edge ((e' i + 1) % (p (i + 1)).length),
      .vertex ((e' i + 1) % (p (i + 1)).length)⟩, ⟨l', p'.vertex f', -g'.derivative.mulVec ((p (i + 1)).edge ((e' i + 1) % (p (i + 1)).length)), .vertex f'⟩⟩],
      (l', f'), p'.edge f', rfl, .inr ⟨_, p (i + 1), p', _, f', g', rfl, ?_, rfl, rfl, hh, rfl⟩⟩
    exact {
      valid := h.valid _
      polygon := h.polygon _
      lt := hf
      opp := k1.opp
      polygon' := k5
      wf := k1.wf
      sign := k1.sign
      g1 := k7
      g2 := k8
      point := rfl
      position := rfl
      parallel := by
        dsimp only
        have hne := hv.edge_ne ((e' i + 1) % (p (i + 1)).length)
        generalize (p (i + 1)).edge ((e' i + 1) % (p (i + 1)).length) = w at hne ⊢
        exact (isParallel_iff' _ _).2 ⟨by unfold ccw; ring, _root_.Flat.normSq_pos' hne⟩
      point' := rfl
      position' := rfl
      vector := rfl }

end Strip
end RSurf
end Flat
