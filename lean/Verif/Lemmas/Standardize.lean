import Verif.Model.Canonicalize
import Verif.Props.VertexZero
import Verif.Props.PointPosition

/-!
# Standardizing the polygons of a surface
-/

namespace Flat
namespace Poly
variable {K : Type} [Field K] [LinearOrder K]

/-- A vertex comes before another one: it is lower, or at the same height and further left. -/
def Before (a b : Vec K) : Prop := a.2 < b.2 ∨ a.2 = b.2 ∧ a.1 < b.1

theorem before_trans {a b c : Vec K} (h : Before a b) (h' : Before b c) : Before a c := by
  rcases h with h | ⟨h, k⟩ <;> rcases h' with h' | ⟨h', k'⟩
  · exact Or.inl (h.trans h')
  · exact Or.inl (h' ▸ h)
  · exact Or.inl (h ▸ h')
  · exact Or.inr ⟨h.trans h', k.trans k'⟩

theorem before_total {a b : Vec K} (h : ¬ Before a b) (hne : a ≠ b) : Before b a := by
  unfold Before at *
  push Not at h
  rcases lt_trichotomy a.2 b.2 with h1 | h1 | h1
  · exact absurd h.1 (not_le.2 h1)
  · rcases lt_trichotomy a.1 b.1 with h2 | h2 | h2
    · exact absurd (h.2 h1) (not_le.2 h2)
    · exact absurd (Prod.ext h2 h1) hne
    · exact Or.inr ⟨h1.symm, h2⟩
  · exact Or.inl h1

theorem before_irrefl {a : Vec K} : ¬ Before a a := by
  rintro (h | ⟨_, h⟩) <;> exact lt_irrefl _ h

theorem foldl_best (p : Poly K) (f : ℕ → ℕ → ℕ) (hf : ∀ best v, f best v =
      if (p.vertex v).2 < (p.vertex best).2 ∨ (p.vertex v).2 = (p.vertex best).2 ∧ (p.vertex v).1 < (p.vertex best).1 then v else best)
    (vs : List ℕ) (b : ℕ) :
    (vs.foldl f b = b ∨ vs.foldl f b ∈ vs) ∧ ∀ v ∈ b :: vs, ¬ Before (p.vertex v) (p.vertex (vs.foldl f b)) := by
  induction vs generalizing b with
  | nil => exact ⟨Or.inl rfl, fun v hv => by rw [List.mem_singleton.1 hv]; exact before_irrefl⟩
  | cons a vs ih =>
    rw [List.foldl_cons, hf]
    by_cases hc : (p.vertex a).2 < (p.vertex b).2 ∨ (p.vertex a).2 = (p.vertex b).2 ∧ (p.vertex a).1 < (p.vertex b).1
    · rw [if_pos hc]
      obtain ⟨h1, h2⟩ := ih a
      refine ⟨Or.inr (by rcases h1 with h1 | h1 <;> simp [h1]), fun v hv => ?_⟩
      rcases List.mem_cons.1 hv with rfl | hv
      · exact fun h => h2 a (by simp) (before_trans hc h)
      · exact h2 v hv
    · rw [if_neg hc]
      obtain ⟨h1, h2⟩ := ih b
      refine ⟨by rcases h1 with h1 | h1 <;> simp [h1], fun v hv => ?_⟩
      rcases List.mem_cons.1 hv with rfl | hv
      · exact h2 v (by simp)
      · rcases List.mem_cons.1 hv with rfl | hv
        · intro h
          by_cases he : p.vertex v = p.vertex b
          · exact h2 b (by simp) (he ▸ h)
          · exact h2 b (by simp) (before_trans (before_total hc he) h)
        · exact h2 v (by simp [hv])

theorem bestVertex_spec {p : Poly K} (hp : 0 < p.length) :
    p.bestVertex < p.length ∧ ∀ v < p.length, ¬ Before (p.vertex v) (p.vertex p.bestVertex) := by
  obtain ⟨h1, h2⟩ := foldl_best p _ (fun _ _ => rfl) ((List.range p.length).drop 1) 0
  have hm : ∀ v, v ∈ (List.range p.length).drop 1 ↔ 1 ≤ v ∧ v < p.length := by
    intro v
    simp only [List.range_eq_range', List.drop_range', List.mem_range'_1]
    omega
  refine ⟨?_, fun v hv => h2 v ?_⟩
  · rcases h1 with h1 | h1
    · unfold bestVertex
      omega
    · exact ((hm _).1 h1).2
  · rw [List.mem_cons, hm]
    omega

variable [IsStrictOrderedRing K]

/-- The polygon starting at vertex `v`, which is put at the origin. -/
def turned (p : Poly K) (v : ℕ) : Poly K := Poly.translate (List.rotate p v) (-p.vertex v)

theorem turned_length (p : Poly K) (v : ℕ) : (p.turned v).length = p.length := by simp [turned, Poly.translate]

theorem turned_vertex {p : Poly K} (hp : 0 < p.length) (v i : ℕ) : (p.turned v).vertex i = p.vertex (i + v) - p.vertex v := by
  unfold turned
  rw [vertex_translate _ (by rw [Ne, List.rotate_eq_nil_iff]; rintro rfl; simp at hp), vertex_rotate, neg_add_eq_sub]

theorem turned_zero {p : Poly K} (h : p.vertex 0 = 0) : p.turned 0 = p := by
  unfold turned translate
  rw [h, List.rotate_zero]
  simp

theorem ext_vertex {p q : Poly K} (h : p.length = q.length) (hv : ∀ i < p.length, p.vertex i = q.vertex i) : p = q := by
  refine List.ext_getElem h fun i h1 h2 => ?_
  have := hv i h1
  rwa [vertex_of_lt p h1, vertex_of_lt q h2] at this

/-- Polygons that differ by the choice of the first vertex and a translation have the same standard form. -/
theorem turned_best {p q : Poly K} (hp : p.Valid) {v : ℕ} {c : Vec K} (hl : q.length = p.length)
    (hv : ∀ i, q.vertex i = p.vertex (i + v) + c) :
    q.turned q.bestVertex = p.turned p.bestVertex ∧ (q.bestVertex + v) % p.length = p.bestVertex := by
  have h0 : 0 < p.length := by have := hp.len3; omega
  obtain ⟨p1, p2⟩ := bestVertex_spec h0
  obtain ⟨q1, q2⟩ := bestVertex_spec (p := q) (by omega)
  have hb : ∀ a b c : Vec K, Before (a + c) (b + c) ↔ Before a b := by
    intro a b c
    simp [Before]
  have key : (q.bestVertex + v) % p.length = p.bestVertex := by
    by_contra hne
    have hlt := Nat.mod_lt (q.bestVertex + v) h0
    have hvne : p.vertex ((q.bestVertex + v) % p.length) ≠ p.vertex p.bestVertex := fun h => hne (by
      have := hp.vertex_inj h
      rwa [Nat.mod_eq_of_lt hlt, Nat.mod_eq_of_lt p1] at this)
    have h1 := before_total (p2 _ hlt) hvne
    rw [vertex_mod] at h1
    -- the vertex of `q` that is the best vertex of `p`
    set j := (p.bestVertex + p.length * v - v) % p.length with hj
    have hjl : j < q.length := by rw [hl]; exact Nat.mod_lt _ h0
    have hle : v ≤ p.length * v := Nat.le_mul_of_pos_left _ h0
    have hjv : (j + v) % p.length = p.bestVertex := by
      rw [hj, Nat.mod_add_mod]
      have : p.bestVertex + p.length * v - v + v = p.bestVertex + p.length * v := by omega
      rw [this, Nat.add_mul_mod_self_left, Nat.mod_eq_of_lt p1]
    refine q2 j hjl ?_
    rw [hv, hv, hb, ← vertex_mod p (j + v), hjv]
    exact h1
  refine ⟨ext_vertex (by rw [turned_length, turned_length, hl]) fun i _ => ?_, key⟩
  rw [turned_vertex (by omega), turned_vertex h0, hv, hv]
  have e1 : p.vertex (q.bestVertex + v) = p.vertex p.bestVertex := by rw [← vertex_mod, key]
  have e2 : p.vertex (i + q.bestVertex + v) = p.vertex (i + p.bestVertex) := by
    rw [← vertex_mod, add_assoc, Nat.add_mod, key, ← vertex_mod p (i + p.bestVertex), Nat.add_mod i p.bestVertex, Nat.mod_eq_of_lt p1]
  rw [e1, e2]
  abel

end Poly

namespace MSurf
variable {L K : Type} [LinearOrder L] [LabelNum L] [Field K] [LinearOrder K] [IsStrictOrderedRing K]

/-- The edges of the polygon `l` of `s` have been renamed, edge `e` of `t` is edge `e + w l` of `s`. -/
def Shifted (w : L → ℕ) (s t : MSurf L (Poly K)) : Prop :=
  ∀ l p e l' p' e', s.polygons.get l = some p → s.polygons.get l' = some p' → e < p.length → e' < p'.length →
    s.opp l ((e + w l) % p.length) = some (l', (((e' + w l') % p'.length : ℕ) : Int)) → t.opp l e = some (l', (e' : Int))

/-- All edges are glued. -/
def NoBorder (s : MSurf L (Poly K)) : Prop := ∀ l p e, s.polygons.get l = some p → e < p.length → ∃ c, s.opp l e = some c

omit [LabelNum L] [IsStrictOrderedRing K] in
theorem opp_target {s : MSurf L (Poly K)} (h : GInv s) {l : L} {e : ℕ} {c : L × Int} (hc : s.opp l e = some c) :
    ∃ p k, s.polygons.get c.1 = some p ∧ k < p.length ∧ c = (c.1, (k : Int)) ∧ s.opp c.1 k = some (l, (e : Int)) := by
  obtain ⟨k, hk, ho⟩ := h.inv _ _ _ _ hc
  obtain ⟨p, h1, h2⟩ := opp_isEdge h.toShape ho
  exact ⟨p, k, h1, h2, Prod.ext rfl hk, ho⟩

omit [LabelNum L] [IsStrictOrderedRing K] [LinearOrder K] in
theorem unshift {n w k : ℕ} (hk : k < n) : ((k + n * w - w) % n + w) % n = k := by
  have hle : w ≤ n * w := Nat.le_mul_of_pos_left _ (by omega)
  rw [Nat.mod_add_mod]
  have : k + n * w - w + w = k + n * w := by omega
  rw [this, Nat.add_mul_mod_self_left, Nat.mod_eq_of_lt hk]

omit [LabelNum L] [IsStrictOrderedRing K] in
theorem Shifted.noBorder {w : L → ℕ} {s t : MSurf L (Poly K)} (h : Shifted w s t) (hs : GInv s) (hb : NoBorder s)
    (hk : ∀ l, (t.polygons.get l).map List.length = (s.polygons.get l).map List.length) : NoBorder t := by
  intro l q e hq he
  have := hk l
  rw [hq] at this
  cases hp : s.polygons.get l with
  | none => rw [hp] at this; cases this
  | some p =>
    rw [hp] at this
    simp only [Option.map_some, Option.some.injEq] at this
    rw [this] at he
    obtain ⟨c, hc⟩ := hb l p _ hp (Nat.mod_lt (e + w l) (by omega))
    obtain ⟨p', k, h1, h2, h3, -⟩ := opp_target hs hc
    refine ⟨(c.1, _), h l p e c.1 p' ((k + p'.length * w c.1 - w c.1) % p'.length) hp h1 he (Nat.mod_lt _ (by omega)) ?_⟩
    rw [unshift h2, hc, h3]

omit [LabelNum L] [IsStrictOrderedRing K] [LinearOrder K] in
theorem Shifted.trans {w w' : L → ℕ} {s t u : MSurf L (Poly K)} (h : Shifted w s t) (h' : Shifted w' t u)
    (hk : ∀ l p, s.polygons.get l = some p → ∃ q, t.polygons.get l = some q ∧ q.length = p.length) :
    Shifted (fun l => w l + w' l) s u := by
  intro l p e l' p' e' hp hp' he he' ho
  obtain ⟨q, hq, hql⟩ := hk l p hp
  obtain ⟨q', hq', hql'⟩ := hk l' p' hp'
  refine h' l q e l' q' e' hq hq' (by omega) (by omega) ?_
  refine h l p _ l' p' _ hp hp' (by rw [hql]; exact Nat.mod_lt _ (by omega)) (by rw [hql']; exact Nat.mod_lt _ (by omega)) ?_
  rw [hql, hql', Nat.mod_add_mod, Nat.mod_add_mod]
  have e1 : e + w' l + w l = e + (w l + w' l) := by omega
  have e2 : e' + w' l' + w l' = e' + (w l' + w' l') := by omega
  rw [e1, e2]
  exact ho

theorem shiftOpp_shifted {s t : MSurf L (Poly K)} {l : L} {p : Poly K} {v : ℕ} (hp : s.polygons.get l = some p) (hv : v < p.length)
    (h : ∀ x e, t.opp x e = shiftOpp s l p.length v x e) : Shifted (fun x => if x = l then v else 0) s t := by
  intro x q e x' q' e' hq hq' he he' ho
  have key : s.opp x (if x = l then (v + e) % p.length else e) = some (x', ((if x' = l then (v + e') % p.length else e' : ℕ) : Int)) := by
    dsimp only at ho
    by_cases hx : x = l
    · subst hx
      rw [hp] at hq
      injection hq with hq
      subst hq
      rw [if_pos rfl] at ho ⊢
      rw [Nat.add_comm v e, ho]
      by_cases hx' : x' = x
      · subst hx'
        rw [hp] at hq'
        injection hq' with hq'
        subst hq'
        rw [if_pos rfl, if_pos rfl, Nat.add_comm v e']
      · rw [if_neg hx', if_neg hx', Nat.add_zero, Nat.mod_eq_of_lt he']
    · rw [if_neg hx] at ho ⊢
      rw [Nat.add_zero, Nat.mod_eq_of_lt he] at ho
      rw [ho]
      by_cases hx' : x' = l
      · subst hx'
        rw [hp] at hq'
        injection hq' with hq'
        subst hq'
        rw [if_pos rfl, if_pos rfl, Nat.add_comm v e']
      · rw [if_neg hx', if_neg hx', Nat.add_zero, Nat.mod_eq_of_lt he']
  have hsh : shiftEdge l p.length v (x', ((if x' = l then (v + e') % p.length else e' : ℕ) : Int)) = (x', (e' : Int)) := by
    unfold shiftEdge
    dsimp only
    by_cases hx' : x' = l
    · subst hx'
      rw [hp] at hq'
      injection hq' with hq'
      subst hq'
      rw [if_pos rfl, if_pos rfl, rot_back hv he']
    · rw [if_neg hx', if_neg hx']
  rw [h]
  unfold shiftOpp
  by_cases hx : x = l
  · subst hx
    rw [hp] at hq
    injection hq with hq
    subst hq
    rw [if_pos rfl] at key ⊢
    rw [if_pos he, key, Option.map_some, hsh]
  · rw [if_neg hx] at key ⊢
    rw [key, Option.map_some, hsh]

/-- `set_vertex_zero` for a list of polygons. -/
theorem setVertexZeros_spec (w : L → ℕ) (ls : List L) (hn : ls.Nodup) {s : MSurf L (Poly K)} (hs : Good s)
    (hw : ∀ l ∈ ls, ∃ p, s.polygons.get l = some p ∧ w l < p.length) :
    wp (setVertexZeros (ls.map fun l => (l, w l))) (fun _ t => Good t ∧
        (∀ x, t.polygons.get x = if x ∈ ls then (s.polygons.get x).map (fun p => p.turned (w x)) else s.polygons.get x) ∧
        Shifted (fun x => if x ∈ ls then w x else 0) s t) (fun _ _ => True) s := by
  induction ls generalizing s with
  | nil =>
    refine ⟨hs, fun x => by simp, ?_⟩
    intro l p e l' p' e' _ _ he he' ho
    simpa [Nat.mod_eq_of_lt he, Nat.mod_eq_of_lt he'] using ho
  | cons l ls ih =>
    obtain ⟨hl, hn⟩ := List.nodup_cons.1 hn
    obtain ⟨p, hp, hwp⟩ := hw l (by simp)
    rw [List.map_cons]
    unfold setVertexZeros
    rw [wp_bind]
    refine wp_mono (setVertexZero_spec hs l (w l) p hp hwp) ?_ (fun _ _ _ => trivial)
    rintro _ t1 ⟨g1, p1, -, o1⟩
    have hpt : ∀ x q, s.polygons.get x = some q → ∃ q', t1.polygons.get x = some q' ∧ q'.length = q.length := by
      intro x q hq
      rw [p1]
      by_cases hx : x = l
      · subst hx
        rw [hp] at hq
        injection hq with hq
        subst hq
        rw [if_pos rfl]
        exact ⟨_, rfl, Poly.turned_length p _⟩
      · rw [if_neg hx]
        exact ⟨q, hq, rfl⟩
    refine wp_mono (ih hn g1 fun x hx => ?_) ?_ (fun _ _ hh => hh)
    · obtain ⟨q, hq, hwq⟩ := hw x (List.mem_cons_of_mem _ hx)
      obtain ⟨q', h1, h2⟩ := hpt x q hq
      exact ⟨q', h1, by omega⟩
    · rintro _ t2 ⟨g2, p2, o2⟩
      refine ⟨g2, fun x => ?_, ?_⟩
      · rw [p2]
        by_cases hx : x = l
        · subst hx
          rw [if_neg hl, if_pos (by simp), p1, if_pos rfl, hp]
          rfl
        · rw [p1, if_neg hx]
          simp [hx]
      · have := (shiftOpp_shifted hp hwp o1).trans o2 hpt
        have hfun : (fun x => (if x = l then w l else 0) + (if x ∈ ls then w x else 0)) = fun x => if x ∈ l :: ls then w x else 0 := by
          funext x
          by_cases hx : x = l
          · subst hx
            simp [hl]
          · simp [hx]
        rwa [hfun] at this

end MSurf
end Flat
