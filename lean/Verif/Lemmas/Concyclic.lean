import Verif.Lemmas.Planar
import Verif.Lemmas.Triangles
import Verif.Props.Centroid
import Mathlib.Data.List.Triplewise
import Mathlib.Tactic.LinearCombination

/-!
# Points on a circle
-/

namespace Flat
variable {K : Type} [Field K] [LinearOrder K] [IsStrictOrderedRing K]

/-- The orientation of three points. -/
def tri (a b c : Vec K) : K := ccw (b - a) (c - a)

omit [LinearOrder K] [IsStrictOrderedRing K] in
theorem tri_rot (a b c : Vec K) : tri b c a = tri a b c := by
  simp only [tri, ccw, Prod.fst_sub, Prod.snd_sub]; ring

/-- The points of a circle, given by an equation. -/
def OnCircle (m : Vec K) (k : K) (v : Vec K) : Prop := dot v v = dot m v + k

theorem dot_self_pos {v : Vec K} (h : v ≠ 0) : 0 < dot v v := by
  unfold dot
  rcases eq_or_ne v.1 0 with h1 | h1
  · have h2 : v.2 ≠ 0 := fun h2 => h (Prod.ext h1 h2)
    rw [h1, mul_zero, zero_add]
    exact mul_self_pos.2 h2
  · exact add_pos_of_pos_of_nonneg (mul_self_pos.2 h1) (mul_self_nonneg _)

/-- For four points on a circle: if `c` is between `b` and `d` seen from `a` then the order is `a`, `b`, `c`, `d`. -/
theorem OnCircle.cyclic {m : Vec K} {k : K} {a b c d : Vec K} (ha : OnCircle m k a) (hb : OnCircle m k b) (hc : OnCircle m k c)
    (hd : OnCircle m k d) (h1 : 0 < tri a b c) (h2 : 0 < tri a c d) : 0 < tri a b d := by
  unfold OnCircle at ha hb hc hd
  have key : dot (c - a) (c - a) * tri a b d = dot (b - a) (b - a) * tri a c d + dot (d - a) (d - a) * tri a b c := by
    simp only [dot, tri, ccw, Prod.fst_sub, Prod.snd_sub] at *
    linear_combination (((c.1 - a.1) * (d.2 - a.2) - (c.2 - a.2) * (d.1 - a.1)) - ((b.1 - a.1) * (d.2 - a.2) - (b.2 - a.2) * (d.1 - a.1)) + ((b.1 - a.1) * (c.2 - a.2) - (b.2 - a.2) * (c.1 - a.1))) * ha - ((c.1 - a.1) * (d.2 - a.2) - (c.2 - a.2) * (d.1 - a.1)) * hb + ((b.1 - a.1) * (d.2 - a.2) - (b.2 - a.2) * (d.1 - a.1)) * hc - ((b.1 - a.1) * (c.2 - a.2) - (b.2 - a.2) * (c.1 - a.1)) * hd
  have hcc : 0 < dot (c - a) (c - a) := by
    have : c - a ≠ 0 := by
      intro e
      unfold tri at h2
      rw [e] at h2
      simp [ccw] at h2
    exact dot_self_pos this
  have hbb : 0 ≤ dot (b - a) (b - a) := add_nonneg (mul_self_nonneg _) (mul_self_nonneg _)
  have hdd : 0 < dot (d - a) (d - a) := by
    have : d - a ≠ 0 := by
      intro e
      unfold tri at h2
      rw [e] at h2
      simp [ccw] at h2
    exact dot_self_pos this
  have : 0 < dot (c - a) (c - a) * tri a b d := by
    rw [key]
    exact add_pos_of_nonneg_of_pos (mul_nonneg hbb h2.le) (mul_pos hdd h1)
  exact (pos_iff_pos_of_mul_pos this).1 hcc

theorem OnCircle.cyclic' {m : Vec K} {k : K} {a b c d : Vec K} (ha : OnCircle m k a) (hb : OnCircle m k b) (hc : OnCircle m k c)
    (hd : OnCircle m k d) (h1 : 0 < tri a b c) (h2 : 0 < tri a c d) : 0 < tri b c d := by
  have e1 : tri c d a = tri a c d := tri_rot a c d
  have e2 : tri c a b = tri a b c := by rw [tri_rot, tri_rot]
  have := OnCircle.cyclic hc hd ha hb (by rw [e1]; exact h2) (by rw [e2]; exact h1)
  rwa [tri_rot] at this

/-- Every triangle has a circumscribed circle. -/
theorem exists_circle {a b c : Vec K} (h : 0 < tri a b c) : ∃ m k, OnCircle m k a ∧ OnCircle m k b ∧ OnCircle m k c := by
  have hne : tri a b c ≠ 0 := ne_of_gt h
  set T := tri a b c with hT
  set B := dot b b - dot a a with hB
  set C := dot c c - dot a a with hC
  set m : Vec K := ((B * (c.2 - a.2) - C * (b.2 - a.2)) / T, (C * (b.1 - a.1) - B * (c.1 - a.1)) / T) with hm
  refine ⟨m, dot a a - dot m a, ?_, ?_, ?_⟩
  · unfold OnCircle; ring
  · unfold OnCircle
    have : dot m b - dot m a = B := by
      simp only [dot, hm]
      field_simp
      rw [hT]
      simp only [tri, ccw, Prod.fst_sub, Prod.snd_sub]
      ring
    linear_combination hB.symm - this
  · unfold OnCircle
    have : dot m c - dot m a = C := by
      simp only [dot, hm]
      field_simp
      rw [hT]
      simp only [tri, ccw, Prod.fst_sub, Prod.snd_sub]
      ring
    linear_combination hC.symm - this

/-- Opposite angles that add up to `π`. -/
theorem OnCircle.of_angles {m : Vec K} {k : K} {v w y z : Vec K} (hv : OnCircle m k v) (hw : OnCircle m k w) (hy : OnCircle m k y)
    (hvy : 0 < tri v w y) (h : ccw (v - y) (w - y) * dot (w - z) (v - z) + dot (v - y) (w - y) * ccw (w - z) (v - z) = 0) :
    OnCircle m k z := by
  unfold OnCircle at *
  have : (dot z z - dot m z - k) * tri v w y = 0 := by
    simp only [dot, tri, ccw, Prod.fst_sub, Prod.snd_sub] at *
    linear_combination h + ((w.1 - z.1) * (y.2 - z.2) - (w.2 - z.2) * (y.1 - z.1)) * hv - ((v.1 - z.1) * (y.2 - z.2) - (v.2 - z.2) * (y.1 - z.1)) * hw + ((v.1 - z.1) * (w.2 - z.2) - (v.2 - z.2) * (w.1 - z.1)) * hy
  rcases mul_eq_zero.1 this with h1 | h1
  · linear_combination h1
  · exact absurd h1 (ne_of_gt hvy)

/-- A new point between `v` and its successor. -/
theorem triplewise_insert {m : Vec K} {k : K} {A B : List (Vec K)} {v z : Vec K} (hc : ∀ x ∈ A ++ v :: B, OnCircle m k x) (hz : OnCircle m k z)
    (ht : (A ++ v :: B).Triplewise (fun a b c => 0 < tri a b c)) (hn : ∀ x ∈ A ++ B, 0 < tri v z x) :
    (A ++ v :: z :: B).Triplewise (fun a b c => 0 < tri a b c) := by
  have cA : ∀ x ∈ A, OnCircle m k x := fun x hx => hc x (List.mem_append_left _ hx)
  have cB : ∀ x ∈ B, OnCircle m k x := fun x hx => hc x (List.mem_append_right _ (List.mem_cons_of_mem _ hx))
  have cv : OnCircle m k v := hc v (by simp)
  have nA : ∀ x ∈ A, 0 < tri v z x := fun x hx => hn x (List.mem_append_left _ hx)
  have nB : ∀ x ∈ B, 0 < tri v z x := fun x hx => hn x (List.mem_append_right _ hx)
  rw [List.triplewise_append, List.triplewise_cons] at ht
  obtain ⟨h1, ⟨h2, h3⟩, h4, h5⟩ := ht
  rw [List.triplewise_append, List.triplewise_cons, List.triplewise_cons]
  refine ⟨h1, ⟨?_, ?_, h3⟩, ?_, ?_⟩
  · rw [List.pairwise_cons]
    exact ⟨nB, h2⟩
  · refine List.Pairwise.imp_of_mem ?_ h2
    intro x y hx hy hxy
    exact OnCircle.cyclic' cv hz (cB x hx) (cB y hy) (nB x hx) hxy
  · intro a ha
    have h4a := h4 a ha
    rw [List.pairwise_cons] at h4a
    rw [List.pairwise_cons, List.pairwise_cons]
    refine ⟨?_, ?_, h4a.2⟩
    · intro x hx
      rcases List.mem_cons.1 hx with rfl | hx
      · rw [← tri_rot]
        exact nA a ha
      · exact h4a.1 x hx
    · intro x hx
      have e : 0 < tri v x a := by rw [tri_rot a v x]; exact h4a.1 x hx
      have := OnCircle.cyclic' cv hz (cB x hx) (cA a ha) (nB x hx) e
      rw [tri_rot a z x] at this
      exact this
  · intro a ha
    rcases List.mem_cons.1 ha with rfl | ha
    · exact h5 _ (by simp)
    · rcases List.mem_cons.1 ha with rfl | ha
      · refine List.Pairwise.imp_of_mem ?_ (h5 v (by simp))
        intro x y hx hy hxy
        have := OnCircle.cyclic' cv hz (cA x hx) (cA y hy) (nA x hx) (by rw [← tri_rot]; exact hxy)
        rw [← tri_rot] at this
        exact this
      · exact h5 a (List.mem_cons_of_mem _ ha)

namespace Poly

/-- A polygon all of whose triples of vertices are in counterclockwise order. -/
theorem valid_of_triples {p : Poly K} (h3 : 3 ≤ p.length) (h0 : p.vertex 0 = 0) (ht : p.Triplewise (fun a b c => 0 < tri a b c)) :
    p.Valid ∧ ∀ i j : ℕ, i % p.length ≠ j % p.length → (i + 1) % p.length ≠ j % p.length → 0 < p.left (p.vertex j) i := by
  have hv : ∀ i (hi : i < p.length), p.vertex i = p[i] := by
    intro i hi
    unfold vertex
    rw [Nat.mod_eq_of_lt hi, List.getElem?_eq_getElem hi]
    rfl
  have key : ∀ i j k, i < j → j < k → k < p.length → 0 < tri (p.vertex i) (p.vertex j) (p.vertex k) := by
    intro i j k hij hjk hk
    rw [hv i (by omega), hv j (by omega), hv k hk]
    exact (List.triplewise_iff_getElem.1 ht) i j k hij hjk hk
  set n := p.length with hn
  have hn0 : 0 < n := by omega
  have left : ∀ i j : ℕ, i % n ≠ j % n → (i + 1) % n ≠ j % n → 0 < p.left (p.vertex j) i := by
    intro i j hij hij1
    have e : p.left (p.vertex j) i = tri (p.vertex (i % n)) (p.vertex ((i + 1) % n)) (p.vertex (j % n)) := by
      unfold left tri edge
      rw [hn, vertex_mod, vertex_mod, vertex_mod]
    rw [e]
    have hi := Nat.mod_lt i hn0
    have hj := Nat.mod_lt j hn0
    by_cases hw : i % n + 1 < n
    · have e1 : (i + 1) % n = i % n + 1 := by
        rw [Nat.add_mod, Nat.mod_eq_of_lt (show 1 < n by omega), Nat.mod_eq_of_lt hw]
      rw [e1] at hij1 ⊢
      rcases Nat.lt_or_ge (j % n) (i % n) with hl | hl
      · rw [tri_rot]
        exact key _ _ _ hl (by omega) hw
      · exact key _ _ _ (by omega) (by omega) hj
    · have e1 : (i + 1) % n = 0 := by
        rw [Nat.add_mod, Nat.mod_eq_of_lt (show 1 < n by omega), show i % n + 1 = n by omega, Nat.mod_self]
      rw [e1] at hij1 ⊢
      rw [← tri_rot]
      exact key _ _ _ (by omega) (by omega) hi
  have modne : ∀ i, i % n ≠ (i + 2) % n ∧ (i + 1) % n ≠ (i + 2) % n := by
    intro i
    constructor
    · intro e
      have := (Nat.modEq_iff_dvd' (show i ≤ i + 2 by omega)).1 e
      have := Nat.le_of_dvd (by omega) this
      omega
    · intro e
      have := (Nat.modEq_iff_dvd' (show i + 1 ≤ i + 2 by omega)).1 e
      have := Nat.le_of_dvd (by omega) this
      omega
  refine ⟨valid_of_turns p h3 ?_ ?_ ?_, left⟩
  · have hs := area_sum p
    have hterm : ∀ i ∈ List.range p.length, 0 ≤ ccw (p.vertex i) (p.vertex (i + 1)) := by
      intro i hi
      have hi : i < n := List.mem_range.1 hi
      rcases Nat.eq_zero_or_pos i with rfl | hp
      · rw [h0]
        simp [ccw]
      · by_cases hw : i + 1 < n
        · have := key 0 i (i + 1) hp (by omega) hw
          unfold tri at this
          rw [h0, sub_zero, sub_zero] at this
          exact this.le
        · have : p.vertex (i + 1) = p.vertex 0 := by
            rw [show i + 1 = 0 + p.length by omega, vertex_add_length]
          rw [this, h0]
          simp [ccw]
    have h1 := key 0 1 2 (by omega) (by omega) (by omega)
    unfold tri at h1
    rw [h0, sub_zero, sub_zero] at h1
    have hle : ccw (p.vertex 1) (p.vertex 2) ≤ ((List.range p.length).map (fun i => ccw (p.vertex i) (p.vertex (i + 1)))).sum := by
      refine List.single_le_sum ?_ _ (List.mem_map.2 ⟨1, List.mem_range.2 (by omega), rfl⟩)
      intro x hx
      obtain ⟨i, hi, rfl⟩ := List.mem_map.1 hx
      exact hterm i hi
    linarith
  · intro i
    have := left i (i + 2) (modne i).1 (modne i).2
    unfold Poly.left at this
    have e : p.vertex (i + 2) - p.vertex i = p.edge i + p.edge (i + 1) := by
      unfold edge
      rw [show i + 1 + 1 = i + 2 from rfl]
      abel
    rw [e] at this
    simp only [ccw, Prod.fst_add, Prod.snd_add] at this ⊢
    linarith
  · intro i j hi hj hij
    obtain ⟨a1, a2, a3⟩ := hij
    have ne1 : (i + 1) % n ≠ (j + 1) % n := by
      intro e
      apply a1
      have : i ≡ j [MOD n] := Nat.ModEq.add_right_cancel' 1 e
      exact this
    have l1 := left i j a1 a2
    have l2 := left i (j + 1) a3 ne1
    unfold Poly.left edge at l1 l2
    unfold side
    rw [Set.inter_comm]
    exact segPts_disjoint l1 l2

end Poly
end Flat
