import Verif.Model.JInvariant
import Verif.Props.Subdivide
import Verif.Props.Delaunay
import Verif.Props.Centroid

/-!
# The J-invariant as an alternating form
-/

namespace Flat

/-- `to_V` is additive. -/
def Coords.Additive {K : Type} [Add K] (N : Coords K) : Prop := ∀ x y i, N.toV (x + y) i = N.toV x i + N.toV y i

section
variable {K : Type} [Field K]

theorem Coords.Additive.zero {N : Coords K} (h : N.Additive) (i : ℕ) : N.toV 0 i = 0 := by
  have := h 0 0 i
  rw [add_zero] at this
  linarith

theorem Coords.Additive.neg {N : Coords K} (h : N.Additive) (x : K) (i : ℕ) : N.toV (-x) i = -N.toV x i := by
  have := h x (-x) i
  rw [add_neg_cancel, h.zero] at this
  linarith

/-- The contribution of an edge from `v` to `w`. -/
def jTerm (N : Coords K) (v w : Vec K) : JInv :=
  (wedgeProduct N.degree (N.toV v.1) (N.toV w.1), wedgeProduct N.degree (N.toV v.2) (N.toV w.2),
    tensorProduct N.degree (N.toV v.1) (N.toV w.2) - tensorProduct N.degree (N.toV w.1) (N.toV v.2))

theorem jTerm_swap (N : Coords K) (v w : Vec K) : jTerm N w v = -jTerm N v w := by
  refine Prod.ext ?_ (Prod.ext ?_ ?_)
  · funext i j
    simp only [jTerm, wedgeProduct, Prod.fst_neg, Pi.neg_apply]
    split_ifs <;> ring
  · funext i j
    simp only [jTerm, wedgeProduct, Prod.fst_neg, Prod.snd_neg, Pi.neg_apply]
    split_ifs <;> ring
  · simp only [jTerm, Prod.snd_neg]
    abel

theorem jTerm_add {N : Coords K} (h : N.Additive) (u v w : Vec K) : jTerm N (u + v) w = jTerm N u w + jTerm N v w := by
  refine Prod.ext ?_ (Prod.ext ?_ ?_)
  · funext i j
    simp only [jTerm, wedgeProduct, Prod.fst_add, Pi.add_apply, h _ _ _]
    split_ifs <;> ring
  · funext i j
    simp only [jTerm, wedgeProduct, Prod.fst_add, Prod.snd_add, Pi.add_apply, h _ _ _]
    split_ifs <;> ring
  · funext i j
    simp only [jTerm, tensorProduct, Prod.fst_add, Prod.snd_add, Pi.add_apply, Pi.sub_apply, h _ _ _]
    split_ifs <;> ring

theorem jTerm_add_right {N : Coords K} (h : N.Additive) (u v w : Vec K) : jTerm N u (v + w) = jTerm N u v + jTerm N u w := by
  rw [jTerm_swap, jTerm_add h, neg_add, ← jTerm_swap, ← jTerm_swap]

theorem jTerm_self (N : Coords K) (v : Vec K) : jTerm N v v = 0 := by
  refine Prod.ext ?_ (Prod.ext ?_ ?_)
  · funext i j
    simp only [jTerm, wedgeProduct, Prod.fst_zero, Pi.zero_apply]
    split_ifs <;> ring
  · funext i j
    simp only [jTerm, wedgeProduct, Prod.fst_zero, Prod.snd_zero, Pi.zero_apply]
    split_ifs <;> ring
  · simp only [jTerm, Prod.snd_zero, sub_self]

theorem jTerm_neg {N : Coords K} (h : N.Additive) (v w : Vec K) : jTerm N (-v) w = -jTerm N v w := by
  have h0 : jTerm N (0 : Vec K) w = 0 := by
    have := jTerm_add h 0 0 w
    rw [add_zero] at this
    simpa using this
  rw [eq_neg_iff_add_eq_zero, ← jTerm_add h, neg_add_cancel, h0]

theorem jTerm_neg_right {N : Coords K} (h : N.Additive) (v w : Vec K) : jTerm N v (-w) = -jTerm N v w := by
  rw [jTerm_swap, jTerm_neg h, ← jTerm_swap]

/-- The two ways of cutting a quadrilateral along a diagonal. -/
theorem jTerm_flip {N : Coords K} (h : N.Additive) {a b c d : Vec K} (hs : a + b = -(c + d)) :
    jTerm N b c + jTerm N d a = jTerm N a b + jTerm N c d := by
  have hd : d = -(a + b + c) := by rw [hs]; abel
  rw [hd, jTerm_neg h, jTerm_neg_right h, jTerm_add h, jTerm_add h, jTerm_add_right h, jTerm_add_right h, jTerm_self, jTerm_self,
    jTerm_swap N c b, jTerm_swap N b a]
  abel

end

namespace Poly
variable {K : Type} [Field K] [LinearOrder K] [IsStrictOrderedRing K]

/-- The value computed by the loop. -/
theorem jLoop_eq (N : Coords K) (p : Poly K) : (List.range p.length).foldl (p.jStep N) 0 = cycSum (jTerm N) p := by
  rw [← sum_edges_eq]
  have key : ∀ (l : List ℕ) (J : JInv), l.foldl (p.jStep N) J = J + (l.map (fun i => jTerm N (p.vertex i) (p.vertex (i + 1)))).sum := by
    intro l
    induction l with
    | nil => intro J; simp
    | cons i l ih =>
      intro J
      rw [List.foldl_cons, ih, List.map_cons, List.sum_cons, ← add_assoc]
      congr 1
      simp only [jStep, jTerm]
      refine Prod.ext rfl (Prod.ext rfl ?_)
      exact add_sub_assoc _ _ _
  rw [key, zero_add]

theorem jInvariant_eq (N : Coords K) (hN : N.isQQ = false) {p : Poly K} (hp : p.isConvex false = true) :
    p.jInvariant N = .ok (cycSum (jTerm N) p) := by
  unfold jInvariant
  rw [if_neg (by simp [hp]), if_neg (by simp [hN]), jLoop_eq]

theorem jSum_tri {N : Coords K} (h : N.Additive) (a b c : Vec K) : cycSum (jTerm N) [a, b, c] = jTerm N (b - a) (c - b) := by
  simp only [cycSum, pathSum, List.take, List.cons_append, List.nil_append]
  rw [sub_eq_add_neg, sub_eq_add_neg, jTerm_add h, jTerm_add_right h, jTerm_add_right h, jTerm_neg h, jTerm_neg h, jTerm_neg_right h, jTerm_neg_right h,
    jTerm_self, jTerm_swap N a c]
  abel

theorem jSum_three {N : Coords K} (h : N.Additive) {p : Poly K} (h3 : p.length = 3) (d : ℕ) :
    cycSum (jTerm N) p = jTerm N (p.edge (d + 1)) (p.edge (d + 2)) := by
  obtain ⟨a, b, c, rfl⟩ : ∃ a b c, p = [a, b, c] := by
    match p, h3 with
    | [a, b, c], _ => exact ⟨a, b, c, rfl⟩
  have e0 : Poly.edge [a, b, c] 0 = b - a := rfl
  have e1 : Poly.edge [a, b, c] 1 = c - b := rfl
  have e2 : Poly.edge [a, b, c] 2 = a - c := by simp [Poly.edge, Poly.vertex]
  have hd : d % 3 = 0 ∨ d % 3 = 1 ∨ d % 3 = 2 := by omega
  rcases hd with hd | hd | hd
  · rw [Poly.edge_congr [a, b, c] (i := d + 1) (j := 1) (by simp; omega),
      Poly.edge_congr [a, b, c] (i := d + 2) (j := 2) (by simp; omega), e1, e2, ← jSum_tri h]
    exact (cycSum_rotate _ [a, b, c] 1).symm
  · rw [Poly.edge_congr [a, b, c] (i := d + 1) (j := 2) (by simp; omega),
      Poly.edge_congr [a, b, c] (i := d + 2) (j := 0) (by simp; omega), e0, e2, ← jSum_tri h]
    exact (cycSum_rotate _ [a, b, c] 2).symm
  · rw [Poly.edge_congr [a, b, c] (i := d + 1) (j := 0) (by simp; omega),
      Poly.edge_congr [a, b, c] (i := d + 2) (j := 1) (by simp; omega), e0, e1, ← jSum_tri h]

theorem jSum_translate {N : Coords K} (h : N.Additive) (p : Poly K) (u : Vec K) : cycSum (jTerm N) (p.translate u) = cycSum (jTerm N) p := by
  unfold translate
  rw [cycSum_map]
  refine cycSum_eq_of_telescope (jTerm N u) (fun a b => ?_) p
  rw [jTerm_add h, jTerm_add_right h, jTerm_add_right h, jTerm_self, jTerm_swap N u a]
  abel

/-- An additive function of the invariant. -/
theorem map_cycSum {M : Type} [AddCommGroup M] (φ : JInv → M) (h0 : φ 0 = 0) (hadd : ∀ x y, φ (x + y) = φ x + φ y) (F : Vec K → Vec K → JInv)
    (p : List (Vec K)) : φ (cycSum F p) = cycSum (fun a b => φ (F a b)) p := by
  have : ∀ l, φ (pathSum F l) = pathSum (fun a b => φ (F a b)) l := by
    intro l
    induction l with
    | nil => exact h0
    | cons a l ih =>
      cases l with
      | nil => exact h0
      | cons b l => simp only [pathSum] at ih ⊢; rw [hadd, ih]
  exact this _

theorem isConvex_three {p : Poly K} (h3 : p.length = 3) (ha : 0 < p.area) : p.isConvex false = true := by
  have hne : p ≠ [] := by rintro rfl; simp at h3
  rw [isConvex_iff p hne]
  intro i
  simp only [Bool.false_eq_true, if_false]
  have := MSurf.area_of_length_three p h3 (i + 2)
  rw [edge_congr p (show (i + 2 + 1) % p.length = i % p.length by rw [h3]; omega),
    edge_congr p (show (i + 2 + 2) % p.length = (i + 1) % p.length by rw [h3]; omega)] at this
  linarith

end Poly

namespace MSurf
variable {L K : Type} [LinearOrder L] [LabelNum L] [Field K] [LinearOrder K] [IsStrictOrderedRing K]

omit [LabelNum L] in
/-- The invariant of a surface is the sum over any list of the labels. -/
theorem jInvariant_spec {N : Coords K} (hN : N.isQQ = false) {t : MSurf L (Poly K)} (h : GInv t) (hr : RootsOK t) (ls : List L) (hn : ls.Nodup)
    (hne : ls ≠ []) (hm : ∀ l, l ∈ ls ↔ l ∈ t.polygons.keys) (f : L → Poly K) (hf : ∀ l ∈ ls, t.polygon l = .ok (f l))
    (hc : ∀ l ∈ ls, (f l).isConvex false = true) : t.jInvariant N = .ok (ls.map (fun l => cycSum (jTerm N) (f l))).sum := by
  obtain ⟨ls', h1, h2, h3⟩ := labels_spec h hr
  have hp : ls'.Perm ls := (List.perm_ext_iff_of_nodup h2 hn).2 fun l => by rw [h3, hm]
  rw [← (hp.map _).sum_eq]
  have hmem : ∀ l ∈ ls', l ∈ ls := fun l hl => hp.mem_iff.1 hl
  have hlen := hp.length_eq
  have loop : ∀ (l' : List L) (J : JInv), (∀ l ∈ l', l ∈ ls) → jLoop N t l' J = .ok (J + (l'.map (fun l => cycSum (jTerm N) (f l))).sum) := by
    intro l'
    induction l' with
    | nil => intro J _; simp [jLoop]
    | cons l l' ih =>
      intro J hl
      have hl0 := hl l (by simp)
      unfold jLoop
      simp only [hf l hl0, Poly.jInvariant_eq N hN (hc l hl0), bind, Except.bind]
      rw [show ((J.1 + (cycSum (jTerm N) (f l)).1, J.2.1 + (cycSum (jTerm N) (f l)).2.1, J.2.2 + (cycSum (jTerm N) (f l)).2.2) : JInv)
        = J + cycSum (jTerm N) (f l) from rfl, ih _ fun x hx => hl x (by simp [hx]), List.map_cons, List.sum_cons, add_assoc]
  cases ls' with
  | nil => exact absurd (List.length_eq_zero_iff.1 hlen.symm) hne
  | cons l l' =>
    have hl0 := hmem l (by simp)
    unfold jInvariant
    simp only [h1, hf l hl0, Poly.jInvariant_eq N hN (hc l hl0), bind, Except.bind]
    rw [loop l' _ fun x hx => hmem x (by simp [hx]), List.map_cons, List.sum_cons]

end MSurf
end Flat
