import Verif.Lemmas.HalfSpaceExtend

/-!
# Dropping redundant half spaces

Helper lemmas about `Verif.Model.HyperbolicPolygon`: the loop that drops half spaces that are redundant in the Euclidean plane.
-/

namespace Flat
namespace Hyp

variable {K F : Type} [Field K] [LinearOrder K] [IsStrictOrderedRing K] [Field F] [LinearOrder F] [IsStrictOrderedRing F]

/-- The line in the middle shows up between its neighbours. -/
def LocCond (A B C : Geo K) : Prop := 0 < A.cross B → 0 < B.cross C → 0 < det3 A B C ∨ Opposite A C

theorem isRequired_spec {A B C : Geo K} (vA : A.Valid) (vB : B.Valid) (vC : C.Valid) (dAB : Distinct A B) (dBC : Distinct B C) (hAC : A = C ∨ (Distinct A C ∧ Tri A B C)) :
    ∃ r, isRequired A B C = .ok r ∧ (r = true → LocCond A B C) ∧ (r = false → 0 < A.cross B ∧ 0 < B.cross C ∧ ¬Opposite A C ∧ det3 A B C ≤ 0) := by
  have cAC : ∃ c, A.configuration C = .ok c ∧ (c = .negative ↔ Opposite A C) := by
    rcases hAC with rfl | ⟨d, -⟩
    · refine ⟨_, config_self vA, iff_of_false (by simp) ?_⟩
      rintro ⟨s, hs, h⟩
      have hb := congrArg Geo.b h
      have hc := congrArg Geo.c h
      simp only [Geo.smul, Geo.neg] at hb hc
      have e1 : (1 + s) * A.b = 0 := by linear_combination hb
      have e2 : (1 + s) * A.c = 0 := by linear_combination hc
      have : (1 + s) ≠ 0 := by positivity
      exact vA.proper.elim (· ((mul_eq_zero.mp e1).resolve_left this)) (· ((mul_eq_zero.mp e2).resolve_left this))
    · rcases config_cases vA vC d with ⟨h, e⟩ | ⟨h, e⟩ | ⟨h, ho, e⟩ | ⟨h, ho, e⟩
      · exact ⟨_, e, iff_of_false (by simp) fun ho => h.ne' ho.cross⟩
      · exact ⟨_, e, iff_of_false (by simp) fun ho => h.ne ho.cross⟩
      · exact ⟨_, e, iff_of_true rfl ho⟩
      · exact ⟨_, e, iff_of_false (by simp) ho⟩
  obtain ⟨c, hc, hco⟩ := cAC
  have cBC : ∃ c, B.configuration C = .ok c := by
    rcases config_cases vB vC dBC with ⟨_, e⟩ | ⟨_, e⟩ | ⟨_, _, e⟩ | ⟨_, _, e⟩ <;> exact ⟨_, e⟩
  rcases config_cases vA vB dAB with ⟨h1, e1⟩ | ⟨h1, e1⟩ | ⟨h1, -, e1⟩ | ⟨h1, -, e1⟩
  · rcases config_cases vB vC dBC with ⟨h2, e2⟩ | ⟨h2, e2⟩ | ⟨h2, -, e2⟩ | ⟨h2, -, e2⟩
    · obtain ⟨v, hv, vb, vc⟩ := exists_inter h2.ne'
      have hdet : A.val v * B.cross C = det3 A B C := by
        have := det3_val A B C v
        rw [vb, vc] at this
        linarith
      have hpos : (A.leftCoords v.1 v.2 && !A.containsCoords v.1 v.2) = true ↔ 0 < det3 A B C := by
        rw [Bool.and_eq_true, leftCoords_iff, Bool.not_eq_true', ← hdet, mul_pos_iff_of_pos_right h2]
        have : A.containsCoords v.1 v.2 = false ↔ A.val v ≠ 0 := by
          simp only [Geo.containsCoords, decide_eq_false_iff_not]
          rfl
        rw [this]
        exact ⟨fun h => lt_of_le_of_ne h.1 h.2.symm, fun h => ⟨h.le, h.ne'⟩⟩
      refine ⟨decide (c = .negative) || (A.leftCoords v.1 v.2 && !A.containsCoords v.1 v.2), by simp only [isRequired, e1, e2, hc, hv, bind, Except.bind, pure, Except.pure], fun hr _ _ => ?_, fun hr => ?_⟩
      · rw [Bool.or_eq_true, decide_eq_true_iff, hpos, hco] at hr
        exact hr.symm
      · rw [Bool.or_eq_false_iff, decide_eq_false_iff_not, hco] at hr
        refine ⟨h1, h2, hr.1, not_lt.mp fun h => ?_⟩
        rw [hpos.2 h] at hr
        exact absurd hr.2 (by simp)
    · have hcc : c = .equal ∨ c = .concave := by
        rcases hAC with rfl | ⟨d, ht⟩
        · rw [config_self vA] at hc; cases hc; exact .inl rfl
        · have : A.cross C < 0 := by
            by_contra hn
            push Not at hn
            have := ht.2.2 (by rw [cross_swap]; linarith)
            rw [cross_swap] at this
            linarith
          rw [config_concave this] at hc; cases hc; exact .inr rfl
      exact ⟨true, by simp only [isRequired, e1, e2, hc, bind, Except.bind, pure, Except.pure, if_pos hcc], fun _ _ h => absurd h2 h.not_gt, by simp⟩
    · exact ⟨true, by simp only [isRequired, e1, e2, hc, bind, Except.bind, pure, Except.pure], fun _ _ h => absurd h2 h.ne', by simp⟩
    · exact ⟨true, by simp only [isRequired, e1, e2, hc, bind, Except.bind, pure, Except.pure], fun _ _ h => absurd h2 h.ne', by simp⟩
  · obtain ⟨c', e2⟩ := cBC
    exact ⟨true, by simp only [isRequired, e1, e2, hc, bind, Except.bind, pure, Except.pure], fun _ h => absurd h1 h.not_gt, by simp⟩
  · obtain ⟨c', e2⟩ := cBC
    exact ⟨true, by simp only [isRequired, e1, e2, hc, bind, Except.bind, pure, Except.pure], fun _ h => absurd h1 h.ne', by simp⟩
  · obtain ⟨c', e2⟩ := cBC
    exact ⟨true, by simp only [isRequired, e1, e2, hc, bind, Except.bind, pure, Except.pure], fun _ h => absurd h1 h.ne', by simp⟩

omit [LinearOrder K] [IsStrictOrderedRing K] [LinearOrder F] [IsStrictOrderedRing F] in
theorem det3_map (f : K →+* F) (A B C : Geo K) : det3 (A.map f) (B.map f) (C.map f) = f (det3 A B C) := by
  simp only [det3, cross_map, map_add, map_mul]; rfl

/-- A half plane that is dropped contains the intersection of its neighbours. -/
theorem dropped_contains {A B C : Geo K} (vA : A.Valid) (dAC : Distinct A C) {p q : K × K} (hpq : p ≠ q)
    (hp : 0 ≤ A.val p ∧ 0 ≤ B.val p ∧ 0 ≤ C.val p) (hq : 0 ≤ A.val q ∧ 0 ≤ B.val q ∧ 0 ≤ C.val q)
    (h1 : 0 < A.cross B) (h2 : 0 < B.cross C) (ho : ¬Opposite A C) (hd : det3 A B C ≤ 0)
    {f : K →+* F} (hf : StrictMono f) {z : F × F} (hzA : 0 ≤ (A.map f).val z) (hzC : 0 ≤ (C.map f).val z) : 0 ≤ (B.map f).val z := by
  have key : ∀ r : K × K, 0 ≤ A.val r ∧ 0 ≤ B.val r ∧ 0 ≤ C.val r → 0 ≤ C.cross A → A.val r = 0 ∧ C.val r = 0 ∧ (0 < C.cross A → B.val r = 0) := by
    intro r ⟨ra, rb, rc⟩ hca
    have e := det3_val A B C r
    have t1 := mul_nonneg ra h2.le
    have t2 := mul_nonneg rb hca
    have t3 := mul_nonneg rc h1.le
    have z1 : A.val r * B.cross C = 0 := by linarith
    have z3 : C.val r * A.cross B = 0 := by linarith
    refine ⟨(mul_eq_zero.mp z1).resolve_right h2.ne', (mul_eq_zero.mp z3).resolve_right h1.ne', fun h => ?_⟩
    have z2 : B.val r * C.cross A = 0 := by linarith
    exact (mul_eq_zero.mp z2).resolve_right h.ne'
  have hca : C.cross A < 0 := by
    by_contra hn
    push Not at hn
    obtain ⟨p1, p2, p3⟩ := key p hp hn
    obtain ⟨q1, q2, q3⟩ := key q hq hn
    rcases hn.lt_or_eq with h | h
    · exact hpq (inter_eq h1.ne' p1 (p3 h) q1 (q3 h))
    · have h0 : A.cross C = 0 := by rw [cross_swap, ← h, neg_zero]
      exact ho (opposite_of_point vA h0 (dAC h0) p1 p2)
  have e := det3_val (A.map f) (B.map f) (C.map f) z
  rw [det3_map, cross_map, cross_map, cross_map] at e
  have c1 := (pos_map hf).2 h1
  have c2 := (pos_map hf).2 h2
  have c3 := (neg_map_iff hf).2 hca
  have c4 : f (det3 A B C) ≤ 0 := by rw [← map_zero f]; exact hf.monotone hd
  by_contra hn
  push Not at hn
  nlinarith [mul_nonneg hzA c2.le, mul_nonneg hzC c1.le, mul_pos_of_neg_of_neg hn c3]

/-- All but the first of the required half planes show up between their neighbours; the last one comes first. -/
def LocChain : List (Geo K) → Geo K → Prop
  | B :: A :: rest, C => LocCond A B C ∧ LocChain (A :: rest) B
  | _, _ => True

theorem tri_of_list {L : List (Geo K)} {l1 l2 : List (Geo K)} {A B : Geo K} (h : CycList L) (hL : L = l1 ++ A :: B :: l2) :
    ∀ C, (l2.head? = some C ∨ (l2 = [] ∧ l1.head? = some C)) → Distinct A C ∧ Distinct B C ∧ Tri A B C := by
  intro C hC
  subst hL
  rcases hC with hC | ⟨rfl, hC⟩
  · cases l2 with
    | nil => simp at hC
    | cons C' l2 =>
      simp only [List.head?_cons, Option.some.injEq] at hC
      subst hC
      have hs : [A, B, C'].Sublist (l1 ++ A :: B :: C' :: l2) := by
        refine List.Sublist.trans ?_ (List.sublist_append_right l1 _)
        exact ((List.nil_sublist _).cons_cons C').cons_cons B |>.cons_cons A
      have hp := h.dist.sublist hs
      simp only [List.pairwise_cons, List.mem_cons, List.not_mem_nil, or_false, forall_eq_or_imp, forall_eq] at hp
      exact ⟨hp.1.2, hp.2.1, h.tri _ _ _ hs⟩
  · cases l1 with
    | nil => simp at hC
    | cons C' l1 =>
      simp only [List.head?_cons, Option.some.injEq] at hC
      subst hC
      have hs : [C', A, B].Sublist (C' :: l1 ++ [A, B]) := by
        rw [List.cons_append]
        exact (List.sublist_append_right l1 [A, B]).cons_cons C'
      have hp := h.dist.sublist hs
      simp only [List.pairwise_cons, List.mem_cons, List.not_mem_nil, or_false, forall_eq_or_imp, forall_eq] at hp
      exact ⟨hp.1.1.symm, hp.1.2.symm, (h.tri _ _ _ hs).rotate⟩

/-- The loop that drops redundant half planes. -/
theorem dropEuclideanLoop_spec {p q : K × K} (hpq : p ≠ q) {H : Geo K} : ∀ (n : ℕ) (A : Geo K) (below pend : List (Geo K)),
    2 * (below.length + 1 + pend.length) + pend.length ≤ n → below.getLastD A = H → CycList ((A :: below).reverse ++ pend) →
    (∀ g ∈ (A :: below).reverse ++ pend, 0 ≤ g.val p ∧ 0 ≤ g.val q) → LocChain (A :: below) (pend.headD H) →
    ∃ R, dropEuclideanLoop n (A :: below) pend = .ok R ∧ R.Sublist ((A :: below).reverse ++ pend) ∧ R.head? = some H ∧ LocChain R.reverse H ∧
      ∀ (F : Type) [Field F] [LinearOrder F] [IsStrictOrderedRing F] (f : K →+* F), StrictMono f → ∀ z : F × F, InAll f R z → InAll f ((A :: below).reverse ++ pend) z := by
  intro n
  induction n with
  | zero => intro A below pend h; omega
  | succ n ih =>
    intro A below pend hn hH hcyc hin hloc
    cases pend with
    | nil =>
      refine ⟨(A :: below).reverse, rfl, by simp, ?_, ?_, fun F _ _ _ f hf z hz => by simpa using hz⟩
      · rw [List.head?_reverse, List.getLast?_cons, ← hH, List.getLastD_eq_getLast?]
      · rw [List.reverse_reverse]; exact hloc
    | cons B rest =>
      have hmemA : A ∈ (A :: below).reverse ++ B :: rest := by simp
      have hmemB : B ∈ (A :: below).reverse ++ B :: rest := by simp
      have hHmem : H ∈ A :: below := by
        rw [← hH]
        cases below with
        | nil => simp
        | cons x xs => rw [List.getLastD_cons]; exact List.mem_cons_of_mem _ (by
            have := List.getLast_mem (l := x :: xs) (by simp)
            rwa [List.getLast_eq_getLastD] at this)
      have vA := hcyc.valid A hmemA
      have vB := hcyc.valid B hmemB
      have hsplit : (A :: below).reverse ++ B :: rest = below.reverse ++ A :: B :: rest := by simp
      set C := (match rest with
        | C :: _ => C
        | [] => below.getLastD A) with hC
      have hCmem : C ∈ (A :: below).reverse ++ B :: rest := by
        cases rest with
        | nil =>
          simp only at hC
          rw [hC, hH]
          exact List.mem_append_left _ (List.mem_reverse.mpr hHmem)
        | cons C' rest => simp only at hC; rw [hC]; simp
      have vC := hcyc.valid C hCmem
      have hCnext : C = rest.headD H := by
        cases rest with
        | nil => simp only at hC; rw [hC, hH]; rfl
        | cons C' rest => rfl
      have dAB : Distinct A B := by
        have : [A, B].Sublist ((A :: below).reverse ++ B :: rest) := by
          rw [hsplit]
          exact List.Sublist.trans (((List.nil_sublist _).cons_cons B).cons_cons A) (List.sublist_append_right _ _)
        have := hcyc.dist.sublist this
        simpa using this
      have hcase : (A = C ∧ below = [] ∧ rest = []) ∨ (rest.head? = some C ∨ (rest = [] ∧ below.reverse.head? = some C)) := by
        cases rest with
        | cons C' rest => right; left; rfl
        | nil =>
          simp only at hC
          cases below with
          | nil => left; exact ⟨by rw [hC]; rfl, rfl, rfl⟩
          | cons x xs =>
            right; right
            refine ⟨rfl, ?_⟩
            rw [List.head?_reverse, hC, List.getLastD_cons, List.getLast?_cons, List.getLastD_eq_getLast?]
      have hABC : Distinct B C ∧ (A = C ∨ (Distinct A C ∧ Tri A B C)) := by
        rcases hcase with ⟨h, -, -⟩ | h
        · exact ⟨h ▸ dAB.symm, .inl h⟩
        · obtain ⟨h1, h2, h3⟩ := tri_of_list hcyc hsplit C h
          exact ⟨h2, .inr ⟨h1, h3⟩⟩
      obtain ⟨r, hr, hrt, hrf⟩ := isRequired_spec vA vB vC dAB hABC.1 hABC.2
      have hstep : dropEuclideanLoop (n + 1) (A :: below) (B :: rest) =
          (if r = true then dropEuclideanLoop n (B :: A :: below) rest
            else if below ≠ [] then dropEuclideanLoop n below (A :: rest)
            else dropEuclideanLoop n (A :: below) rest) := by
        cases rest with
        | nil => simp only at hC; rw [hC] at hr; simp only [dropEuclideanLoop, bind, Except.bind, hr]
        | cons C' rest => simp only at hC; rw [hC] at hr; simp only [dropEuclideanLoop, bind, Except.bind, hr]
      rw [hstep]
      cases r with
      | true =>
        rw [if_pos rfl]
        have hrev : (B :: A :: below).reverse ++ rest = (A :: below).reverse ++ B :: rest := by simp
        have := ih B (A :: below) rest (by simp only [List.length_cons] at hn ⊢; omega) (by rw [List.getLastD_cons]; exact hH) (by rw [hrev]; exact hcyc) (by rw [hrev]; exact hin)
          ⟨by rw [← hCnext]; exact hrt rfl, hloc⟩
        rw [hrev] at this
        exact this
      | false =>
        rw [if_neg (by simp)]
        obtain ⟨h1, h2, h3, h4⟩ := hrf rfl
        have hAC : A ≠ C := by
          rintro h
          rw [← h, cross_swap] at h2
          linarith
        have dAC : Distinct A C := (hABC.2.resolve_left hAC).1
        have hdrop : ∀ (F : Type) [Field F] [LinearOrder F] [IsStrictOrderedRing F] (f : K →+* F), StrictMono f → ∀ z : F × F, 0 ≤ (A.map f).val z → 0 ≤ (C.map f).val z → 0 ≤ (B.map f).val z := by
          intro F _ _ _ f hf z ha hc
          exact dropped_contains vA dAC hpq ⟨(hin A hmemA).1, (hin B hmemB).1, (hin C hCmem).1⟩ ⟨(hin A hmemA).2, (hin B hmemB).2, (hin C hCmem).2⟩ h1 h2 h3 h4 hf ha hc
        have hsub : (below.reverse ++ A :: rest).Sublist ((A :: below).reverse ++ B :: rest) := by
          rw [hsplit]
          exact (List.Sublist.refl _).append ((List.sublist_cons_self B rest).cons_cons A)
        have hinall : ∀ (F : Type) [Field F] [LinearOrder F] [IsStrictOrderedRing F] (f : K →+* F), StrictMono f → ∀ z : F × F, InAll f (below.reverse ++ A :: rest) z → InAll f ((A :: below).reverse ++ B :: rest) z := by
          intro F _ _ _ f hf z hz g hg
          rw [hsplit] at hg
          by_cases hgB : g = B
          · subst hgB
            refine hdrop F f hf z (hz A (by simp)) (hz C ?_)
            rcases hcase with ⟨h, -, -⟩ | h | ⟨-, h⟩
            · exact absurd h hAC
            · exact List.mem_append_right _ (List.mem_cons_of_mem _ (List.mem_of_head? h))
            · exact List.mem_append_left _ (List.mem_of_head? h)
          · refine hz g ?_
            simp only [List.mem_append, List.mem_cons] at hg ⊢
            tauto
        by_cases hb : below = []
        · subst hb
          rw [if_neg (by simp)]
          have hsub' : ([A].reverse ++ rest).Sublist ([A].reverse ++ B :: rest) := hsub
          obtain ⟨R, a1, a2, a3, a4, a5⟩ := ih A [] rest (by simp only [List.length_cons, List.length_nil] at hn ⊢; omega) hH (hcyc.sub hsub') (fun g hg => hin g (hsub'.subset hg)) trivial
          exact ⟨R, a1, a2.trans hsub', a3, a4, fun F _ _ _ f hf z hz => hinall F f hf z (a5 F f hf z hz)⟩
        · rw [if_pos hb]
          obtain ⟨A', below', rfl⟩ := List.exists_cons_of_ne_nil hb
          have hsub' : ((A' :: below').reverse ++ A :: rest).Sublist ((A :: A' :: below').reverse ++ B :: rest) := hsub
          obtain ⟨R, a1, a2, a3, a4, a5⟩ := ih A' below' (A :: rest) (by simp only [List.length_cons] at hn ⊢; omega) (by rw [← hH, List.getLastD_cons]) (hcyc.sub hsub')
            (fun g hg => hin g (hsub'.subset hg)) hloc.2
          exact ⟨R, a1, a2.trans hsub', a3, a4, fun F _ _ _ f hf z hz => hinall F f hf z (a5 F f hf z hz)⟩

theorem locChain_getElem : ∀ (T : List (Geo K)) (C : Geo K), LocChain T C → ∀ i (h : i + 1 < T.length), LocCond T[i + 1] T[i] (if i = 0 then C else T[i - 1]) := by
  intro T
  induction T with
  | nil => intro C _ i h; simp at h
  | cons B T ih =>
    intro C hT i h
    cases T with
    | nil => simp at h
    | cons A rest =>
      cases i with
      | zero => exact hT.1
      | succ i =>
        have := ih B hT.2 i (by simpa using h)
        rw [if_neg (by omega)]
        by_cases hi : i = 0
        · subst hi; simpa using this
        · rw [if_neg hi] at this
          obtain ⟨j, rfl⟩ : ∃ j, i = j + 1 := ⟨i - 1, by omega⟩
          simpa using this

/-- A segment on its boundary makes a half plane show up between its neighbours. -/
theorem locCond_of_edge {A B C : Geo K} {p q : K × K} (hpq : p ≠ q) (p0 : B.val p = 0) (q0 : B.val q = 0) (hp : 0 ≤ A.val p ∧ 0 ≤ C.val p) (hq : 0 ≤ A.val q ∧ 0 ≤ C.val q) : LocCond A B C := by
  intro h1 h2
  left
  have e := det3_val A B C p
  have e' := det3_val A B C q
  rw [p0] at e
  rw [q0] at e'
  by_contra hn
  push Not at hn
  have t1 := mul_nonneg hp.1 h2.le
  have t2 := mul_nonneg hp.2 h1.le
  have t3 := mul_nonneg hq.1 h2.le
  have t4 := mul_nonneg hq.2 h1.le
  have z1 : A.val p = 0 := (mul_eq_zero.mp (show A.val p * B.cross C = 0 by linarith)).resolve_right h2.ne'
  have z2 : A.val q = 0 := (mul_eq_zero.mp (show A.val q * B.cross C = 0 by linarith)).resolve_right h2.ne'
  exact hpq (inter_eq h1.ne' z1 p0 z2 q0)

/-- The required half planes form a locally convex cycle. -/
theorem cyc_of_chain {R : List (Geo K)} {H : Geo K} (hR : CycList R) (hh : R.head? = some H) (hloc : LocChain R.reverse H) {p q : K × K} (hpq : p ≠ q) (p0 : H.val p = 0) (q0 : H.val q = 0)
    (hin : ∀ g ∈ R, 0 ≤ g.val p ∧ 0 ≤ g.val q) : Cyc R.length (seqOf R) := by
  have hne : R ≠ [] := by rintro rfl; simp at hh
  have hd := hR.dir hne
  have hn := hd.pos
  have hH : seqOf R 0 = H := by
    rw [seqOf_lt hn]
    cases R with
    | nil => simp at hh
    | cons a R => simpa using hh
  have hmod : ∀ i d, seqOf R (i + d) = seqOf R (i % R.length + d) := by
    intro i d
    unfold seqOf
    congr 2
    rw [Nat.mod_add_mod]
  have h1 : ∀ i, i < R.length → LocCond (seqOf R i) (seqOf R (i + 1)) (seqOf R (i + 2)) := by
    intro i hi
    by_cases hlast : i + 1 < R.length
    · have := locChain_getElem R.reverse H hloc (R.length - 1 - (i + 1)) (by rw [List.length_reverse]; omega)
      simp only [List.getElem_reverse] at this
      have i1 : R.length - 1 - (R.length - 1 - (i + 1) + 1) = i := by omega
      have i2 : R.length - 1 - (R.length - 1 - (i + 1)) = i + 1 := by omega
      simp only [i1, i2] at this
      rw [seqOf_lt hi, seqOf_lt hlast]
      by_cases h2 : i + 2 < R.length
      · rw [if_neg (by omega)] at this
        have i3 : R.length - 1 - (R.length - 1 - (i + 1) - 1) = i + 2 := by omega
        simp only [i3] at this
        rw [seqOf_lt h2]
        exact this
      · rw [if_pos (by omega)] at this
        have : seqOf R (i + 2) = H := by
          rw [← hH, ← seqOf_per R 0]; congr 1; omega
        rw [this]; assumption
    · have e : seqOf R (i + 1) = H := by rw [← hH, ← seqOf_per R 0]; congr 1; omega
      rw [e]
      exact locCond_of_edge hpq p0 q0 ⟨(hin _ (seqOf_mem hn i)).1, (hin _ (seqOf_mem hn (i + 2))).1⟩ ⟨(hin _ (seqOf_mem hn i)).2, (hin _ (seqOf_mem hn (i + 2))).2⟩
  refine ⟨hd.pos, hd.per, hd.valid, hd.dist, hd.tri, fun i => ?_⟩
  have e0 := hmod i 0
  rw [Nat.add_zero, Nat.add_zero] at e0
  rw [e0, hmod i 1, hmod i 2]
  exact h1 _ (Nat.mod_lt _ hn)

theorem Cyc.shift {n : ℕ} {X : ℕ → Geo K} (h : Cyc n X) (m : ℕ) : Cyc n (fun i => X (i + m)) := by
  refine ⟨h.pos, fun i => ?_, fun i => h.valid _, fun i j a b => h.dist _ _ (by omega) (by omega), fun i j k a b c => h.tri _ _ _ (by omega) (by omega) (by omega), fun i => ?_⟩
  · show X (i + n + m) = X (i + m)
    rw [show i + n + m = i + m + n by omega, h.per]
  · have := h.loc (i + m)
    rw [show i + m + 1 = i + 1 + m by omega, show i + m + 2 = i + 2 + m by omega] at this
    exact this

theorem orderedSetRotated_eq (R : List (Geo K)) : ∃ m, orderedSetRotated halfSpaceLt R = R.rotate m := by
  cases R with
  | nil => exact ⟨0, rfl⟩
  | cons a R => exact ⟨_, rfl⟩

theorem halfSpaceLt_irrefl {g : Geo K} (hg : g.Proper) : halfSpaceLt g g = false := by
  rw [← Bool.not_eq_true, halfSpaceLt_iff hg hg]
  rintro ((⟨h1, h2⟩ | ⟨-, h⟩) | ⟨-, s, hs, hb, hc, ha⟩)
  · exact h2 h1
  · simp only [Geo.cross] at h; linarith
  · have h1 : s = 1 := by
      rcases hg with h | h
      · exact mul_right_cancel₀ h (by linarith)
      · exact mul_right_cancel₀ h (by linarith)
    rw [h1] at ha
    linarith

theorem minIndex_least {α : Type} (lt : α → α → Bool) : ∀ (es : List α) (i : ℕ) (least : α) (m : ℕ), (∀ e ∈ es, lt e least = false) → minIndex lt es i least m = m := by
  intro es
  induction es with
  | nil => intro i least m _; rfl
  | cons e es ih =>
    intro i least m h
    rw [minIndex, if_neg (by simp [h e (by simp)])]
    exact ih _ _ _ fun x hx => h x (List.mem_cons_of_mem _ hx)

theorem minIndex_append {α : Type} (lt : α → α → Bool) (f : α) (R2 : List α) (h2 : ∀ e ∈ R2, lt e f = false) : ∀ (R1 : List α) (i : ℕ) (least : α) (m : ℕ), (∀ e ∈ R1, lt e least = false) → lt f least = true →
    minIndex lt (R1 ++ f :: R2) i least m = i + R1.length := by
  intro R1
  induction R1 with
  | nil =>
    intro i least m _ hf
    rw [List.nil_append, minIndex, if_pos hf]
    exact minIndex_least lt R2 _ _ _ h2
  | cons e R1 ih =>
    intro i least m h hf
    rw [List.cons_append, minIndex, if_neg (by simp [h e (by simp)]), ih _ _ _ (fun x hx => h x (List.mem_cons_of_mem _ hx)) hf, List.length_cons]
    omega

/-- A rotated set is sorted again. -/
theorem orderedSetRotated_sorted {R1 R2 : List (Geo K)} (hp : ∀ g ∈ R2 ++ R1, g.Proper) (hs : (R2 ++ R1).Pairwise fun g h => halfSpaceLt g h = true) : orderedSetRotated halfSpaceLt (R1 ++ R2) = R2 ++ R1 := by
  have asymm : ∀ {g h : Geo K}, g.Proper → h.Proper → halfSpaceLt g h = true → halfSpaceLt h g = false := by
    intro g h pg ph h1
    by_contra h2
    rw [Bool.not_eq_false] at h2
    have := halfSpaceLt_trans pg ph pg h1 h2
    rw [halfSpaceLt_irrefl pg] at this
    cases this
  -- no entry is smaller than the first one
  have first : ∀ (e : Geo K) (es : List (Geo K)), (∀ g ∈ e :: es, g.Proper) → (e :: es).Pairwise (fun g h => halfSpaceLt g h = true) → ∀ x ∈ e :: es, halfSpaceLt x e = false := by
    intro e es hp hs x hx
    rcases List.mem_cons.mp hx with rfl | hx
    · exact halfSpaceLt_irrefl (hp x (by simp))
    · exact asymm (hp e (by simp)) (hp x (List.mem_cons_of_mem _ hx)) (List.rel_of_pairwise_cons hs hx)
  cases R1 with
  | nil =>
    cases R2 with
    | nil => rfl
    | cons f R2 =>
      rw [List.append_nil] at hp hs ⊢
      rw [List.nil_append]
      simp only [orderedSetRotated]
      rw [minIndex_least _ _ _ _ _ (first f R2 hp hs), List.rotate_zero]
  | cons e R1 =>
    have hs1 : (e :: R1).Pairwise fun g h => halfSpaceLt g h = true := (List.pairwise_append.mp hs).2.1
    have f1 := first e R1 (fun g hg => hp g (List.mem_append_right _ hg)) hs1
    cases R2 with
    | nil =>
      rw [List.append_nil, List.nil_append]
      simp only [orderedSetRotated]
      rw [minIndex_least _ _ _ _ _ f1, List.rotate_zero]
    | cons f R2 =>
      have hs2 : (f :: R2).Pairwise fun g h => halfSpaceLt g h = true := (List.pairwise_append.mp hs).1
      have f2 := first f R2 (fun g hg => hp g (List.mem_append_left _ hg)) hs2
      have hfe := (List.pairwise_append.mp hs).2.2 f (by simp) e (by simp)
      have : orderedSetRotated halfSpaceLt (e :: R1 ++ f :: R2) = (e :: R1 ++ f :: R2).rotate (minIndex halfSpaceLt (e :: R1 ++ f :: R2) 0 e 0) := rfl
      rw [this, minIndex_append _ f R2 (fun x hx => f2 x (List.mem_cons_of_mem _ hx)) (e :: R1) 0 e 0 f1 hfe, Nat.zero_add, List.rotate_append_length_eq]

/-- The half planes that are left after dropping redundant half planes. -/
theorem dropEuclidean_spec {l : List (Geo K)} (hl : CycList l) (hsort : l.Pairwise fun g h => halfSpaceLt g h = true) {g : Geo K} (hg : g ∈ l) (he : HasEdge l g) :
    ∃ R, dropEuclidean g l = .ok R ∧ R.Sublist l ∧ R ≠ [] ∧ Cyc R.length (seqOf R) ∧ (∃ x ∈ R, HasEdge l x) ∧
      ∀ (F : Type) [Field F] [LinearOrder F] [IsStrictOrderedRing F] (f : K →+* F), StrictMono f → ∀ z : F × F, InAll f R z → InAll f l z := by
  obtain ⟨p, q, hpq, p0, q0, hp, hq⟩ := he
  have vg := hl.valid g hg
  have heq : g.eq g true = true := (geo_eq_iff vg vg).2 ⟨1, one_pos, by ext <;> simp [Geo.smul]⟩
  obtain ⟨i, hi⟩ : ∃ i, l.findIdx? (fun x => x.eq g true) = some i := by
    cases hf : l.findIdx? (fun x => x.eq g true) with
    | some i => exact ⟨i, rfl⟩
    | none =>
      rw [List.findIdx?_eq_none_iff] at hf
      have := hf g hg
      rw [heq] at this
      simp at this
  obtain ⟨hil, hie, -⟩ := List.findIdx?_eq_some_iff_getElem.mp hi
  have hrot : l.drop i ++ l.take i = l[i] :: (l.drop (i + 1) ++ l.take i) := by
    rw [List.drop_eq_getElem_cons hil, List.cons_append]
  set H := l[i] with hH
  have vH := hl.valid H (List.getElem_mem hil)
  obtain ⟨t, ht, rfl⟩ := (geo_eq_iff vH vg).1 hie
  have hval : ∀ z, (H.smul t).val z = t * H.val z := fun z => by simp only [Geo.val, Geo.smul]; ring
  have p0' : H.val p = 0 := by rw [hval] at p0; exact (mul_eq_zero.mp p0).resolve_left ht.ne'
  have q0' : H.val q = 0 := by rw [hval] at q0; exact (mul_eq_zero.mp q0).resolve_left ht.ne'
  have hc : CycList (l.drop i ++ l.take i) := by
    have : CycList (l.take i ++ l.drop i) := by rw [List.take_append_drop]; exact hl
    exact this.swap
  have hmem : ∀ x, x ∈ l.drop i ++ l.take i ↔ x ∈ l := by
    intro x
    conv_rhs => rw [← List.take_append_drop i l]
    rw [List.mem_append, List.mem_append, or_comm]
  have hlen : (l.drop (i + 1) ++ l.take i).length + 1 = l.length := by
    rw [List.length_append, List.length_drop, List.length_take]; omega
  obtain ⟨R, a1, a2, a3, a4, a5⟩ := dropEuclideanLoop_spec hpq (H := H) (3 * l.length) H [] (l.drop (i + 1) ++ l.take i) (by simp only [List.length_nil]; omega) rfl
    (by simpa [hrot] using hc) (fun x hx => by
      have hx' : x ∈ l := (hmem x).1 (by rw [hrot]; simpa using hx)
      exact ⟨hp x hx', hq x hx'⟩) trivial
  have hsub : R.Sublist (l.drop i ++ l.take i) := by rw [hrot]; simpa using a2
  have hRl : ∀ x ∈ R, x ∈ l := fun x hx => (hmem x).1 (hsub.subset hx)
  have hcR : CycList R := hc.sub hsub
  have hcyc := cyc_of_chain hcR a3 a4 hpq p0' q0' (fun x hx => ⟨hp x (hRl x hx), hq x (hRl x hx)⟩)
  obtain ⟨m, hm⟩ := orderedSetRotated_eq R
  have hHR : H ∈ R := List.mem_of_head? a3
  have hsubl : (R.rotate m).Sublist l := by
    obtain ⟨R1, R2, rfl, h1, h2⟩ := List.sublist_append_iff.mp hsub
    have h12 : (R2 ++ R1).Sublist l := by
      have := h2.append h1
      rwa [List.take_append_drop] at this
    rw [← hm, orderedSetRotated_sorted (fun x hx => (hl.valid x (h12.subset hx)).proper) (hsort.sublist h12)]
    exact h12
  refine ⟨R.rotate m, ?_, hsubl, ?_, ?_, ⟨H, List.mem_rotate.mpr hHR, p, q, hpq, p0', q0', hp, hq⟩, fun F _ _ _ f hf z hz => ?_⟩
  · simp only [dropEuclidean, hi, hrot, a1, bind, Except.bind, pure, Except.pure, hm]
  · intro h
    have : H ∈ R.rotate m := List.mem_rotate.mpr hHR
    rw [h] at this
    simp at this
  · have := hcyc.shift m
    have e : (fun i => seqOf R (i + m)) = seqOf (R.rotate m) := by funext i; exact (seqOf_rotate R m i).symm
    rw [List.length_rotate, ← e]
    exact this
  · have := a5 F f hf z (fun x hx => hz x (List.mem_rotate.mpr hx))
    intro x hx
    refine this x ?_
    have := (hmem x).2 hx
    rw [hrot] at this
    simpa using this

end Hyp
end Flat
