import Verif.Lemmas.HalfSpaceSearch

/-!
# Cyclic lists of half spaces

Helper lemmas about `Verif.Model.HyperbolicPolygon`: lists of half spaces that are sorted up to rotation, and the relative position of two half spaces.
-/

namespace Flat
namespace Hyp

variable {K F : Type} [Field K] [LinearOrder K] [IsStrictOrderedRing K] [Field F] [LinearOrder F] [IsStrictOrderedRing F]

/-- A list of half spaces that is sorted by the directions of the normals, up to rotation. -/
structure CycList (L : List (Geo K)) : Prop where
  valid : ∀ g ∈ L, g.Valid
  dist : L.Pairwise Distinct
  tri : ∀ x a b, [x, a, b].Sublist L → Tri x a b

theorem CycList.sub {L M : List (Geo K)} (h : CycList L) (hs : M.Sublist L) : CycList M :=
  ⟨fun g hg => h.valid g (hs.subset hg), h.dist.sublist hs, fun x a b ht => h.tri x a b (ht.trans hs)⟩

theorem cycList_of_sorted {L : List (Geo K)} (hv : ∀ g ∈ L, g.Valid) (hs : L.Pairwise DirLt) : CycList L := by
  refine ⟨hv, ?_, fun x a b ht => ?_⟩
  · exact hs.imp_of_mem fun {a b} ha hb h => h.distinct (hv a ha).proper (hv b hb).proper
  · have h := hs.sublist ht
    have hx := (hv x (ht.subset (by simp))).proper
    have ha := (hv a (ht.subset (by simp))).proper
    have hb := (hv b (ht.subset (by simp))).proper
    simp only [List.pairwise_cons, List.mem_cons, List.not_mem_nil, or_false, forall_eq_or_imp, forall_eq] at h
    exact DirLt.tri hx ha hb h.1.1 h.2.1

theorem CycList.swap {L M : List (Geo K)} (h : CycList (L ++ M)) : CycList (M ++ L) := by
  refine ⟨fun g hg => h.valid g (by simpa [or_comm] using hg), ?_, fun x a b ht => ?_⟩
  · have := h.dist
    rw [List.pairwise_append] at this ⊢
    exact ⟨this.2.1, this.1, fun a ha b hb => (this.2.2 b hb a ha).symm⟩
  · rw [List.sublist_append_iff] at ht
    obtain ⟨s1, s2, he, h1, h2⟩ := ht
    match s1, he with
    | [], he =>
      simp only [List.nil_append] at he; subst he
      exact h.tri x a b (h2.trans (List.sublist_append_left _ _))
    | [y], he =>
      simp only [List.cons_append, List.nil_append, List.cons.injEq] at he
      obtain ⟨rfl, rfl⟩ := he
      have := h.tri a b x (h2.append h1)
      exact this.rotate.rotate
    | [y, y'], he =>
      simp only [List.cons_append, List.nil_append, List.cons.injEq] at he
      obtain ⟨rfl, rfl, rfl⟩ := he
      have := h.tri b x a (h2.append h1)
      exact this.rotate
    | [y, y', y''], he =>
      simp only [List.cons_append, List.nil_append, List.cons.injEq] at he
      obtain ⟨rfl, rfl, rfl, -⟩ := he
      exact h.tri x a b (h1.trans (List.sublist_append_right _ _))
    | _ :: _ :: _ :: _ :: _, he => simp at he

/-- The half space at a position of a cyclic list. -/
def seqOf (L : List (Geo K)) (i : ℕ) : Geo K := (L[i % L.length]?).getD ⟨0, 1, 0⟩

omit [LinearOrder K] [IsStrictOrderedRing K] in
theorem seqOf_lt {L : List (Geo K)} {i : ℕ} (hi : i < L.length) : seqOf L i = L[i] := by
  simp [seqOf, Nat.mod_eq_of_lt hi, hi]

omit [LinearOrder K] [IsStrictOrderedRing K] in
theorem seqOf_per (L : List (Geo K)) (i : ℕ) : seqOf L (i + L.length) = seqOf L i := by
  simp [seqOf]

omit [LinearOrder K] [IsStrictOrderedRing K] in
theorem seqOf_mem {L : List (Geo K)} (h : 0 < L.length) (i : ℕ) : seqOf L i ∈ L := by
  have := Nat.mod_lt i h
  have e : seqOf L i = L[i % L.length] := by simp [seqOf, this]
  rw [e]; exact List.getElem_mem _

omit [LinearOrder K] [IsStrictOrderedRing K] in
theorem exists_seqOf {L : List (Geo K)} {g : Geo K} (h : g ∈ L) : ∃ i < L.length, seqOf L i = g := by
  obtain ⟨i, hi, rfl⟩ := List.getElem_of_mem h
  exact ⟨i, hi, seqOf_lt hi⟩

/-- The directions of a cyclic sequence of half planes. -/
structure CycDir (n : ℕ) (X : ℕ → Geo K) : Prop where
  pos : 0 < n
  per : ∀ i, X (i + n) = X i
  valid : ∀ i, (X i).Valid
  dist : ∀ i j, i < j → j < i + n → Distinct (X i) (X j)
  tri : ∀ i j k, i < j → j < k → k < i + n → Tri (X i) (X j) (X k)

theorem sublist_three {α : Type} {L : List α} {i j k : ℕ} (hij : i < j) (hjk : j < k) (hk : k < L.length) : [L[i], L[j], L[k]].Sublist L := by
  have e1 : L = L.take j ++ L.drop j := (List.take_append_drop j L).symm
  have e2 : L.drop j = L[j] :: L.drop (j + 1) := List.drop_eq_getElem_cons (by omega)
  have h1 : [L[i]].Sublist (L.take j) := by
    rw [List.singleton_sublist]
    exact List.mem_take_iff_getElem.mpr ⟨i, by simp; omega, rfl⟩
  have h2 : [L[k]].Sublist (L.drop (j + 1)) := by
    rw [List.singleton_sublist]
    exact List.mem_drop_iff_getElem.mpr ⟨k - (j + 1), by omega, by congr 1; omega⟩
  have h3 : [L[j], L[k]].Sublist (L.drop j) := by rw [e2]; exact h2.cons_cons _
  have := h1.append h3
  rwa [← e1] at this

theorem CycList.dir {L : List (Geo K)} (h : CycList L) (hL : L ≠ []) : CycDir L.length (seqOf L) := by
  have hpos : 0 < L.length := List.length_pos_iff.mpr hL
  -- move a window to the first period
  have hper : ∀ q i, seqOf L (i + q * L.length) = seqOf L i := by
    intro q
    induction q with
    | zero => simp
    | succ q ih => intro i; rw [Nat.succ_mul, ← Nat.add_assoc, seqOf_per, ih]
  have hred : ∀ i d, seqOf L (i + d) = seqOf L (i % L.length + d) := by
    intro i d
    have : i + d = i % L.length + d + (i / L.length) * L.length := by
      have := Nat.mod_add_div i L.length
      rw [Nat.mul_comm] at this
      omega
    rw [this, hper]
  have hdist : ∀ i j, i < L.length → j < L.length → i ≠ j → Distinct (seqOf L i) (seqOf L j) := by
    intro i j hi hj hne
    rw [seqOf_lt hi, seqOf_lt hj]
    rcases Nat.lt_or_gt_of_ne hne with hlt | hlt
    · exact List.pairwise_iff_getElem.mp h.dist i j hi hj hlt
    · exact (List.pairwise_iff_getElem.mp h.dist j i hj hi hlt).symm
  have hD : ∀ i j, i < L.length → i < j → j < i + L.length → Distinct (seqOf L i) (seqOf L j) := by
    intro i j hi hij hj
    by_cases hjn : j < L.length
    · exact hdist i j hi hjn (by omega)
    · have : seqOf L j = seqOf L (j - L.length) := by
        rw [← seqOf_per L (j - L.length)]; congr 1; omega
      rw [this]
      exact hdist i _ hi (by omega) (by omega)
  have htri : ∀ i j k, i < j → j < k → k < L.length → Tri (seqOf L i) (seqOf L j) (seqOf L k) := by
    intro i j k hij hjk hk
    rw [seqOf_lt (by omega), seqOf_lt (by omega), seqOf_lt hk]
    exact h.tri _ _ _ (sublist_three hij hjk hk)
  have hT : ∀ i j k, i < L.length → i < j → j < k → k < i + L.length → Tri (seqOf L i) (seqOf L j) (seqOf L k) := by
    intro i j k hi hij hjk hk
    have hsub : ∀ m, L.length ≤ m → seqOf L m = seqOf L (m - L.length) := by
      intro m hm
      rw [← seqOf_per L (m - L.length)]; congr 1; omega
    by_cases hkn : k < L.length
    · exact htri i j k hij hjk hkn
    · by_cases hjn : j < L.length
      · rw [hsub k (by omega)]
        exact (htri (k - L.length) i j (by omega) hij hjn).rotate
      · rw [hsub k (by omega), hsub j (by omega)]
        exact (htri (j - L.length) (k - L.length) i (by omega) (by omega) hi).rotate.rotate
  refine ⟨hpos, seqOf_per L, fun i => h.valid _ (seqOf_mem hpos i), fun i j hij hj => ?_, fun i j k hij hjk hk => ?_⟩
  · have e1 := hred i 0
    have e2 := hred i (j - i)
    rw [Nat.add_zero, Nat.add_zero] at e1
    rw [show i + (j - i) = j by omega] at e2
    rw [e1, e2]
    exact hD _ _ (Nat.mod_lt _ hpos) (by omega) (by omega)
  · have e1 := hred i 0
    have e2 := hred i (j - i)
    have e3 := hred i (k - i)
    rw [Nat.add_zero, Nat.add_zero] at e1
    rw [show i + (j - i) = j by omega] at e2
    rw [show i + (k - i) = k by omega] at e3
    rw [e1, e2, e3]
    exact hT _ _ _ (Nat.mod_lt _ hpos) (by omega) (by omega) (by omega)

/-! ### Configurations -/

theorem geo_eq_iff {g h : Geo K} (hg : g.Valid) (hh : h.Valid) : g.eq h true = true ↔ ∃ t, 0 < t ∧ h = g.smul t := by
  rw [C51_geodesic_eq hg hh]
  constructor
  · rintro ⟨t, -, ht, h⟩; exact ⟨t, ht rfl, h⟩
  · rintro ⟨t, ht, h⟩; exact ⟨t, ht.ne', fun _ => ht, h⟩

theorem eq_neg_iff {g h : Geo K} (hg : g.Valid) (hh : h.Valid) : g.eq h.neg true = true ↔ Opposite g h := by
  rw [geo_eq_iff hg hh.neg]
  constructor
  · rintro ⟨t, ht, h1⟩
    refine ⟨t, ht, ?_⟩
    have a := congrArg Geo.a h1
    have b := congrArg Geo.b h1
    have c := congrArg Geo.c h1
    simp only [Geo.neg, Geo.smul] at a b c
    ext <;> simp only [Geo.neg, Geo.smul] <;> linarith
  · rintro ⟨t, ht, rfl⟩
    exact ⟨t, ht, by ext <;> simp [Geo.neg, Geo.smul]⟩

theorem config_convex {g h : Geo K} (h0 : 0 < g.cross h) : g.configuration h = .ok .convex := by
  obtain ⟨v, hv, -, -⟩ := exists_inter h0.ne'
  have : -g.c * h.b - -g.b * h.c = g.cross h := by simp only [Geo.cross]; ring
  simp only [Geo.configuration, hv, this, sgn_pos h0]
  rfl

theorem config_concave {g h : Geo K} (h0 : g.cross h < 0) : g.configuration h = .ok .concave := by
  obtain ⟨v, hv, -, -⟩ := exists_inter h0.ne
  have : -g.c * h.b - -g.b * h.c = g.cross h := by simp only [Geo.cross]; ring
  simp only [Geo.configuration, hv, this, sgn_neg h0]
  rfl

theorem inter_none_of {g h : Geo K} (h0 : g.cross h = 0) : g.inter h = none := by
  simp only [Geo.inter]
  rw [if_pos (by simpa [Geo.cross] using h0)]

theorem config_parallel {g h : Geo K} (hg : g.Valid) (hh : h.Valid) (h0 : g.cross h = 0) (hd : g.ndot h < 0) :
    (Opposite g h ∧ g.configuration h = .ok .negative) ∨ (¬Opposite g h ∧ g.configuration h = .ok .antiParallel) := by
  have e : g.b * h.b + g.c * h.c = g.ndot h := rfl
  have hne : ¬g.eq h true = true := by
    rw [geo_eq_iff hg hh]
    rintro ⟨t, ht, rfl⟩
    have : g.ndot (g.smul t) = t * (g.b * g.b + g.c * g.c) := by simp only [Geo.ndot, Geo.smul]; ring
    rw [this] at hd
    nlinarith [hg.proper.norm, mul_pos ht hg.proper.norm]
  simp only [Geo.configuration, inter_none_of h0, e, sgn_neg hd, hne]
  by_cases ho : Opposite g h
  · left
    refine ⟨ho, ?_⟩
    simp [(eq_neg_iff hg hh).2 ho]
  · right
    refine ⟨ho, ?_⟩
    have : ¬g.eq h.neg true = true := fun h => ho ((eq_neg_iff hg hh).1 h)
    simp [this]

theorem config_self {g : Geo K} (hg : g.Valid) : g.configuration g = .ok .equal := by
  have h0 : g.cross g = 0 := by simp only [Geo.cross]; ring
  have hn : 0 < g.b * g.b + g.c * g.c := hg.proper.norm
  have he : g.eq g true = true := (geo_eq_iff hg hg).2 ⟨1, one_pos, by ext <;> simp [Geo.smul]⟩
  simp [Geo.configuration, inter_none_of h0, sgn_pos hn, he]

/-- Two distinct half spaces are in one of four configurations. -/
theorem config_cases {g h : Geo K} (hg : g.Valid) (hh : h.Valid) (hd : Distinct g h) :
    (0 < g.cross h ∧ g.configuration h = .ok .convex) ∨ (g.cross h < 0 ∧ g.configuration h = .ok .concave) ∨
      (g.cross h = 0 ∧ Opposite g h ∧ g.configuration h = .ok .negative) ∨ (g.cross h = 0 ∧ ¬Opposite g h ∧ g.configuration h = .ok .antiParallel) := by
  rcases lt_trichotomy (g.cross h) 0 with h0 | h0 | h0
  · exact .inr (.inl ⟨h0, config_concave h0⟩)
  · rcases config_parallel hg hh h0 (hd h0) with ⟨a, b⟩ | ⟨a, b⟩
    · exact .inr (.inr (.inl ⟨h0, a, b⟩))
    · exact .inr (.inr (.inr ⟨h0, a, b⟩))
  · exact .inl ⟨h0, config_convex h0⟩

/-- Antiparallel half planes whose boundaries share a point are opposite. -/
theorem opposite_of_point {g h : Geo K} (hg : g.Valid) (h0 : g.cross h = 0) (hd : g.ndot h < 0) {p : K × K} (h1 : g.val p = 0) (h2 : h.val p = 0) : Opposite g h := by
  obtain ⟨hb, hc⟩ := parallel_smul hg.proper h0
  have hs : g.ndot h / (g.b * g.b + g.c * g.c) < 0 := div_neg_of_neg_of_pos hd hg.proper.norm
  generalize g.ndot h / (g.b * g.b + g.c * g.c) = s at hb hc hs
  refine ⟨-s, by linarith, ?_⟩
  ext
  · simp only [Geo.smul, Geo.neg]
    simp only [Geo.val, hb, hc] at h1 h2
    linear_combination h2 - s * h1
  · simp only [Geo.smul, Geo.neg, hb]; ring
  · simp only [Geo.smul, Geo.neg, hc]; ring

end Hyp
end Flat
