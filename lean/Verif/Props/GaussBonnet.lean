import Verif.Props.Angles

/-!
# C64: angles, Euler characteristic and strata
-/

namespace Flat
open Real

/-- **C64.** The angles of a polygon with `n` vertices, convex or not, add up to `n / 2 - 1` full turns. -/
theorem C64_polygon {K : Type} [Field K] [LinearOrder K] [IsStrictOrderedRing K] {ι : K →+* ℝ} (hι : StrictMono ι) {p : Poly K} (h : p.Valid) :
    (p.angles ι).sum = p.length / 2 - 1 := h.angles_sum hι

namespace RSurf
variable {L K : Type} [Field K] [LinearOrder K] [IsStrictOrderedRing K] {S : RSurf L K} {valid : L → Prop} {ι : K →+* ℝ} [DecidableEq L]

/-- The number of edges on the boundary. -/
noncomputable def unglued (S : RSurf L K) (valid : L → Prop) : ℕ := Nat.card {d // S.IsDart valid d ∧ S.opp d.1 d.2 = .ok none}

open Classical in
/-- The edges at a vertex among all edges. -/
noncomputable def classOf (S : RSurf L K) (valid : L → Prop) (es : List (L × ℕ)) (d : L × ℕ) : List (L × ℕ) := es.filter (S.SameVertex valid d)

omit [DecidableEq L] in
theorem mem_classOf {es : List (L × ℕ)} (hes : ∀ d, d ∈ es ↔ S.IsDart valid d) {d : L × ℕ} (hd : S.IsDart valid d) (a : L × ℕ) :
    a ∈ S.classOf valid es d ↔ S.SameVertex valid d a := by
  unfold classOf
  rw [List.mem_filter, hes]
  simp only [decide_eq_true_eq]
  exact ⟨fun h => h.2, fun h => ⟨(sameVertex_valid h).1 hd, h⟩⟩

omit [DecidableEq L] in
theorem sum_classes {es : List (L × ℕ)} (hn : es.Nodup) (hes : ∀ d, d ∈ es ↔ S.IsDart valid d) {starts : List (L × ℕ)}
    (hst : S.IsStarts valid starts) (f : L × ℕ → ℝ) : (starts.map fun d => ((S.classOf valid es d).map f).sum).sum = (es.map f).sum := by
  have hp : (starts.flatMap (S.classOf valid es)).Perm es := by
    refine (List.perm_ext_iff_of_nodup ?_ hn).2 ?_
    · rw [List.nodup_flatMap]
      refine ⟨fun d _ => List.Nodup.filter _ hn, ?_⟩
      refine (List.pairwise_iff_forall_sublist.2 fun {a b} hab => ?_)
      have hap := List.pairwise_iff_forall_sublist.1 hst.apart hab
      have ha : a ∈ starts := hab.subset (by simp)
      have hb : b ∈ starts := hab.subset (by simp)
      intro x hx hx'
      exact hap (.trans _ _ _ ((mem_classOf hes (hst.dart a ha) x).1 hx) (.symm _ _ ((mem_classOf hes (hst.dart b hb) x).1 hx')))
    · intro a
      rw [List.mem_flatMap]
      constructor
      · rintro ⟨d, hd, ha⟩
        exact List.mem_of_mem_filter ha
      · intro ha
        obtain ⟨x, hx, hxa⟩ := hst.cover a ((hes a).1 ha)
        exact ⟨x, hx, (mem_classOf hes (hst.dart x hx) a).2 hxa⟩
  rw [← (hp.map f).sum_eq, List.map_flatMap, List.flatMap_def, List.sum_flatten, List.map_map]
  rfl

omit [DecidableEq L] in
theorem sum_corners (hι : StrictMono ι) (hS : S.Bordered valid) {ls : List L} (hls : ∀ l ∈ ls, valid l) {es : List (L × ℕ)} (he : S.edges ls = .ok es) :
    (es.map (S.cornerAngle ι)).sum = es.length / 2 - ls.length := by
  unfold edges at he
  simp only [bind, Except.bind, pure, Except.pure] at he
  cases hm : ls.mapM S.edgesAt with
  | error x => rw [hm] at he; cases he
  | ok ess =>
    rw [hm] at he
    injection he with he
    subst he
    have h2 := (mapM_ok_iff _ _ _).1 hm
    clear hm
    induction h2 with
    | nil => simp
    | @cons l es' ls ess h h2 ih =>
      have hl := hls l List.mem_cons_self
      obtain ⟨p, hp, hv⟩ := hS.poly l hl
      rw [edgesAt_ok hp] at h
      injection h with h
      subst h
      have hsum := hv.angles_sum hι
      unfold Poly.angles at hsum
      have hfun : S.cornerAngle ι ∘ (fun e => (l, e)) = p.angle ι := funext fun e => cornerAngle_eq (d := (l, e)) hp
      rw [List.flatten_cons, List.map_append, List.sum_append, ih (fun l hl => hls l (List.mem_cons_of_mem _ hl)), List.map_map, hfun, hsum]
      simp only [List.length_append, List.length_map, List.length_range, List.length_cons]
      push_cast
      ring

omit [DecidableEq L] in
theorem starts_length {starts : List (L × ℕ)} (hst : S.IsStarts valid starts) : Nat.card (Quotient (S.vertexSetoid valid)) = starts.length := by
  have : Nat.card (Fin starts.length) = Nat.card (Quotient (S.vertexSetoid valid)) := by
    refine Nat.card_eq_of_bijective (fun i => Quotient.mk (S.vertexSetoid valid) ⟨starts[i], hst.dart _ (List.getElem_mem _)⟩) ⟨?_, ?_⟩
    · intro i j hij
      have hij := Quotient.exact hij
      have hij : S.SameVertex valid starts[i] starts[j] := hij
      by_contra hne
      rcases lt_or_gt_of_ne hne with h | h
      · exact List.pairwise_iff_getElem.1 hst.apart i j i.2 j.2 h hij
      · exact List.pairwise_iff_getElem.1 hst.apart j i j.2 i.2 h (.symm _ _ hij)
    · intro q
      induction q using Quotient.inductionOn with
      | h d =>
        obtain ⟨x, hx, hxd⟩ := hst.cover d.1 d.2
        obtain ⟨i, hi, rfl⟩ := List.getElem_of_mem hx
        exact ⟨⟨i, hi⟩, Quotient.sound hxd⟩
  rw [← this, Nat.card_fin]

theorem two_weights (hS : S.Bordered valid) {es : List (L × ℕ)} (hn : es.Nodup) (hes : ∀ d, d ∈ es ↔ S.IsDart valid d) :
    2 * Nat.card (Quotient (edgeSetoid hS)) = es.length + S.selfGlued valid + S.unglued valid := by
  have h2 := edges_count hS hn hes
  have h3 := self_count hn hes
  have h4 : (es.map fun d => if S.opp d.1 d.2 = .ok none then (1 : ℤ) else 0).sum = S.unglued valid := by
    rw [← List.sum_toFinset _ hn, Finset.sum_boole]
    unfold unglued
    rw [Nat.subtype_card (es.toFinset.filter (fun d => S.opp d.1 d.2 = .ok none)) (by simp [hes])]
  have h5 : ∀ xs : List (L × ℕ), (∀ d ∈ xs, S.IsDart valid d) →
      2 * (xs.map S.weight).sum = xs.length + ((xs.map S.selfWeight).sum : ℚ) + ((xs.map fun d => if S.opp d.1 d.2 = .ok none then (1 : ℤ) else 0).sum : ℚ) := by
    intro xs
    induction xs with
    | nil => simp
    | cons d xs ih =>
      intro h
      have hd := h d List.mem_cons_self
      have := ih (fun d hd => h d (List.mem_cons_of_mem _ hd))
      simp only [List.map_cons, List.sum_cons, mul_add, this, List.length_cons]
      have hw : 2 * S.weight d = 1 + (S.selfWeight d : ℚ) + ((if S.opp d.1 d.2 = .ok none then (1 : ℤ) else 0 : ℤ) : ℚ) := by
        unfold weight selfWeight
        rcases hS.opp_ok hd with h | ⟨c, h, -⟩
        · rw [h, if_pos rfl, if_neg (by intro h; injection h with h; cases h)]; norm_num
        · rw [h]
          dsimp only
          by_cases hc : c = d
          · rw [if_pos hc, if_pos (by rw [hc]), if_neg (by intro h; injection h with h; cases h)]; norm_num
          · rw [if_neg hc, if_neg (by intro h; injection h with h; injection h with h; exact hc h),
              if_neg (by intro h; injection h with h; cases h)]; norm_num
      rw [hw]
      push_cast
      ring
  have h6 := h5 es (fun d hd => (hes d).1 hd)
  rw [h2, h3, h4] at h6
  have : ((2 * Nat.card (Quotient (edgeSetoid hS)) : ℕ) : ℚ) = ((es.length + S.selfGlued valid + S.unglued valid : ℕ) : ℚ) := by
    push_cast
    exact h6
  exact_mod_cast this

/-- The list of the angles at vertices. -/
theorem angles_ok (hι : StrictMono ι) (hS : S.Bordered valid) {es : List (L × ℕ)} (hn : es.Nodup) (hes : ∀ d, d ∈ es ↔ S.IsDart valid d)
    {starts : List (L × ℕ)} (hst : ∀ d ∈ starts, S.IsDart valid d) {fuel : ℕ} (hf : es.length < fuel) :
    S.angles ι fuel starts = .ok (starts.map fun d => ((S.classOf valid es d).map (S.cornerAngle ι)).sum) := by
  unfold angles
  rw [mapM_ok_iff]
  rw [List.forall₂_map_right_iff, List.forall₂_same]
  intro d hd
  refine C63_vertex_angle hι hS (hst d hd) (List.Nodup.filter _ hn) (mem_classOf hes (hst d hd)) (lt_of_le_of_lt (List.length_filter_le _ _) hf)

/-- **C64.** The formula of Gauss and Bonnet for a finite surface, possibly with boundary: the angles at the vertices determine the Euler
characteristic.  Midpoints of edges that are glued to themselves have an angle of one half. -/
theorem C64_gauss_bonnet (hι : StrictMono ι) (hS : S.Bordered valid) {ls : List L} (hn : ls.Nodup) (hls : ∀ l, l ∈ ls ↔ valid l)
    {es : List (L × ℕ)} (he : S.edges ls = .ok es) {fuel : ℕ} (hf : es.length < fuel) {starts : List (L × ℕ)} (hst : S.IsStarts valid starts) :
    ∃ as χ, S.angles ι fuel starts = .ok as ∧ as.length = starts.length ∧ S.eulerCharacteristic fuel ls = .ok χ ∧
      (χ : ℝ) = (as.map fun a => 1 - a).sum + S.selfGlued valid * (1 - 1 / 2) - S.unglued valid / 2 := by
  obtain ⟨es', he', hnd, hmem⟩ := edges_spec hS ls hn (fun l hl => (hls l).1 hl)
  rw [he] at he'; injection he' with he'; subst he'
  have hes : ∀ d, d ∈ es ↔ S.IsDart valid d := fun d => by
    rw [hmem]
    exact ⟨fun h => h.2, fun h => ⟨(hls _).2 h.1, h⟩⟩
  refine ⟨_, _, angles_ok hι hS hnd hes hst.dart hf, by simp, C32_euler_characteristic hS hn hls he hf, ?_⟩
  have h1 := sum_classes hnd hes hst (S.cornerAngle ι)
  rw [sum_corners hι hS (fun l hl => (hls l).1 hl) he] at h1
  have h2 : (2 * (Nat.card (Quotient (edgeSetoid hS)) : ℝ)) = es.length + S.selfGlued valid + S.unglued valid := by
    exact_mod_cast two_weights hS hnd hes
  have h3 : ∀ xs : List ℝ, (xs.map fun a => 1 - a).sum = xs.length - xs.sum := by
    intro xs
    induction xs with
    | nil => simp
    | cons x xs ih => simp only [List.map_cons, List.sum_cons, ih, List.length_cons]; push_cast; ring
  rw [h3, h1, List.length_map, starts_length hst]
  push_cast
  linarith

theorem unglued_closed (hS : S.Closed valid) : S.unglued valid = 0 := by
  unfold unglued
  have : IsEmpty {d // S.IsDart valid d ∧ S.opp d.1 d.2 = .ok none} := ⟨by
    rintro ⟨d, ⟨hl, p, hp, he⟩, hd⟩
    obtain ⟨l', e', p', h, -⟩ := hS.glue _ p _ hl hp he
    rw [hd] at h
    injection h with h
    cases h⟩
  exact Nat.card_of_isEmpty

/-- **C64.** The same for a surface without boundary: the angles determine the genus. -/
theorem C64_genus (hι : StrictMono ι) (hS : S.Closed valid) {ls : List L} (hn : ls.Nodup) (hls : ∀ l, l ∈ ls ↔ valid l)
    {es : List (L × ℕ)} (he : S.edges ls = .ok es) {fuel : ℕ} (hf : es.length < fuel) {starts : List (L × ℕ)} (hst : S.IsStarts valid starts) :
    ∃ (as : List ℝ) (g : ℤ), S.angles ι fuel starts = .ok as ∧ S.genus fuel ls = .ok g ∧
      (as.map fun a => a - 1).sum + S.selfGlued valid * (1 / 2 - 1) = 2 * (g : ℝ) - 2 := by
  obtain ⟨as, χ, h1, -, h2, h3⟩ := C64_gauss_bonnet hι hS.bordered hn hls he hf hst
  obtain ⟨χ', g, h4, h5, h6⟩ := C32_even hS hn hls he hf
  rw [h2] at h4; injection h4 with h4; subst h4
  refine ⟨as, g, h1, h6, ?_⟩
  rw [unglued_closed hS, h5] at h3
  push_cast at h3
  have : ∀ xs : List ℝ, (xs.map fun a => a - 1).sum = -(xs.map fun a => 1 - a).sum := by
    intro xs
    induction xs with
    | nil => simp
    | cons x xs ih => simp only [List.map_cons, List.sum_cons, ih]; ring
  rw [this]
  linarith

theorem forall₂_mem {α β : Type} {R : α → β → Prop} {l : List α} {l' : List β} (h : List.Forall₂ R l l') {b : β} (hb : b ∈ l') : ∃ a ∈ l, R a b := by
  induction h with
  | nil => cases hb
  | cons h1 _ ih =>
    rcases List.mem_cons.1 hb with rfl | hb
    · exact ⟨_, List.mem_cons_self, h1⟩
    · obtain ⟨a, ha, h⟩ := ih hb
      exact ⟨a, List.mem_cons_of_mem _ ha, h⟩

/-! ## Strata -/

theorem toZZ_ok {a : ℝ} {k : ℤ} (h : a = k) : toZZ a = .ok k := by
  subst h
  unfold toZZ
  rw [Int.floor_intCast, if_pos rfl]

theorem mapM_toZZ {f : ℝ → ℝ} : ∀ (as : List ℝ), (∀ a ∈ as, ∃ k : ℤ, f a = k) →
    ∃ ks, as.mapM (fun a => toZZ (f a)) = .ok ks ∧ List.Forall₂ (fun a (k : ℤ) => f a = k) as ks ∧ ((ks.sum : ℤ) : ℝ) = (as.map f).sum
  | [], _ => ⟨[], rfl, .nil, by simp⟩
  | a :: as, h => by
    obtain ⟨k, hk⟩ := h a List.mem_cons_self
    obtain ⟨ks, h1, h2, h3⟩ := mapM_toZZ as (fun a ha => h a (List.mem_cons_of_mem _ ha))
    refine ⟨k :: ks, (mapM_ok_iff _ _ _).2 (.cons (toZZ_ok hk) ((mapM_ok_iff _ _ _).1 h1)), .cons hk h2, ?_⟩
    rw [List.sum_cons, List.map_cons, List.sum_cons, ← h3, hk]
    push_cast
    rfl

/-- **C64.** `stratum()` of a finite translation surface without boundary does not fail: the degrees are integers, they are not negative, and
their sum is `2g - 2`. -/
theorem C64_abelian_stratum (hι : StrictMono ι) (hS : S.Closed valid) (hT : S.GluedBy valid (fun u w => w = -u)) {ls : List L} (hn : ls.Nodup)
    (hls : ∀ l, l ∈ ls ↔ valid l) {es : List (L × ℕ)} (he : S.edges ls = .ok es) {fuel : ℕ} (hf : es.length < fuel) {starts : List (L × ℕ)}
    (hst : S.IsStarts valid starts) :
    ∃ (as : List ℝ) (ks : List ℤ) (g : ℤ), S.angles ι fuel starts = .ok as ∧ S.abelianStratum ι fuel starts = .ok ks ∧ List.Forall₂ (fun a (k : ℤ) => a = (k : ℝ) + 1) as ks ∧
      (∀ k ∈ ks, 0 ≤ k) ∧ S.genus fuel ls = .ok g ∧ ks.sum = 2 * g - 2 := by
  obtain ⟨as, g, h1, h2, h3⟩ := C64_genus hι hS hn hls he hf hst
  obtain ⟨es', he', hnd, hmem⟩ := edges_spec hS.bordered ls hn (fun l hl => (hls l).1 hl)
  rw [he] at he'; injection he' with he'; subst he'
  have hes : ∀ d, d ∈ es ↔ S.IsDart valid d := fun d => by
    rw [hmem]
    exact ⟨fun h => h.2, fun h => ⟨(hls _).2 h.1, h⟩⟩
  have hint : ∀ a ∈ as, ∃ n : ℕ, 0 < n ∧ a = n := by
    intro a ha
    obtain ⟨d, hd, hda⟩ : ∃ d ∈ starts, S.angleVertex ι fuel d = .ok a := by
      exact forall₂_mem ((mapM_ok_iff _ _ _).1 h1) ha
    have hdd := hst.dart d hd
    obtain ⟨n, hn0, hn⟩ := C63_translation hι hS hT hdd (List.Nodup.filter _ hnd) (mem_classOf hes hdd) (fuel := fuel) (lt_of_le_of_lt (List.length_filter_le _ _) hf)
    rw [hda] at hn
    injection hn with hn
    exact ⟨n, hn0, hn⟩
  have hself : S.selfGlued valid = 0 := by
    unfold selfGlued
    have : IsEmpty {d // S.IsDart valid d ∧ S.opp d.1 d.2 = .ok (some d)} := ⟨by
      rintro ⟨d, ⟨hl, p, hp, he⟩, hd⟩
      have := hT _ _ _ _ p p hl hp he hd hp
      exact (hS.bordered.valid_of_polygon hl hp).edge_ne d.2 (self_eq_neg.1 this)⟩
    exact Nat.card_of_isEmpty
  obtain ⟨ks, k1, k2, k3⟩ := mapM_toZZ (f := fun a => a - 1) as (fun a ha => by
    obtain ⟨n, -, rfl⟩ := hint a ha
    exact ⟨n - 1, by push_cast; rfl⟩)
  refine ⟨as, ks, g, h1, ?_, k2.imp (fun a k h => by linarith), ?_, h2, ?_⟩
  · unfold abelianStratum
    simp only [h1, bind, Except.bind, k1]
  · intro k hk
    obtain ⟨a, ha, h⟩ := forall₂_mem k2 hk
    obtain ⟨n, hn0, rfl⟩ := hint a ha
    have : ((n : ℤ) : ℝ) - 1 = k := h
    have : (n : ℤ) - 1 = k := by exact_mod_cast this
    omega
  · rw [hself] at h3
    have : ((ks.sum : ℤ) : ℝ) = ((2 * g - 2 : ℤ) : ℝ) := by
      rw [k3]; push_cast; push_cast at h3; linarith
    exact_mod_cast this

theorem selfGluedAngles_ok (hS : S.Bordered valid) : ∀ (es : List (L × ℕ)), (∀ d ∈ es, S.IsDart valid d) →
    ∃ bs, S.selfGluedAngles es = .ok bs ∧ (∀ b ∈ bs, b = 1 / 2) ∧ ((bs.length : ℕ) : ℤ) = (es.map S.selfWeight).sum
  | [], _ => ⟨[], rfl, by simp, by simp⟩
  | d :: es, h => by
    obtain ⟨bs, h1, h2, h3⟩ := selfGluedAngles_ok hS es (fun d hd => h d (List.mem_cons_of_mem _ hd))
    have hd := h d List.mem_cons_self
    rw [selfGluedAngles]
    simp only [h1, bind, Except.bind, pure, Except.pure, List.map_cons, List.sum_cons]
    rcases hS.opp_ok hd with ho | ⟨c, ho, -⟩
    · refine ⟨bs, by simp only [ho], h2, ?_⟩
      unfold selfWeight at *
      rw [ho, if_neg (by intro h; injection h with h; cases h), zero_add]
      exact h3
    · by_cases hc : c = d
      · refine ⟨1 / 2 :: bs, by simp only [ho, if_pos hc], ?_, ?_⟩
        · intro b hb
          rcases List.mem_cons.1 hb with rfl | hb
          · rfl
          · exact h2 b hb
        · unfold selfWeight at *
          rw [ho, if_pos (by rw [hc]), ← h3, List.length_cons]
          push_cast
          ring
      · refine ⟨bs, by simp only [ho, if_neg hc], h2, ?_⟩
        unfold selfWeight at *
        rw [ho, if_neg (by intro h; injection h with h; injection h with h; exact hc h), zero_add]
        exact h3

/-- **C64.** `stratum()` of a finite half-translation surface without boundary.  If all angles are integers, then this is a
`NotImplementedError`.  Otherwise, the degrees are integers, they are at least `-1`, and their sum is `4g - 4`. -/
theorem C64_quadratic_stratum (hι : StrictMono ι) (hS : S.Closed valid) (hT : S.GluedBy valid (fun u w => w = -u ∨ w = u)) {ls : List L} (hn : ls.Nodup)
    (hls : ∀ l, l ∈ ls ↔ valid l) {es : List (L × ℕ)} (he : S.edges ls = .ok es) {fuel : ℕ} (hf : es.length < fuel) {starts : List (L × ℕ)}
    (hst : S.IsStarts valid starts) :
    ∃ (as : List ℝ) (g : ℤ), S.angles ι fuel starts = .ok as ∧ S.genus fuel ls = .ok g ∧
      (S.quadraticStratum ι fuel ls starts = .error .notImplemented ∧ S.selfGlued valid = 0 ∧ (∀ a ∈ as, ∃ k : ℤ, a = k) ∨
      (S.selfGlued valid ≠ 0 ∨ ∃ a ∈ as, ∀ k : ℤ, a ≠ k) ∧
        ∃ ks : List ℤ, S.quadraticStratum ι fuel ls starts = .ok ks ∧
          List.Forall₂ (fun a (k : ℤ) => a = ((k : ℝ) + 2) / 2) (as ++ List.replicate (S.selfGlued valid) (1 / 2)) ks ∧
          (∀ k ∈ ks, -1 ≤ k) ∧ ks.sum = 4 * g - 4) := by
  obtain ⟨as, g, h1, h2, h3⟩ := C64_genus hι hS hn hls he hf hst
  obtain ⟨es', he', hnd, hmem⟩ := edges_spec hS.bordered ls hn (fun l hl => (hls l).1 hl)
  rw [he] at he'; injection he' with he'; subst he'
  have hes : ∀ d, d ∈ es ↔ S.IsDart valid d := fun d => by
    rw [hmem]
    exact ⟨fun h => h.2, fun h => ⟨(hls _).2 h.1, h⟩⟩
  have hint : ∀ a ∈ as, ∃ n : ℕ, 0 < n ∧ a = n / 2 := by
    intro a ha
    obtain ⟨d, hd, hda⟩ : ∃ d ∈ starts, S.angleVertex ι fuel d = .ok a := by
      exact forall₂_mem ((mapM_ok_iff _ _ _).1 h1) ha
    have hdd := hst.dart d hd
    obtain ⟨n, hn0, hn⟩ := C63_half_translation hι hS hT hdd (List.Nodup.filter _ hnd) (mem_classOf hes hdd) (fuel := fuel)
      (lt_of_le_of_lt (List.length_filter_le _ _) hf)
    rw [hda] at hn
    injection hn with hn
    exact ⟨n, hn0, hn⟩
  obtain ⟨bs, b1, b2, b3⟩ := selfGluedAngles_ok hS.bordered es (fun d hd => (hes d).1 hd)
  rw [self_count hnd hes] at b3
  have b3 : bs.length = S.selfGlued valid := by exact_mod_cast b3
  have b4 : bs = List.replicate (S.selfGlued valid) (1 / 2) := by rw [← b3]; exact List.eq_replicate_of_mem b2
  refine ⟨as, g, h1, h2, ?_⟩
  by_cases hall : ∀ a ∈ as ++ bs, (⌊a⌋ : ℝ) = a
  · left
    refine ⟨?_, ?_, fun a ha => ⟨⌊a⌋, (hall a (List.mem_append_left _ ha)).symm⟩⟩
    · unfold quadraticStratum
      simp only [h1, he, b1, bind, Except.bind]
      rw [if_pos hall]
      rfl
    · rw [← b3]
      cases bs with
      | nil => rfl
      | cons b bs =>
        exfalso
        have k := hall b (by simp)
        rw [b2 b List.mem_cons_self] at k
        have : ⌊(1 / 2 : ℝ)⌋ = 0 := by rw [Int.floor_eq_iff]; norm_num
        rw [this] at k
        norm_num at k
  · right
    have hhalf : ∀ a ∈ as ++ bs, ∃ n : ℕ, 0 < n ∧ a = n / 2 := by
      intro a ha
      rcases List.mem_append.1 ha with ha | ha
      · exact hint a ha
      · exact ⟨1, by norm_num, by rw [b2 a ha]; norm_num⟩
    obtain ⟨ks, k1, k2, k3⟩ := mapM_toZZ (f := fun a => 2 * a - 2) (as ++ bs) (fun a ha => by
      obtain ⟨n, -, rfl⟩ := hhalf a ha
      exact ⟨n - 2, by push_cast; ring⟩)
    refine ⟨?_, ks, ?_, ?_, ?_, ?_⟩
    · by_contra hcon
      push Not at hcon
      obtain ⟨c1, c2⟩ := hcon
      apply hall
      intro a ha
      rw [b4, c1] at ha
      obtain ⟨k, rfl⟩ := c2 a (by simpa using ha)
      rw [Int.floor_intCast]
    · unfold quadraticStratum
      simp only [h1, he, b1, bind, Except.bind]
      rw [if_neg hall]
      exact k1
    · rw [← b4]
      exact k2.imp (fun a k h => by linarith)
    · intro k hk
      obtain ⟨a, ha, h⟩ := forall₂_mem k2 hk
      obtain ⟨n, hn0, rfl⟩ := hhalf a ha
      have : (((n : ℤ) - 2 : ℤ) : ℝ) = k := by rw [← h]; push_cast; ring
      have : (n : ℤ) - 2 = k := by exact_mod_cast this
      omega
    · have e : ∀ xs : List ℝ, (xs.map fun a => 2 * a - 2).sum = 2 * (xs.map fun a => a - 1).sum := by
        intro xs
        induction xs with
        | nil => simp
        | cons x xs ih => simp only [List.map_cons, List.sum_cons, ih]; ring
      have eb : ((List.replicate (S.selfGlued valid) (1 / 2 : ℝ)).map fun a => a - 1).sum = (S.selfGlued valid : ℝ) * (1 / 2 - 1) := by
        rw [List.map_replicate, List.sum_replicate, nsmul_eq_mul]
      have : ((ks.sum : ℤ) : ℝ) = ((4 * g - 4 : ℤ) : ℝ) := by
        rw [k3, e, List.map_append, List.sum_append, b4, eb, h3]
        push_cast
        ring
      exact_mod_cast this

/-! ## Examples -/

/-- The torus. -/
example : ∃ (as : List ℝ) (ks : List ℤ) (g : ℤ), exTorus2.angles (Rat.castHom ℝ) 7 [(false, 0)] = .ok as ∧
    exTorus2.abelianStratum (Rat.castHom ℝ) 7 [(false, 0)] = .ok ks ∧ List.Forall₂ (fun a (k : ℤ) => a = (k : ℝ) + 1) as ks ∧ (∀ k ∈ ks, 0 ≤ k) ∧
    exTorus2.genus 7 [false, true] = .ok g ∧ ks.sum = 2 * g - 2 :=
  C64_abelian_stratum castHom_strictMono exTorus2_closed exTorus2_translation (by decide) (by simp) (es := [(false, 0), (false, 1), (false, 2), (true, 0), (true, 1), (true, 2)])
    (by decide +kernel) (by decide) exTorus2_starts

theorem exPillow_closed : exPillow.Closed (fun _ => True) where
  poly _ _ := ⟨_, rfl, ((Poly.ofVertices_iff MSurf.tri MSurf.tri).1 (by decide +kernel)).2⟩
  glue _ p e _ hp he := ⟨(), e, p, rfl, trivial, hp, he, rfl⟩

/-- All corners of a surface with one label are edges of its polygon. -/
theorem tri_dart {S : RSurf Unit ℚ} (hS : S.polygon () = .ok MSurf.tri) (d : Unit × ℕ) :
    S.IsDart (fun _ => True) d ↔ d ∈ [((), 0), ((), 1), ((), 2)] := by
  obtain ⟨⟨⟩, e⟩ := d
  constructor
  · rintro ⟨-, p, hp, he⟩
    rw [hS] at hp
    injection hp with hp
    subst hp
    have he : e < 3 := he
    interval_cases e <;> decide
  · intro h
    refine ⟨trivial, _, hS, ?_⟩
    have : e < 3 := by
      simp only [List.mem_cons, Prod.mk.injEq, true_and, List.not_mem_nil, or_false] at h
      omega
    exact this

theorem exPillow_starts : exPillow.IsStarts (fun _ => True) [((), 0)] where
  dart := by simp [tri_dart (S := exPillow) rfl]
  apart := List.pairwise_singleton _ _
  cover := by
    intro d hd
    refine ⟨_, List.mem_singleton.2 rfl, ?_⟩
    have h : (match exPillow.vertexEdges 9 ((), 0) with | .ok ds => decide (((), 0) ∈ ds ∧ ((), 1) ∈ ds ∧ ((), 2) ∈ ds) | _ => false) = true := by
      decide +kernel
    cases hds : exPillow.vertexEdges 9 ((), 0) with
    | error e => rw [hds] at h; cases h
    | ok ds =>
      rw [hds] at h
      have h := of_decide_eq_true h
      rw [← vertexEdges_spec exPillow_closed.bordered ((tri_dart rfl _).2 (by decide)) hds]
      rw [tri_dart rfl] at hd
      simp only [List.mem_cons, List.not_mem_nil, or_false] at hd
      rcases hd with rfl | rfl | rfl
      exacts [h.1, h.2.1, h.2.2]

/-- The sphere with three poles in the midpoints of the edges and one in the vertex. -/
example : ∃ (as : List ℝ) (g : ℤ), exPillow.angles (Rat.castHom ℝ) 4 [((), 0)] = .ok as ∧ exPillow.genus 4 [()] = .ok g ∧
    (exPillow.quadraticStratum (Rat.castHom ℝ) 4 [()] [((), 0)] = .error .notImplemented ∧ exPillow.selfGlued (fun _ => True) = 0 ∧ (∀ a ∈ as, ∃ k : ℤ, a = k) ∨
      (exPillow.selfGlued (fun _ => True) ≠ 0 ∨ ∃ a ∈ as, ∀ k : ℤ, a ≠ k) ∧
        ∃ ks : List ℤ, exPillow.quadraticStratum (Rat.castHom ℝ) 4 [()] [((), 0)] = .ok ks ∧
          List.Forall₂ (fun a (k : ℤ) => a = ((k : ℝ) + 2) / 2) (as ++ List.replicate (exPillow.selfGlued (fun _ => True)) (1 / 2)) ks ∧
          (∀ k ∈ ks, -1 ≤ k) ∧ ks.sum = 4 * g - 4) :=
  C64_quadratic_stratum castHom_strictMono exPillow_closed
    (by
      intro l e l' e' p p' _ hp _ ho hp'
      injection hp with hp
      injection hp' with hp'
      injection ho with ho
      injection ho with ho
      injection ho with _ ho
      subst hp hp' ho
      exact .inr rfl)
    (by decide) (by simp) (es := [((), 0), ((), 1), ((), 2)]) (by decide +kernel) (by decide) exPillow_starts

theorem exFold_starts : exFold.IsStarts (fun _ => True) [((), 0), ((), 2)] := by
  have h0 : exFold.IsDart (fun _ => True) ((), 0) := (tri_dart rfl _).2 (by decide)
  have h : (match exFold.vertexEdges 9 ((), 0) with | .ok ds => decide (((), 1) ∈ ds ∧ ((), 2) ∉ ds) | _ => false) = true := by decide +kernel
  cases hds : exFold.vertexEdges 9 ((), 0) with
  | error e => rw [hds] at h; cases h
  | ok ds =>
    rw [hds] at h
    have h := of_decide_eq_true h
    rw [vertexEdges_spec exFold_bordered h0 hds, vertexEdges_spec exFold_bordered h0 hds] at h
    refine ⟨by simp [tri_dart (S := exFold) rfl], by simpa using h.2, ?_⟩
    intro d hd
    rw [tri_dart rfl] at hd
    simp only [List.mem_cons, List.not_mem_nil, or_false] at hd
    rcases hd with rfl | rfl | rfl
    exacts [⟨_, by simp, .refl _⟩, ⟨((), 0), by simp, h.1⟩, ⟨((), 2), by simp, .refl _⟩]

/-- A disk with boundary. -/
example : ∃ as χ, exFold.angles (Rat.castHom ℝ) 4 [((), 0), ((), 2)] = .ok as ∧ as.length = 2 ∧ exFold.eulerCharacteristic 4 [()] = .ok χ ∧
    (χ : ℝ) = (as.map fun a => 1 - a).sum + exFold.selfGlued (fun _ => True) * (1 - 1 / 2) - exFold.unglued (fun _ => True) / 2 :=
  C64_gauss_bonnet castHom_strictMono exFold_bordered (by decide) (by simp) (es := [((), 0), ((), 1), ((), 2)]) (by decide +kernel) (by decide) exFold_starts

end RSurf
end Flat
