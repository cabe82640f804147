import Verif.Props.Homology

/-!
# Surfaces that agree up to diagonals

Joining polygons removes two glued edges, subdividing a polygon adds two and a flip does both.  Here two surfaces are compared that agree
after the edges `XS` are removed from the one and `XT` from the other.
-/

namespace Flat
namespace RSurf
variable {L K : Type} [Field K] [LinearOrder K] [IsStrictOrderedRing K] {S T : RSurf L K} {vS vT : L → Prop}

section
variable [DecidableEq L]

/-- The edge after `d` when the polygons are merged at the edges `X`. -/
def skipNext (S : RSurf L K) (X : Finset (L × ℕ)) (d : L × ℕ) : L × ℕ :=
  if S.nextF d ∈ X then S.nextF (S.oppF (S.nextF d)) else S.nextF d

/-- A set of glued edges at which polygons can be merged. -/
structure Diagonal (S : RSurf L K) (valid : L → Prop) (X : Finset (L × ℕ)) : Prop where
  dart : ∀ z ∈ X, S.IsDart valid z
  glued : ∀ z ∈ X, ∃ z' ∈ X, S.opp z.1 z.2 = .ok (some z')
  next : ∀ z ∈ X, S.nextF z ∉ X

/-- The surfaces agree up to diagonals. -/
structure Retri (S : RSurf L K) (vS : L → Prop) (T : RSurf L K) (vT : L → Prop) (XS XT : Finset (L × ℕ)) (old : L × ℕ → L × ℕ) : Prop where
  dS : S.Diagonal vS XS
  dT : T.Diagonal vT XT
  maps : ∀ d, T.IsDart vT d → d ∉ XT → S.IsDart vS (old d) ∧ old d ∉ XS
  inj : ∀ d d', T.IsDart vT d → d ∉ XT → T.IsDart vT d' → d' ∉ XT → old d = old d' → d = d'
  surj : ∀ d, S.IsDart vS d → d ∉ XS → ∃ d', T.IsDart vT d' ∧ d' ∉ XT ∧ old d' = d
  opp : ∀ d, T.IsDart vT d → d ∉ XT → ∃ c, T.opp d.1 d.2 = .ok c ∧ S.opp (old d).1 (old d).2 = .ok (c.map old)
  next : ∀ d, T.IsDart vT d → d ∉ XT → old (T.skipNext XT d) = S.skipNext XS (old d)

theorem nextF_dart (hS : S.Bordered vS) {d : L × ℕ} (hd : S.IsDart vS d) : S.IsDart vS (S.nextF d) := by
  obtain ⟨hl, p, hp, he⟩ := hd
  exact ⟨hl, p, hp, by show (d.2 + 1) % S.sides d.1 < _; rw [sides_eq hp]; exact Nat.mod_lt _ (by omega)⟩

theorem step_iff (hS : S.Bordered vS) {a b : L × ℕ} (ha : S.IsDart vS a) :
    Step S.rotateCw a b ↔ ∃ c, S.opp a.1 a.2 = .ok (some c) ∧ b = S.nextF c := by
  rw [step_cw_iff]
  constructor
  · rintro ⟨c, p, h1, h2, rfl⟩
    exact ⟨c, h1, by unfold nextF; rw [sides_eq h2]⟩
  · rintro ⟨c, h1, rfl⟩
    obtain ⟨hl, p, hp, he⟩ := (hS.opp_symm ha h1).1
    exact ⟨c, p, h1, hp, by unfold nextF; rw [sides_eq hp]⟩

/-- Rotation about a vertex in the merged surface. -/
def Turn (S : RSurf L K) (valid : L → Prop) (X : Finset (L × ℕ)) (a b : L × ℕ) : Prop :=
  S.IsDart valid a ∧ a ∉ X ∧ ∃ c, S.opp a.1 a.2 = .ok (some c) ∧ b = S.skipNext X c

theorem oppF_eq {d c : L × ℕ} (h : S.opp d.1 d.2 = .ok (some c)) : S.oppF d = c := by unfold oppF; rw [h]

theorem Diagonal.out {X : Finset (L × ℕ)} (hX : S.Diagonal vS X) (hS : S.Bordered vS) {a c : L × ℕ} (ha : S.IsDart vS a) (haX : a ∉ X)
    (h : S.opp a.1 a.2 = .ok (some c)) : S.IsDart vS c ∧ c ∉ X := by
  obtain ⟨hc, hb⟩ := hS.opp_symm ha h
  refine ⟨hc, fun hcX => haX ?_⟩
  obtain ⟨z, hz, ho⟩ := hX.glued c hcX
  rw [hb] at ho; injection ho with ho; injection ho with ho
  rw [ho]; exact hz

theorem Diagonal.skip {X : Finset (L × ℕ)} (hX : S.Diagonal vS X) (hS : S.Bordered vS) {c : L × ℕ} (hc : S.IsDart vS c) :
    S.IsDart vS (S.skipNext X c) ∧ S.skipNext X c ∉ X := by
  unfold skipNext
  split_ifs with h
  · obtain ⟨z, hz, ho⟩ := hX.glued _ h
    rw [oppF_eq ho]
    exact ⟨nextF_dart hS (hX.dart z hz), hX.next z hz⟩
  · exact ⟨nextF_dart hS hc, h⟩

/-- Merging polygons does not change which edges start at the same vertex. -/
theorem Diagonal.sameVertex {X : Finset (L × ℕ)} (hX : S.Diagonal vS X) (hS : S.Bordered vS) {a b : L × ℕ} (haX : a ∉ X) (hbX : b ∉ X) :
    S.SameVertex vS a b ↔ Relation.EqvGen (S.Turn vS X) a b := by
  constructor
  · let π : L × ℕ → L × ℕ := fun z => if z ∈ X then S.nextF (S.oppF z) else z
    suffices h : ∀ a b, S.SameVertex vS a b → Relation.EqvGen (S.Turn vS X) (π a) (π b) by
      intro h'
      have := h a b h'
      simp only [π, if_neg haX, if_neg hbX] at this
      exact this
    intro a b h
    induction h with
    | rel a b h =>
      obtain ⟨ha, hb, h⟩ := h
      rw [step_iff hS ha] at h
      obtain ⟨c, hc, rfl⟩ := h
      by_cases haX : a ∈ X
      · obtain ⟨z, hz, ho⟩ := hX.glued a haX
        rw [hc] at ho; injection ho with ho; injection ho with ho; subst ho
        simp only [π, if_pos haX, if_neg (hX.next c hz), oppF_eq hc]
        exact .refl _
      · refine .rel _ _ ⟨?_, ?_, c, ?_, ?_⟩
        · simpa only [π, if_neg haX] using ha
        · simpa only [π, if_neg haX] using haX
        · simpa only [π, if_neg haX] using hc
        · rfl
    | refl a => exact .refl _
    | symm _ _ _ ih => exact .symm _ _ ih
    | trans _ _ _ _ _ ih1 ih2 => exact .trans _ _ _ ih1 ih2
  · intro h
    clear haX hbX
    induction h with
    | rel a b h =>
      obtain ⟨ha, haX, c, hc, rfl⟩ := h
      obtain ⟨hcd, hcX⟩ := hX.out hS ha haX hc
      have h1 : S.SameVertex vS a (S.nextF c) := .rel _ _ ⟨ha, nextF_dart hS hcd, (step_iff hS ha).2 ⟨c, hc, rfl⟩⟩
      unfold skipNext
      split_ifs with h
      · obtain ⟨z, hz, ho⟩ := hX.glued _ h
        have h2 : S.SameVertex vS (S.nextF c) (S.nextF z) := .rel _ _ ⟨nextF_dart hS hcd, nextF_dart hS (hX.dart z hz),
          (step_iff hS (nextF_dart hS hcd)).2 ⟨z, ho, rfl⟩⟩
        rw [oppF_eq ho]
        exact .trans _ _ _ h1 h2
      · exact h1
    | refl a => exact .refl _
    | symm _ _ _ ih => exact .symm _ _ ih
    | trans _ _ _ _ _ ih1 ih2 => exact .trans _ _ _ ih1 ih2

theorem Diagonal.meets {X : Finset (L × ℕ)} (hX : S.Diagonal vS X) (hS : S.Bordered vS) {d : L × ℕ} (hd : S.IsDart vS d) :
    ∃ a, S.IsDart vS a ∧ a ∉ X ∧ S.SameVertex vS a d := by
  by_cases h : d ∈ X
  · obtain ⟨z, hz, ho⟩ := hX.glued d h
    exact ⟨_, nextF_dart hS (hX.dart z hz), hX.next z hz, .symm _ _ (.rel _ _ ⟨hd, nextF_dart hS (hX.dart z hz), (step_iff hS hd).2 ⟨z, ho, rfl⟩⟩)⟩
  · exact ⟨d, hd, h, .refl _⟩

variable {XS XT : Finset (L × ℕ)} {old : L × ℕ → L × ℕ}

/-- Edges start at the same vertex in the one surface exactly if they do in the other. -/
theorem Retri.sameVertex (h : Retri S vS T vT XS XT old) (hS : S.Bordered vS) (hT : T.Bordered vT) {a b : L × ℕ}
    (ha : T.IsDart vT a) (haX : a ∉ XT) (hb : T.IsDart vT b) (hbX : b ∉ XT) :
    T.SameVertex vT a b ↔ S.SameVertex vS (old a) (old b) := by
  have hmem : ∀ a b, Relation.EqvGen (T.Turn vT XT) a b → ((T.IsDart vT a ∧ a ∉ XT) ↔ (T.IsDart vT b ∧ b ∉ XT)) := by
    intro a b h'
    induction h' with
    | rel a b h' =>
      obtain ⟨ha, haX, c, hc, rfl⟩ := h'
      obtain ⟨hcd, hcX⟩ := h.dT.out hT ha haX hc
      exact ⟨fun _ => h.dT.skip hT hcd, fun _ => ⟨ha, haX⟩⟩
    | refl => rfl
    | symm _ _ _ ih => exact ih.symm
    | trans _ _ _ _ _ ih1 ih2 => exact ih1.trans ih2
  rw [h.dT.sameVertex hT haX hbX, h.dS.sameVertex hS (h.maps a ha haX).2 (h.maps b hb hbX).2]
  constructor
  · intro h'
    clear ha haX hb hbX
    induction h' with
    | rel a b h' =>
      obtain ⟨ha, haX, c, hc, rfl⟩ := h'
      obtain ⟨hcd, hcX⟩ := h.dT.out hT ha haX hc
      obtain ⟨c', hc', ho⟩ := h.opp a ha haX
      rw [hc] at hc'; injection hc' with hc'; subst hc'
      exact .rel _ _ ⟨(h.maps a ha haX).1, (h.maps a ha haX).2, old c, ho, h.next c hcd hcX⟩
    | refl => exact .refl _
    | symm _ _ _ ih => exact .symm _ _ ih
    | trans _ _ _ _ _ ih1 ih2 => exact .trans _ _ _ ih1 ih2
  · suffices hs : ∀ x y, Relation.EqvGen (S.Turn vS XS) x y → ((∃ a, T.IsDart vT a ∧ a ∉ XT ∧ old a = x) ↔ ∃ b, T.IsDart vT b ∧ b ∉ XT ∧ old b = y) ∧
        ∀ a b, T.IsDart vT a → a ∉ XT → T.IsDart vT b → b ∉ XT → old a = x → old b = y → Relation.EqvGen (T.Turn vT XT) a b from
      fun h' => (hs _ _ h').2 a b ha haX hb hbX rfl rfl
    intro x y h'
    induction h' with
    | rel x y h' =>
      obtain ⟨hx, hxX, c, hc, rfl⟩ := h'
      obtain ⟨a, ha, haX, hax⟩ := h.surj x hx hxX
      obtain ⟨c', hc', ho⟩ := h.opp a ha haX
      rw [hax, hc] at ho
      injection ho with ho
      rcases c' with _ | c'
      · cases ho
      · injection ho with ho
        obtain ⟨hcd, hcX⟩ := h.dT.out hT ha haX hc'
        have hn := h.next c' hcd hcX
        rw [← ho] at hn
        obtain ⟨q1, q2⟩ := h.dT.skip hT hcd
        refine ⟨⟨fun _ => ⟨_, q1, q2, hn⟩, fun _ => ⟨a, ha, haX, hax⟩⟩, ?_⟩
        intro a' b' ha' haX' hb' hbX' hax' hby'
        have e1 : a' = a := h.inj _ _ ha' haX' ha haX (hax'.trans hax.symm)
        have e2 : b' = T.skipNext XT c' := h.inj _ _ hb' hbX' q1 q2 (hby'.trans hn.symm)
        subst e1 e2
        exact .rel _ _ ⟨ha', haX', c', hc', rfl⟩
    | refl x =>
      refine ⟨Iff.rfl, ?_⟩
      intro a b ha haX hb hbX h1 h2
      rw [h.inj _ _ ha haX hb hbX (h1.trans h2.symm)]
      exact .refl _
    | symm x y _ ih =>
      exact ⟨ih.1.symm, fun a b ha haX hb hbX h1 h2 => .symm _ _ (ih.2 b a hb hbX ha haX h2 h1)⟩
    | trans x y z _ _ ih1 ih2 =>
      refine ⟨ih1.1.trans ih2.1, ?_⟩
      intro a b ha haX hb hbX h1 h2
      obtain ⟨c, hc, hcX, h3⟩ := ih1.1.1 ⟨a, ha, haX, h1⟩
      exact .trans _ _ _ (ih1.2 a c ha haX hc hcX h1 h3) (ih2.2 c b hc hcX hb hbX h3 h2)

/-- The number of vertices is the same. -/
theorem Retri.card_vertices (h : Retri S vS T vT XS XT old) (hS : S.Bordered vS) (hT : T.Bordered vT) :
    Nat.card (Quotient (S.vertexSetoid vS)) = Nat.card (Quotient (T.vertexSetoid vT)) := by
  let A := {d // T.IsDart vT d ∧ d ∉ XT}
  let f : A → Quotient (T.vertexSetoid vT) := fun a => Quotient.mk _ ⟨a.1, a.2.1⟩
  let g : A → Quotient (S.vertexSetoid vS) := fun a => Quotient.mk _ ⟨old a.1, (h.maps a.1 a.2.1 a.2.2).1⟩
  have hf : Function.Surjective f := by
    intro q
    induction q using Quotient.inductionOn with
    | h d =>
      obtain ⟨a, ha, haX, hs⟩ := h.dT.meets hT d.2
      exact ⟨⟨a, ha, haX⟩, Quotient.sound hs⟩
  have hg : Function.Surjective g := by
    intro q
    induction q using Quotient.inductionOn with
    | h d =>
      obtain ⟨a, ha, haX, hs⟩ := h.dS.meets hS d.2
      obtain ⟨b, hb, hbX, rfl⟩ := h.surj a ha haX
      exact ⟨⟨b, hb, hbX⟩, Quotient.sound hs⟩
  have hfg : ∀ a b, f a = f b ↔ g a = g b := by
    intro a b
    show Quotient.mk _ _ = Quotient.mk _ _ ↔ Quotient.mk _ _ = Quotient.mk _ _
    rw [Quotient.eq, Quotient.eq]
    exact h.sameVertex hS hT a.2.1 a.2.2 b.2.1 b.2.2
  have hker : Setoid.ker f = Setoid.ker g := by
    ext a b
    exact hfg a b
  rw [← Nat.card_congr (Setoid.quotientKerEquivOfSurjective f hf), ← Nat.card_congr (Setoid.quotientKerEquivOfSurjective g hg), hker]

/-- The contribution of an edge to the Euler characteristic. -/
def eulerWeight (S : RSurf L K) (d : L × ℕ) : ℚ := S.selfWeight d - S.weight d

theorem sum_eulerWeight {X : Finset (L × ℕ)} (hX : ∀ z ∈ X, ∃ z', S.opp z.1 z.2 = .ok (some z') ∧ z' ≠ z) :
    X.sum S.eulerWeight = - X.card / 2 := by
  rw [Finset.sum_congr rfl (g := fun _ => (-1 / 2 : ℚ))]
  · rw [Finset.sum_const, nsmul_eq_mul]; ring
  · intro z hz
    obtain ⟨z', ho, hne⟩ := hX z hz
    unfold eulerWeight selfWeight RSurf.weight
    rw [ho]
    simp [hne]
    norm_num

theorem euler_weights (hS : S.Bordered vS) {ls : List L} (hn : ls.Nodup) (hls : ∀ l, l ∈ ls ↔ vS l) {es : List (L × ℕ)}
    (he : S.edges ls = .ok es) {fuel : ℕ} (hf : es.length < fuel) {χ : ℤ} (hχ : S.eulerCharacteristic fuel ls = .ok χ) :
    (χ : ℚ) = Nat.card (Quotient (S.vertexSetoid vS)) + es.toFinset.sum S.eulerWeight + ls.length := by
  obtain ⟨es', he', hnd, hmem⟩ := edges_spec hS ls hn (fun l hl => (hls l).1 hl)
  rw [he] at he'; injection he' with he'; subst he'
  have hes : ∀ d, d ∈ es ↔ S.IsDart vS d := fun d => by
    rw [hmem]
    exact ⟨fun h => h.2, fun h => ⟨(hls _).2 h.1, h⟩⟩
  rw [C32_euler_characteristic hS hn hls he hf] at hχ
  injection hχ with hχ
  rw [← hχ]
  have h1 := edges_count hS hnd hes
  have h2 := self_count (S := S) hnd hes
  unfold eulerWeight
  rw [Finset.sum_sub_distrib, ← Int.cast_sum, List.sum_toFinset _ hnd, List.sum_toFinset _ hnd, h1, h2]
  push_cast
  ring

/-- The Euler characteristics of two surfaces that agree up to diagonals. -/
theorem Retri.euler (h : Retri S vS T vT XS XT old) (hS : S.Bordered vS) (hT : T.Bordered vT) {lsS lsT : List L}
    (hnS : lsS.Nodup) (hlS : ∀ l, l ∈ lsS ↔ vS l) (hnT : lsT.Nodup) (hlT : ∀ l, l ∈ lsT ↔ vT l) {esS esT : List (L × ℕ)}
    (heS : S.edges lsS = .ok esS) (heT : T.edges lsT = .ok esT) {fuel : ℕ} (hfS : esS.length < fuel) (hfT : esT.length < fuel)
    (hF : XS.sum S.eulerWeight + lsS.length = XT.sum T.eulerWeight + lsT.length) :
    S.eulerCharacteristic fuel lsS = T.eulerCharacteristic fuel lsT := by
  have h1 := C32_euler_characteristic hS hnS hlS heS hfS
  have h2 := C32_euler_characteristic hT hnT hlT heT hfT
  have q1 := euler_weights hS hnS hlS heS hfS h1
  have q2 := euler_weights hT hnT hlT heT hfT h2
  rw [h1, h2]
  refine congrArg _ ?_
  rw [← Int.cast_inj (α := ℚ), q1, q2, h.card_vertices hS hT]
  have hmemS : ∀ d, d ∈ esS ↔ S.IsDart vS d := fun d => by
    obtain ⟨es', he', -, hmem⟩ := edges_spec hS lsS hnS (fun l hl => (hlS l).1 hl)
    rw [heS] at he'; injection he' with he'; subst he'
    rw [hmem]
    exact ⟨fun h => h.2, fun h => ⟨(hlS _).2 h.1, h⟩⟩
  have hmemT : ∀ d, d ∈ esT ↔ T.IsDart vT d := fun d => by
    obtain ⟨es', he', -, hmem⟩ := edges_spec hT lsT hnT (fun l hl => (hlT l).1 hl)
    rw [heT] at he'; injection he' with he'; subst he'
    rw [hmem]
    exact ⟨fun h => h.2, fun h => ⟨(hlT _).2 h.1, h⟩⟩
  have s1 : esS.toFinset.sum S.eulerWeight = (esS.toFinset \ XS).sum S.eulerWeight + XS.sum S.eulerWeight := by
    rw [← Finset.sum_sdiff (s₁ := XS) (s₂ := esS.toFinset) (fun z hz => List.mem_toFinset.2 ((hmemS z).2 (h.dS.dart z hz)))]
  have s2 : esT.toFinset.sum T.eulerWeight = (esT.toFinset \ XT).sum T.eulerWeight + XT.sum T.eulerWeight := by
    rw [← Finset.sum_sdiff (s₁ := XT) (s₂ := esT.toFinset) (fun z hz => List.mem_toFinset.2 ((hmemT z).2 (h.dT.dart z hz)))]
  have s3 : (esT.toFinset \ XT).sum T.eulerWeight = (esS.toFinset \ XS).sum S.eulerWeight := by
    refine Finset.sum_bij (fun d _ => old d) ?_ ?_ ?_ ?_
    · intro d hd
      rw [Finset.mem_sdiff, List.mem_toFinset, hmemT] at hd
      rw [Finset.mem_sdiff, List.mem_toFinset, hmemS]
      exact h.maps d hd.1 hd.2
    · intro a ha b hb hab
      rw [Finset.mem_sdiff, List.mem_toFinset, hmemT] at ha hb
      exact h.inj _ _ ha.1 ha.2 hb.1 hb.2 hab
    · intro d hd
      rw [Finset.mem_sdiff, List.mem_toFinset, hmemS] at hd
      obtain ⟨a, ha, haX, rfl⟩ := h.surj d hd.1 hd.2
      exact ⟨a, by rw [Finset.mem_sdiff, List.mem_toFinset, hmemT]; exact ⟨ha, haX⟩, rfl⟩
    · intro d hd
      rw [Finset.mem_sdiff, List.mem_toFinset, hmemT] at hd
      obtain ⟨c, hc, ho⟩ := h.opp d hd.1 hd.2
      unfold eulerWeight selfWeight weight
      rw [hc, ho]
      rcases c with _ | c
      · simp
      · have hcd := h.dT.out hT hd.1 hd.2 hc
        have : (old c = old d) ↔ c = d := ⟨fun h' => h.inj _ _ hcd.1 hcd.2 hd.1 hd.2 h', fun h' => by rw [h']⟩
        simp only [Option.map_some, Except.ok.injEq, Option.some.injEq, this]
  rw [s1, s2, s3]
  linear_combination hF

end
end RSurf
end Flat
