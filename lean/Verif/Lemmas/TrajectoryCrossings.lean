import Verif.Model.TrajectoryCrossings
import Verif.Props.Trajectory

/-!
# The loops of `intersections`
-/

namespace Flat
variable {L K : Type} [Field K] [LinearOrder K]

section
variable [DecidableEq L]

/-- Adding a segment to the dictionary. -/
theorem addSegment_spec (s : Seg L K) (d : List (L × List (Seg L K))) (hd : (d.map Prod.fst).Nodup) :
    ((addSegment s d).map Prod.fst).Nodup ∧ (∀ l, l ∈ (addSegment s d).map Prod.fst ↔ l ∈ d.map Prod.fst ∨ l = s.start.label) ∧
    ∀ l ss, (l, ss) ∈ addSegment s d ↔ (l ≠ s.start.label ∧ (l, ss) ∈ d) ∨ (l = s.start.label ∧
      ((∃ ss', (l, ss') ∈ d ∧ ss = ss' ++ [s]) ∨ (l ∉ d.map Prod.fst ∧ ss = [s]))) := by
  induction d with
  | nil =>
    refine ⟨by simp [addSegment], by simp [addSegment], fun l ss => ?_⟩
    simp [addSegment]
  | cons a d ih =>
    obtain ⟨m, ms⟩ := a
    rw [List.map_cons, List.nodup_cons] at hd
    obtain ⟨h1, h2, h3⟩ := ih hd.2
    have hkey : ∀ l ss, (l, ss) ∈ d → l ∈ d.map Prod.fst := fun l ss h => List.mem_map.2 ⟨_, h, rfl⟩
    unfold addSegment
    by_cases hm : m = s.start.label
    · rw [if_pos hm]
      refine ⟨by simpa using hd, fun l => ?_, fun l ss => ?_⟩
      · simp only [List.map_cons, List.mem_cons]
        constructor
        · rintro (h | h)
          · exact .inl (.inl h)
          · exact .inl (.inr h)
        · rintro ((h | h) | h)
          · exact .inl h
          · exact .inr h
          · exact .inl (h.trans hm.symm)
      · simp only [List.map_cons, List.mem_cons, Prod.mk.injEq]
        constructor
        · rintro (⟨rfl, rfl⟩ | h)
          · exact .inr ⟨hm, .inl ⟨ms, .inl ⟨rfl, rfl⟩, rfl⟩⟩
          · refine .inl ⟨?_, .inr h⟩
            rintro rfl
            exact hd.1 (hm ▸ hkey _ _ h)
        · rintro (⟨h, h' | h'⟩ | ⟨h, ⟨ss', h' | h', h''⟩ | ⟨h', -⟩⟩)
          · exact absurd (h'.1.trans hm) h
          · exact .inr h'
          · exact .inl ⟨h'.1, by rw [h'', h'.2]⟩
          · exact absurd (hm.trans h.symm ▸ hkey _ _ h') hd.1
          · exact absurd (.inl (h.trans hm.symm)) h'
    · rw [if_neg hm]
      refine ⟨?_, fun l => ?_, fun l ss => ?_⟩
      · rw [List.map_cons, List.nodup_cons]
        refine ⟨fun h => ?_, h1⟩
        rcases (h2 m).1 h with h | h
        · exact hd.1 h
        · exact hm h
      · simp only [List.map_cons, List.mem_cons, h2, or_assoc]
      · simp only [List.map_cons, List.mem_cons, Prod.mk.injEq, h3]
        constructor
        · rintro (⟨rfl, rfl⟩ | ⟨h, h'⟩ | ⟨h, ⟨ss', h', h''⟩ | ⟨h', h''⟩⟩)
          · exact .inl ⟨hm, .inl ⟨rfl, rfl⟩⟩
          · exact .inl ⟨h, .inr h'⟩
          · exact .inr ⟨h, .inl ⟨ss', .inr h', h''⟩⟩
          · exact .inr ⟨h, .inr ⟨by rintro (e | e); exacts [hm (e.symm.trans h), h' e], h''⟩⟩
        · rintro (⟨h, h' | h'⟩ | ⟨h, ⟨ss', h' | h', h''⟩ | ⟨h', h''⟩⟩)
          · exact .inl h'
          · exact .inr (.inl ⟨h, h'⟩)
          · exact absurd (h'.1.symm.trans h) hm
          · exact .inr (.inr ⟨h, .inl ⟨ss', h', h''⟩⟩)
          · exact .inr (.inr ⟨h, .inr ⟨fun e => h' (.inr e), h''⟩⟩)

/-- The dictionary of the segments: every label once, with the segments in its polygon. -/
theorem segmentsByLabel_spec (a : List (Seg L K)) : ((segmentsByLabel a).map Prod.fst).Nodup ∧
    (∀ l, l ∈ (segmentsByLabel a).map Prod.fst ↔ ∃ s ∈ a, s.start.label = l) ∧
    ∀ l ss, (l, ss) ∈ segmentsByLabel a → ∀ s, s ∈ ss ↔ s ∈ a ∧ s.start.label = l := by
  unfold segmentsByLabel
  induction a using List.reverseRecOn with
  | nil => simp
  | append_singleton a x ih =>
    rw [List.foldl_append, List.foldl_cons, List.foldl_nil]
    set d := a.foldl (fun d s => addSegment s d) [] with hd
    obtain ⟨i1, i2, i3⟩ := ih
    obtain ⟨h1, h2, h3⟩ := addSegment_spec x d i1
    refine ⟨h1, fun l => ?_, fun l ss hl s => ?_⟩
    · rw [h2, i2]
      simp only [List.mem_append, List.mem_singleton]
      constructor
      · rintro (⟨s, hs, h⟩ | rfl)
        · exact ⟨s, .inl hs, h⟩
        · exact ⟨x, .inr rfl, rfl⟩
      · rintro ⟨s, hs | rfl, h⟩
        · exact .inl ⟨s, hs, h⟩
        · exact .inr h.symm
    · simp only [List.mem_append, List.mem_singleton]
      rcases (h3 l ss).1 hl with ⟨h, h'⟩ | ⟨h, ⟨ss', h', rfl⟩ | ⟨h', rfl⟩⟩
      · rw [i3 l ss h']
        constructor
        · rintro ⟨e, e'⟩; exact ⟨.inl e, e'⟩
        · rintro ⟨e | rfl, e'⟩
          · exact ⟨e, e'⟩
          · exact absurd e'.symm h
      · rw [List.mem_append, List.mem_singleton, i3 l ss' h']
        constructor
        · rintro (⟨e, e'⟩ | rfl)
          · exact ⟨.inl e, e'⟩
          · exact ⟨.inr rfl, h.symm⟩
        · rintro ⟨e | rfl, e'⟩
          · exact .inl ⟨e, e'⟩
          · exact .inr rfl
      · rw [List.mem_singleton]
        constructor
        · rintro rfl; exact ⟨.inr rfl, h.symm⟩
        · rintro ⟨e | rfl, e'⟩
          · exact absurd ((i2 l).2 ⟨s, e, e'⟩) h'
          · rfl

theorem mem_segmentPairs (a b : List (Seg L K)) (s t : Seg L K) :
    (s, t) ∈ segmentPairs a b ↔ s ∈ a ∧ t ∈ b ∧ s.start.label = t.start.label := by
  obtain ⟨-, a2, a3⟩ := segmentsByLabel_spec a
  obtain ⟨b1, b2, b3⟩ := segmentsByLabel_spec b
  unfold segmentPairs
  rw [List.mem_flatMap]
  constructor
  · rintro ⟨⟨l, ss⟩, hl, h⟩
    cases hf : (segmentsByLabel b).find? (fun y => decide (y.1 = l)) with
    | none => simp only [hf] at h; cases h
    | some y =>
      simp only [hf, List.mem_flatMap, List.mem_map, Prod.mk.injEq] at h
      obtain ⟨s', hs', t', ht', rfl, rfl⟩ := h
      have hy : y.1 = l := by simpa using List.find?_some hf
      obtain ⟨h1, h2⟩ := (a3 l ss hl s').1 hs'
      obtain ⟨h3, h4⟩ := (b3 y.1 y.2 (List.mem_of_find?_eq_some hf) t').1 ht'
      exact ⟨h1, h3, by rw [h2, h4, hy]⟩
  · rintro ⟨hs, ht, he⟩
    obtain ⟨⟨l, ss⟩, hl, hls⟩ := List.mem_map.1 ((a2 s.start.label).2 ⟨s, hs, rfl⟩)
    obtain ⟨⟨m, ts⟩, hm, hmt⟩ := List.mem_map.1 ((b2 t.start.label).2 ⟨t, ht, rfl⟩)
    dsimp only at hls hmt
    refine ⟨(l, ss), hl, ?_⟩
    cases hf : (segmentsByLabel b).find? (fun y => decide (y.1 = l)) with
    | none =>
      rw [List.find?_eq_none] at hf
      exact absurd (by simpa using hmt.trans (he.symm.trans hls.symm)) (hf _ hm)
    | some y =>
      have hy : y.1 = l := by simpa using List.find?_some hf
      simp only [hf, List.mem_flatMap, List.mem_map, Prod.mk.injEq]
      exact ⟨s, (a3 l ss hl s).2 ⟨hs, hls.symm⟩, t,
        (b3 y.1 y.2 (List.mem_of_find?_eq_some hf) t).2 ⟨ht, by rw [hy, hls, he]⟩, rfl, rfl⟩
end

namespace RSurf
open Poly
variable [IsStrictOrderedRing K] {S : RSurf L K} {valid : L → Prop}

section
variable [DecidableEq L] {fuel : ℕ} {count : Bool}

/-- What the loop yields: the crossings of the pairs, each once. -/
theorem crossingLoop_spec (l : List (Seg L K × Seg L K)) (acc : List (Finset (L × Vec K))) {R : List (Finset (L × Vec K))}
    (h : S.crossingLoop fuel count l acc = .ok R) :
    (acc.Nodup → R.Nodup) ∧ ∀ P, P ∈ R ↔ P ∈ acc ∨ ∃ s t, (s, t) ∈ l ∧ S.crossing fuel count s t = .ok (some P) := by
  induction l generalizing acc with
  | nil =>
    unfold crossingLoop at h
    injection h with h
    subst h
    exact ⟨id, fun P => by simp⟩
  | cons a l ih =>
    obtain ⟨s, t⟩ := a
    unfold crossingLoop at h
    cases hc : S.crossing fuel count s t with
    | error e => simp only [hc, bind, Except.bind] at h; cases h
    | ok o =>
      cases o with
      | none =>
        simp only [hc, bind, Except.bind] at h
        obtain ⟨h1, h2⟩ := ih _ h
        refine ⟨h1, fun P => ?_⟩
        rw [h2]
        constructor
        · rintro (h | ⟨s', t', h, h'⟩)
          · exact .inl h
          · exact .inr ⟨s', t', List.mem_cons_of_mem _ h, h'⟩
        · rintro (h | ⟨s', t', h, h'⟩)
          · exact .inl h
          · rcases List.mem_cons.1 h with h | h
            · injection h with e1 e2
              subst e1 e2
              rw [hc] at h'
              cases h'
            · exact .inr ⟨s', t', h, h'⟩
      | some x =>
        simp only [hc, bind, Except.bind] at h
        obtain ⟨h1, h2⟩ := ih _ h
        refine ⟨fun hn => h1 ?_, fun P => ?_⟩
        · by_cases hx : x ∈ acc
          · rw [if_pos hx]; exact hn
          · rw [if_neg hx, List.nodup_append]
            refine ⟨hn, List.nodup_singleton _, fun y hy z hz => ?_⟩
            rw [List.mem_singleton] at hz
            rintro rfl
            exact hx (hz ▸ hy)
        · rw [h2]
          have hmem : P ∈ (if x ∈ acc then acc else acc ++ [x]) ↔ P ∈ acc ∨ P = x := by
            by_cases hx : x ∈ acc
            · rw [if_pos hx]
              exact ⟨.inl, fun h => h.elim id fun h => h ▸ hx⟩
            · rw [if_neg hx, List.mem_append, List.mem_singleton]
          rw [hmem]
          constructor
          · rintro ((h | h) | ⟨s', t', h, h'⟩)
            · exact .inl h
            · exact .inr ⟨s, t, List.mem_cons_self, by rw [hc, h]⟩
            · exact .inr ⟨s', t', List.mem_cons_of_mem _ h, h'⟩
          · rintro (h | ⟨s', t', h, h'⟩)
            · exact .inl (.inl h)
            · rcases List.mem_cons.1 h with h | h
              · injection h with e1 e2
                subst e1 e2
                rw [hc] at h'
                injection h' with h'
                injection h' with h'
                exact .inl (.inr h'.symm)
              · exact .inr ⟨s', t', h, h'⟩

/-- The loop ends normally if this holds for each of the pairs. -/
theorem crossingLoop_ok (l : List (Seg L K × Seg L K)) (acc : List (Finset (L × Vec K)))
    (h : ∀ s t, (s, t) ∈ l → ∃ o, S.crossing fuel count s t = .ok o) : ∃ R, S.crossingLoop fuel count l acc = .ok R := by
  induction l generalizing acc with
  | nil => exact ⟨acc, rfl⟩
  | cons a l ih =>
    obtain ⟨s, t⟩ := a
    obtain ⟨o, ho⟩ := h s t List.mem_cons_self
    unfold crossingLoop
    simp only [ho, bind, Except.bind]
    cases o <;> exact ih _ fun s t hst => h s t (List.mem_cons_of_mem _ hst)

theorem intersectsLoop_spec (l : List (Seg L K × Seg L K)) (h : ∀ s t, (s, t) ∈ l → ∃ o, S.crossing fuel count s t = .ok o) :
    ∃ b, S.intersectsLoop fuel count l = .ok b ∧ (b = true ↔ ∃ s t P, (s, t) ∈ l ∧ S.crossing fuel count s t = .ok (some P)) := by
  induction l with
  | nil => exact ⟨false, rfl, by simp⟩
  | cons a l ih =>
    obtain ⟨s, t⟩ := a
    obtain ⟨o, ho⟩ := h s t List.mem_cons_self
    obtain ⟨b, hb, hb'⟩ := ih fun s t hst => h s t (List.mem_cons_of_mem _ hst)
    unfold intersectsLoop
    simp only [ho, bind, Except.bind]
    cases o with
    | none =>
      refine ⟨b, hb, hb'.trans ?_⟩
      constructor
      · rintro ⟨s', t', P, h, h'⟩; exact ⟨s', t', P, List.mem_cons_of_mem _ h, h'⟩
      · rintro ⟨s', t', P, h, h'⟩
        rcases List.mem_cons.1 h with h | h
        · injection h with e1 e2
          subst e1 e2
          rw [ho] at h'
          cases h'
        · exact ⟨s', t', P, h, h'⟩
    | some x => exact ⟨true, rfl, fun _ => ⟨s, t, x, List.mem_cons_self, ho⟩, fun _ => rfl⟩

theorem addCrossing_keys (x : Finset (L × Vec K)) (s t : Seg L K) (d : List (Finset (L × Vec K) × Finset (Seg L K) × Finset (Seg L K))) :
    (addCrossing x s t d).map Prod.fst = if x ∈ d.map Prod.fst then d.map Prod.fst else d.map Prod.fst ++ [x] := by
  induction d with
  | nil => simp [addCrossing]
  | cons a d ih =>
    obtain ⟨y, a, b⟩ := a
    unfold addCrossing
    by_cases hy : y = x
    · rw [if_pos hy, if_pos (by simp [hy])]; simp
    · rw [if_neg hy, List.map_cons, ih, List.map_cons]
      by_cases hx : x ∈ d.map Prod.fst
      · rw [if_pos hx, if_pos (List.mem_cons_of_mem _ hx)]
      · rw [if_neg hx, if_neg (by rw [List.mem_cons]; rintro (h | h); exacts [hy h.symm, hx h])]; simp

theorem addCrossing_mem (x : Finset (L × Vec K)) (s t : Seg L K) (d : List (Finset (L × Vec K) × Finset (Seg L K) × Finset (Seg L K)))
    (hd : (d.map Prod.fst).Nodup) {P : Finset (L × Vec K)} {A B : Finset (Seg L K)} (h : (P, A, B) ∈ addCrossing x s t d) :
    (P ≠ x ∧ (P, A, B) ∈ d) ∨ (P = x ∧ ((∃ A' B', (P, A', B') ∈ d ∧ A = insert s A' ∧ B = insert t B') ∨ (x ∉ d.map Prod.fst ∧ A = {s} ∧ B = {t}))) := by
  induction d with
  | nil =>
    simp only [addCrossing, List.mem_singleton, Prod.mk.injEq] at h
    exact .inr ⟨h.1, .inr ⟨by simp, h.2⟩⟩
  | cons a d ih =>
    obtain ⟨y, a, b⟩ := a
    rw [List.map_cons, List.nodup_cons] at hd
    unfold addCrossing at h
    by_cases hy : y = x
    · rw [if_pos hy] at h
      rcases List.mem_cons.1 h with h | h
      · simp only [Prod.mk.injEq] at h
        obtain ⟨rfl, rfl, rfl⟩ := h
        exact .inr ⟨hy, .inl ⟨a, b, List.mem_cons_self, rfl, rfl⟩⟩
      · refine .inl ⟨?_, List.mem_cons_of_mem _ h⟩
        rintro rfl
        exact hd.1 (hy ▸ List.mem_map.2 ⟨_, h, rfl⟩)
    · rw [if_neg hy] at h
      rcases List.mem_cons.1 h with h | h
      · simp only [Prod.mk.injEq] at h
        obtain ⟨rfl, rfl, rfl⟩ := h
        exact .inl ⟨hy, List.mem_cons_self⟩
      · rcases ih hd.2 h with ⟨h1, h2⟩ | ⟨h1, ⟨A', B', h2, h3⟩ | ⟨h2, h3⟩⟩
        · exact .inl ⟨h1, List.mem_cons_of_mem _ h2⟩
        · exact .inr ⟨h1, .inl ⟨A', B', List.mem_cons_of_mem _ h2, h3⟩⟩
        · refine .inr ⟨h1, .inr ⟨?_, h3⟩⟩
          rw [List.map_cons, List.mem_cons]
          rintro (e | e)
          exacts [hy e.symm, h2 e]

/-- The loop with segments: the points are those of the loop without, and each comes with the segments of the pairs that cross in it. -/
theorem crossingSegmentsLoop_spec (l : List (Seg L K × Seg L K)) (done : List (Seg L K × Seg L K))
    (acc : List (Finset (L × Vec K) × Finset (Seg L K) × Finset (Seg L K))) (hn : (acc.map Prod.fst).Nodup)
    (hk : ∀ s t P, (s, t) ∈ done → S.crossing fuel count s t = .ok (some P) → P ∈ acc.map Prod.fst)
    (hacc : ∀ P A B, (P, A, B) ∈ acc → (∀ s, s ∈ A ↔ ∃ t, (s, t) ∈ done ∧ S.crossing fuel count s t = .ok (some P)) ∧
      ∀ t, t ∈ B ↔ ∃ s, (s, t) ∈ done ∧ S.crossing fuel count s t = .ok (some P))
    {R : List (Finset (L × Vec K))} (h : S.crossingLoop fuel count l (acc.map Prod.fst) = .ok R) :
    ∃ Q, S.crossingSegmentsLoop fuel count l acc = .ok Q ∧ Q.map Prod.fst = R ∧
      ∀ P A B, (P, A, B) ∈ Q → (∀ s, s ∈ A ↔ ∃ t, (s, t) ∈ done ++ l ∧ S.crossing fuel count s t = .ok (some P)) ∧
        ∀ t, t ∈ B ↔ ∃ s, (s, t) ∈ done ++ l ∧ S.crossing fuel count s t = .ok (some P) := by
  induction l generalizing acc done with
  | nil =>
    unfold crossingLoop at h
    injection h with h
    exact ⟨acc, rfl, h, by simpa using hacc⟩
  | cons a l ih =>
    obtain ⟨s, t⟩ := a
    unfold crossingLoop at h
    unfold crossingSegmentsLoop
    have happ : done ++ (s, t) :: l = (done ++ [(s, t)]) ++ l := by simp
    cases hc : S.crossing fuel count s t with
    | error e => simp only [hc, bind, Except.bind] at h; cases h
    | ok o =>
      cases o with
      | none =>
        simp only [hc, bind, Except.bind] at h ⊢
        rw [happ]
        have hskip : ∀ s' t' P, ((s', t') ∈ done ++ [(s, t)] ∧ S.crossing fuel count s' t' = .ok (some P)) ↔
            ((s', t') ∈ done ∧ S.crossing fuel count s' t' = .ok (some P)) := by
          intro s' t' P
          rw [List.mem_append, List.mem_singleton, Prod.mk.injEq]
          constructor
          · rintro ⟨h | ⟨rfl, rfl⟩, h'⟩
            · exact ⟨h, h'⟩
            · rw [hc] at h'; cases h'
          · rintro ⟨h, h'⟩; exact ⟨.inl h, h'⟩
        refine ih _ acc hn (fun s' t' P h1 h2 => ?_) (fun P A B hP => ?_) h
        · obtain ⟨h1, h2⟩ := (hskip s' t' P).1 ⟨h1, h2⟩
          exact hk s' t' P h1 h2
        · simp only [hskip]
          exact hacc P A B hP
      | some x =>
        simp only [hc, bind, Except.bind] at h ⊢
        rw [happ]
        rw [← addCrossing_keys x s t acc] at h
        refine ih _ (addCrossing x s t acc) ?_ (fun s' t' P h1 h2 => ?_) (fun P A B hP => ?_) h
        · rw [addCrossing_keys]
          by_cases hx : x ∈ acc.map Prod.fst
          · rw [if_pos hx]; exact hn
          · rw [if_neg hx, List.nodup_append]
            refine ⟨hn, List.nodup_singleton _, fun y hy z hz => ?_⟩
            rw [List.mem_singleton] at hz
            rintro rfl
            exact hx (hz ▸ hy)
        · rw [List.mem_append, List.mem_singleton, Prod.mk.injEq] at h1
          rw [addCrossing_keys]
          rcases h1 with h1 | ⟨rfl, rfl⟩
          · have := hk _ _ _ h1 h2
            split_ifs
            · exact this
            · exact List.mem_append_left _ this
          · rw [hc] at h2
            injection h2 with h2
            injection h2 with h2
            subst h2
            split_ifs with hx
            · exact hx
            · simp
        · have hone : ∀ s' t' Q, ((s', t') ∈ done ++ [(s, t)] ∧ S.crossing fuel count s' t' = .ok (some Q)) ↔
              ((s', t') ∈ done ∧ S.crossing fuel count s' t' = .ok (some Q)) ∨ (s' = s ∧ t' = t ∧ Q = x) := by
            intro s' t' Q
            rw [List.mem_append, List.mem_singleton, Prod.mk.injEq]
            constructor
            · rintro ⟨h | ⟨rfl, rfl⟩, h'⟩
              · exact .inl ⟨h, h'⟩
              · rw [hc] at h'
                injection h' with h'
                injection h' with h'
                exact .inr ⟨rfl, rfl, h'.symm⟩
            · rintro (⟨h, h'⟩ | ⟨rfl, rfl, rfl⟩)
              · exact ⟨.inl h, h'⟩
              · exact ⟨.inr ⟨rfl, rfl⟩, hc⟩
          simp only [hone]
          rcases addCrossing_mem x s t acc hn hP with ⟨h1, h2⟩ | ⟨rfl, ⟨A', B', h2, rfl, rfl⟩ | ⟨h2, rfl, rfl⟩⟩
          · obtain ⟨k1, k2⟩ := hacc P A B h2
            simp only [k1, k2, h1, and_false, or_false, true_and, implies_true]
          · obtain ⟨k1, k2⟩ := hacc P A' B' h2
            constructor
            · intro s'
              rw [Finset.mem_insert, k1]
              constructor
              · rintro (rfl | ⟨t', h⟩)
                · exact ⟨t, .inr ⟨rfl, rfl, rfl⟩⟩
                · exact ⟨t', .inl h⟩
              · rintro ⟨t', h | h⟩
                · exact .inr ⟨t', h⟩
                · exact .inl h.1
            · intro t'
              rw [Finset.mem_insert, k2]
              constructor
              · rintro (rfl | ⟨s', h⟩)
                · exact ⟨s, .inr ⟨rfl, rfl, rfl⟩⟩
                · exact ⟨s', .inl h⟩
              · rintro ⟨s', h | h⟩
                · exact .inr ⟨s', h⟩
                · exact .inl h.2.1
          · constructor
            · intro s'
              rw [Finset.mem_singleton]
              constructor
              · rintro rfl; exact ⟨t, .inr ⟨rfl, rfl, rfl⟩⟩
              · rintro ⟨t', h | h⟩
                · exact absurd (hk _ _ _ h.1 h.2) h2
                · exact h.1
            · intro t'
              rw [Finset.mem_singleton]
              constructor
              · rintro rfl; exact ⟨s, .inr ⟨rfl, rfl, rfl⟩⟩
              · rintro ⟨s', h | h⟩
                · exact absurd (hk _ _ _ h.1 h.2) h2
                · exact h.2.1
end
end RSurf
end Flat
