import Verif.Lemmas.ChainFlow

/-!
# Maps of surfaces that map edges to paths of edges
-/

namespace Flat
namespace RSurf
variable {L L' K : Type} [DecidableEq L] [DecidableEq L'] [Field K] [LinearOrder K] [IsStrictOrderedRing K] {S : RSurf L K} {T : RSurf L' K}
  {valid : L → Prop} {valid' : L' → Prop} {R : Type} [CommRing R] {path : L × ℕ → List (L' × ℕ)}

/-- The chain of a path of edges. -/
def pathSum (R : Type) [CommRing R] (ds : List (L' × ℕ)) : L' × ℕ → R := (ds.map fun x => Pi.single x 1).sum

/-- Edges are mapped to paths of edges: the edge in the other direction is mapped to the reverse path, the paths of the edges of a polygon are a closed path
which is the boundary of a chain of polygons. -/
structure PathMap (R : Type) [CommRing R] (S : RSurf L K) (valid : L → Prop) (T : RSurf L' K) (valid' : L' → Prop) (path : L × ℕ → List (L' × ℕ)) : Prop where
  dart : ∀ d, S.IsDart valid d → ∀ x ∈ path d, T.IsDart valid' x
  rev : ∀ d, S.IsDart valid d → path (S.oppF d) = ((path d).map T.oppF).reverse
  chain : ∀ d, S.IsDart valid d → (path d).IsChain fun x y => T.SameVertex valid' (T.oppF x) y
  next : ∀ d, S.IsDart valid d → ∃ x y, (path d).getLast? = some x ∧ (path (S.nextF d)).head? = some y ∧ T.SameVertex valid' (T.oppF x) y
  face : ∀ l, valid l → T.Null valid' (pathSum R ((List.range (S.sides l)).flatMap fun e => path (l, e)))

theorem pathSum_cons (x : L' × ℕ) (ds : List (L' × ℕ)) : pathSum R (x :: ds) = Pi.single x 1 + pathSum R ds := rfl

theorem pathSum_append (as bs : List (L' × ℕ)) : pathSum R (as ++ bs) = pathSum R as + pathSum R bs := by
  unfold pathSum
  rw [List.map_append, List.sum_append]

theorem pathSum_flatMap {D : Type} (es : List D) (f : D → List (L' × ℕ)) : pathSum R (es.flatMap f) = (es.map fun e => pathSum R (f e)).sum := by
  induction es with
  | nil => rfl
  | cons e es ih => rw [List.flatMap_cons, pathSum_append, ih, List.map_cons, List.sum_cons]

theorem flow_list_sum {D : Type} (es : List D) (F : D → L' × ℕ → R) (x : L' × ℕ) : T.flow ((es.map F).sum) x = (es.map fun e => T.flow (F e) x).sum := by
  induction es with
  | nil => simp [flow]
  | cons e es ih => rw [List.map_cons, List.sum_cons, flow_add, ih, List.map_cons, List.sum_cons]

theorem flow_single_opp (hT : T.Closed valid') {x y : L' × ℕ} (hx : T.IsDart valid' x) (hy : T.IsDart valid' y) :
    T.flow (Pi.single (T.oppF y) (1 : R)) x = -T.flow (Pi.single y 1) x := by
  have h1 : x = T.oppF y ↔ T.oppF x = y := by
    constructor
    · rintro rfl; exact hT.oppF_oppF hy
    · rintro rfl; exact (hT.oppF_oppF hx).symm
  have h2 : T.oppF x = T.oppF y ↔ x = y := by
    constructor
    · intro h
      rw [← hT.oppF_oppF hx, h, hT.oppF_oppF hy]
    · rintro rfl; rfl
  simp only [flow, Pi.single_apply, h1, h2]
  ring

/-- The reverse path has the negative flow. -/
theorem flow_reverse (hT : T.Closed valid') {ds : List (L' × ℕ)} (hds : ∀ y ∈ ds, T.IsDart valid' y) {x : L' × ℕ} (hx : T.IsDart valid' x) :
    T.flow (pathSum R (ds.map T.oppF).reverse) x = -T.flow (pathSum R ds) x := by
  have : pathSum R (ds.map T.oppF).reverse = pathSum R (ds.map T.oppF) := by
    unfold pathSum
    rw [List.map_reverse, List.sum_reverse]
  rw [this]
  induction ds with
  | nil => simp [pathSum, flow]
  | cons y ds ih =>
    rw [List.map_cons, pathSum_cons, pathSum_cons, flow_add, flow_add, flow_single_opp hT hx (hds y List.mem_cons_self),
      ih (fun z hz => hds z (List.mem_cons_of_mem _ hz)) (by unfold pathSum; rw [List.map_reverse, List.sum_reverse])]
    ring

/-- The pairing is linear. -/
theorem pairing_list_sum {D : Type} (es : List (L' × ℕ)) (ds : List D) (F : D → L' × ℕ → R) (φ : L' × ℕ → R) :
    (es.map fun d => ((ds.map F).sum) d * φ d).sum = (ds.map fun e => (es.map fun d => F e d * φ d).sum).sum := by
  induction ds with
  | nil => simp
  | cons e ds ih =>
    rw [List.map_cons, List.sum_cons, List.map_cons, List.sum_cons, ← ih, ← List.sum_map_add]
    congr 1
    refine List.map_congr_left fun d _ => ?_
    rw [Pi.add_apply, add_mul]

theorem pairing_single {es : List (L' × ℕ)} (hn : es.Nodup) {x : L' × ℕ} (hx : x ∈ es) (φ : L' × ℕ → R) :
    (es.map fun d => (Pi.single x (1 : R) : L' × ℕ → R) d * φ d).sum = φ x := by
  rw [← List.sum_toFinset _ hn, Finset.sum_eq_single x]
  · simp
  · intro d _ hd
    rw [Pi.single_eq_of_ne hd, zero_mul]
  · intro h
    exact absurd (List.mem_toFinset.2 hx) h

/-- The pairing with a path only depends on the ends of the path. -/
theorem path_telescope {φ : L' × ℕ → R} (hφ : ∀ a b, T.SameVertex valid' a b → φ a = φ b) (ds : List (L' × ℕ))
    (hc : ds.IsChain fun x y => T.SameVertex valid' (T.oppF x) y) {a b : L' × ℕ} (ha : ds.head? = some a) (hb : ds.getLast? = some b) :
    (ds.map fun x => φ (T.oppF x) - φ x).sum = φ (T.oppF b) - φ a := by
  induction ds generalizing a with
  | nil => cases ha
  | cons x ds ih =>
    cases ha
    cases ds with
    | nil => cases hb; simp
    | cons y ds =>
      rw [List.isChain_cons_cons] at hc
      rw [List.map_cons, List.sum_cons, ih hc.2 rfl (by rw [← hb, List.getLast?_cons_cons]), hφ _ _ hc.1]
      ring

/-- The sum over all edges in terms of the simplices. -/
theorem sum_simplices (hS : S.Closed valid) {es sx : List (L × ℕ)} (hn : es.Nodup) (hes : ∀ d, d ∈ es ↔ S.IsDart valid d) (hsn : sx.Nodup)
    (hsd : ∀ d ∈ sx, S.IsDart valid d) (hsx : ∀ d, S.IsDart valid d → d ∈ sx ∨ S.oppF d ∈ sx) (hsx2 : ∀ d ∈ sx, S.oppF d ∈ sx → S.oppF d = d)
    (hfold : ∀ d, S.IsDart valid d → S.oppF d ≠ d) (g : L × ℕ → R) : (es.map g).sum = (sx.map fun d => g d + g (S.oppF d)).sum := by
  have hp : es.Perm (sx ++ sx.map S.oppF) := by
    rw [List.perm_ext_iff_of_nodup hn]
    · intro d
      rw [hes, List.mem_append, List.mem_map]
      constructor
      · intro hd
        rcases hsx d hd with h | h
        · exact .inl h
        · exact .inr ⟨_, h, hS.oppF_oppF hd⟩
      · rintro (h | ⟨c, hc, rfl⟩)
        · exact hsd d h
        · exact hS.oppF_dart (hsd c hc)
    · rw [List.nodup_append]
      refine ⟨hsn, ?_, ?_⟩
      · refine List.Nodup.map_on ?_ hsn
        intro a ha b hb h
        rw [← hS.oppF_oppF (hsd a ha), h, hS.oppF_oppF (hsd b hb)]
      · rintro a ha b hb rfl
        obtain ⟨c, hc, rfl⟩ := List.mem_map.1 hb
        exact hfold c (hsd c hc) (hsx2 c hc ha)
  rw [(hp.map g).sum_eq, List.map_append, List.sum_append, List.map_map, List.sum_map_add]
  rfl

section
variable (hS : S.Closed valid) (hT : T.Closed valid') (hE : PathMap R S valid T valid' path)
include hS hT hE

theorem PathMap.reverse_ends {d : L × ℕ} (hd : S.IsDart valid d) : ∃ a b, (path d).head? = some a ∧ (path d).getLast? = some b ∧
    (path (S.oppF d)).head? = some (T.oppF b) ∧ (path (S.oppF d)).getLast? = some (T.oppF a) := by
  obtain ⟨b, -, hb, -, -⟩ := hE.next d hd
  have hne : path d ≠ [] := by
    intro h
    rw [h] at hb
    cases hb
  refine ⟨(path d).head hne, b, List.head?_eq_some_head hne, hb, ?_, ?_⟩
  · rw [hE.rev d hd, List.head?_reverse, List.getLast?_map, hb]
    rfl
  · rw [hE.rev d hd, List.getLast?_reverse, List.head?_map, List.head?_eq_some_head hne]
    rfl

/-- The value of a function on vertices at the start of a path. -/
theorem PathMap.start_const {φ : L' × ℕ → R} (hφ : ∀ a b, T.SameVertex valid' a b → φ a = φ b) :
    ∀ a b, S.SameVertex valid a b → ((path a).head?.map φ).getD 0 = ((path b).head?.map φ).getD 0 := by
  intro a b h
  induction h with
  | rel a b h =>
    obtain ⟨ha, hb, h⟩ := h
    have ho := hS.oppF_dart ha
    have hab : b = S.nextF (S.oppF a) := by
      obtain ⟨-, p, hp, -⟩ := ho
      unfold Step rotateCw at h
      rw [hS.opp_oppF ha] at h
      simp only [bind, Except.bind, hp, pure, Except.pure] at h
      cases h
      unfold nextF
      rw [sides_eq hp]
    obtain ⟨h1, h2, k1, k2, k3, k4⟩ := hE.reverse_ends hS hT ha
    obtain ⟨x, y, k5, k6, k7⟩ := hE.next _ ho
    rw [k4] at k5
    cases k5
    have hh : T.IsDart valid' h1 := hE.dart a ha _ (List.mem_of_mem_head? k1)
    rw [hT.oppF_oppF hh] at k7
    rw [hab, k1, k6]
    exact hφ _ _ k7
  | refl => rfl
  | symm _ _ _ ih => exact ih.symm
  | trans _ _ _ _ _ ih1 ih2 => exact ih1.trans ih2

/-- The image of a cycle is a cycle. -/
theorem PathMap.cyc {es sx : List (L × ℕ)} (hn : es.Nodup) (hes : ∀ d, d ∈ es ↔ S.IsDart valid d) (hsn : sx.Nodup) (hsd : ∀ d ∈ sx, S.IsDart valid d)
    {es' : List (L' × ℕ)} (hn' : es'.Nodup) (hes' : ∀ d, d ∈ es' ↔ T.IsDart valid' d) {C : L × ℕ → L' × ℕ → R}
    (hC : ∀ d ∈ sx, ∀ x, T.IsDart valid' x → T.flow (C d) x = T.flow (pathSum R (path d)) x) {f : L × ℕ → R} (hf : ∀ d, d ∉ sx → f d = 0)
    (h : S.Cyc valid es f) : T.Cyc valid' es' ((sx.map fun d => f d • C d).sum) := by
  intro φ hφ
  rw [pairing_list_sum]
  have key : ∀ d ∈ sx, (es'.map fun x => (f d • C d) x * (φ (T.oppF x) - φ x)).sum =
      f d * (((path (S.oppF d)).head?.map φ).getD 0 - ((path d).head?.map φ).getD 0) := by
    intro d hd
    have hdd := hsd d hd
    obtain ⟨a, b, k1, k2, k3, -⟩ := hE.reverse_ends hS hT hdd
    have e1 : (es'.map fun x => (f d • C d) x * (φ (T.oppF x) - φ x)).sum = f d * (es'.map fun x => C d x * (φ (T.oppF x) - φ x)).sum := by
      rw [← List.sum_map_mul_left]
      congr 1
      refine List.map_congr_left fun x _ => ?_
      rw [Pi.smul_apply, smul_eq_mul, mul_assoc]
    rw [e1, pairing_flow hT hn' hes']
    have e2 : es'.map (fun x => φ x * T.flow (C d) x) = es'.map (fun x => φ x * T.flow (pathSum R (path d)) x) :=
      List.map_congr_left fun x hx => by rw [hC d hd x ((hes' x).1 hx)]
    rw [e2, ← pairing_flow hT hn' hes']
    unfold pathSum
    rw [pairing_list_sum]
    have e3 : (path d).map (fun e => (es'.map fun x => (Pi.single e (1 : R) : L' × ℕ → R) x * (φ (T.oppF x) - φ x)).sum) =
        (path d).map fun e => φ (T.oppF e) - φ e :=
      List.map_congr_left fun e he => pairing_single hn' ((hes' e).2 (hE.dart d hdd e he)) fun x => φ (T.oppF x) - φ x
    rw [e3, path_telescope hφ _ (hE.chain d hdd) k1 k2, k1, k3]
    rfl
  rw [List.map_congr_left key, ← sum_support hn hsn (fun d hd => (hes d).2 (hsd d hd)) _ (fun d _ h => by rw [hf d h, zero_mul])]
  exact h _ (hE.start_const hS hT hφ)

/-- The image of a boundary is a boundary. -/
theorem PathMap.null {ls : List L} (hln : ls.Nodup) (hls : ∀ l, l ∈ ls ↔ valid l) {es sx : List (L × ℕ)} (hn : es.Nodup)
    (hes : ∀ d, d ∈ es ↔ S.IsDart valid d) (hsn : sx.Nodup) (hsd : ∀ d ∈ sx, S.IsDart valid d)
    (hsx : ∀ d, S.IsDart valid d → d ∈ sx ∨ S.oppF d ∈ sx) (hsx2 : ∀ d ∈ sx, S.oppF d ∈ sx → S.oppF d = d)
    (hfold : ∀ d, S.IsDart valid d → S.oppF d ≠ d) {C : L × ℕ → L' × ℕ → R}
    (hC : ∀ d ∈ sx, ∀ x, T.IsDart valid' x → T.flow (C d) x = T.flow (pathSum R (path d)) x) {f : L × ℕ → R} (hf : ∀ d, d ∉ sx → f d = 0)
    (h : S.Null valid f) : T.Null valid' ((sx.map fun d => f d • C d).sum) := by
  obtain ⟨w, hw⟩ := h
  have hface : T.Null valid' ((ls.map fun l => w l • pathSum R ((List.range (S.sides l)).flatMap fun e => path (l, e))).sum) := by
    have : ∀ l ∈ ls, valid l := fun l hl => (hls l).1 hl
    clear hln hls
    induction ls with
    | nil => exact ⟨0, fun d _ => by simp [flow]⟩
    | cons l ls ih =>
      rw [List.map_cons, List.sum_cons]
      refine null_add ?_ (ih fun l hl => this l (List.mem_cons_of_mem _ hl))
      obtain ⟨v, hv⟩ := hE.face l (this l List.mem_cons_self)
      refine ⟨w l • v, fun d hd => ?_⟩
      rw [flow_smul, hv d hd, Pi.smul_apply, Pi.smul_apply, smul_eq_mul, smul_eq_mul, mul_sub]
  refine (null_congr fun x hx => ?_).1 hface
  rw [flow_list_sum, flow_list_sum]
  -- the sum over all edges
  have hp : es.Perm (ls.flatMap fun l => (List.range (S.sides l)).map fun e => (l, e)) := by
    rw [List.perm_ext_iff_of_nodup hn]
    · rintro ⟨l, e⟩
      rw [hes, isDart_iff hS.bordered, List.mem_flatMap]
      simp only [List.mem_map, List.mem_range, Prod.mk.injEq, hls]
      constructor
      · rintro ⟨h1, h2⟩; exact ⟨l, h1, e, h2, rfl, rfl⟩
      · rintro ⟨l', h1, e', h2, rfl, rfl⟩; exact ⟨h1, h2⟩
    · rw [List.nodup_flatMap]
      refine ⟨fun l _ => List.Nodup.map (fun a b h => (Prod.mk.inj h).2) List.nodup_range, ?_⟩
      refine hln.imp ?_
      intro a b hab c hc hc'
      obtain ⟨_, -, rfl⟩ := List.mem_map.1 hc
      obtain ⟨_, -, h⟩ := List.mem_map.1 hc'
      exact hab (Prod.mk.inj h).1.symm
  have h1 : (ls.map fun l => T.flow (w l • pathSum R ((List.range (S.sides l)).flatMap fun e => path (l, e))) x).sum =
      (es.map fun d => w d.1 * T.flow (pathSum R (path d)) x).sum := by
    rw [(hp.map _).sum_eq]
    clear hp hls hln hface
    induction ls with
    | nil => rfl
    | cons l ls ih =>
      rw [List.map_cons, List.sum_cons, ih, List.flatMap_cons, List.map_append, List.sum_append, flow_smul, pathSum_flatMap, flow_list_sum,
        ← List.sum_map_mul_left, List.map_map]
      rfl
  rw [h1, sum_simplices hS hn hes hsn hsd hsx hsx2 hfold]
  congr 1
  refine List.map_congr_left fun d hd => ?_
  have hdd := hsd d hd
  have h2 : f (S.oppF d) = 0 := hf _ fun h => hfold d hdd (hsx2 d hd h)
  have h3 := hw d hdd
  rw [flow, h2, sub_zero] at h3
  rw [hE.rev d hdd, flow_reverse hT (hE.dart d hdd) hx, flow_smul, hC d hd x hx, h3]
  ring

end

end RSurf
end Flat
