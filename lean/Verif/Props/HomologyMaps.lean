import Verif.Model.HomologyMaps
import Verif.Props.HomologyMorphism
import Verif.Lemmas.PathMap
import Verif.Props.Subdivide

/-!
# C78: morphisms of surfaces act on homology
-/

namespace Flat
open Module
namespace RSurf
variable {L L' K : Type} [DecidableEq L] [DecidableEq L'] [Field K] [LinearOrder K] [IsStrictOrderedRing K] {S : RSurf L K} {T : RSurf L' K}
  {valid : L → Prop} {valid' : L' → Prop} {R : Type} [CommRing R] {path : L × ℕ → List (L' × ℕ)}

theorem pathChain_spec (hT : T.Closed valid') {sx : List (L' × ℕ)} (hsx : ∀ d, T.IsDart valid' d → d ∈ sx ∨ T.oppF d ∈ sx) (ds : List (L' × ℕ))
    (hds : ∀ d ∈ ds, T.IsDart valid' d) : ∃ c : L' × ℕ → R, T.pathChain sx ds = .ok c ∧ (∀ x, x ∉ sx → c x = 0) ∧
      ∀ x, T.IsDart valid' x → T.flow c x = T.flow (pathSum R ds) x := by
  induction ds with
  | nil => exact ⟨0, rfl, fun _ _ => rfl, fun _ _ => rfl⟩
  | cons d ds ih =>
    obtain ⟨c, h1, h2, h3⟩ := toChain_spec (R := R) hT hsx (hds d List.mem_cons_self)
    obtain ⟨r, k1, k2, k3⟩ := ih fun x hx => hds x (List.mem_cons_of_mem _ hx)
    refine ⟨c + r, ?_, fun x hx => ?_, fun x hx => ?_⟩
    · simp only [pathChain, h1, k1, bind, Except.bind, pure, Except.pure]
    · rw [Pi.add_apply, h2 x hx, k2 x hx, add_zero]
    · rw [flow_add, h3 x hx, k3 x hx, pathSum_cons, flow_add]

/-- The first homology of a connected surface is computed, with some generators and lifts. -/
theorem C78_homology_exists (hS : S.Closed valid) (hc : S.Joined valid) (hself : ∀ d, S.IsDart valid d → S.opp d.1 d.2 ≠ .ok (some d)) {ls : List L}
    (hn : ls.Nodup) (hls : ∀ l, l ∈ ls ↔ valid l) (hne : ls ≠ []) (R : Type) [CommRing R] [IsDomain R] [IsPrincipalIdealRing R] :
    ∃ X : HData S valid R, X.ls = ls := by
  obtain ⟨es, he, -, -⟩ := edges_spec hS.bordered ls hn fun l hl => (hls l).1 hl
  obtain ⟨vx, sx, M1, M2, g, h1, h2, h3, h4, -, ⟨b⟩, -⟩ := C77_surface_partial hS hc hself hn hls hne he (Nat.lt_succ_self _) ∅ (by simp) R
  exact ⟨⟨ls, es, _, vx, sx, M1, M2, _, b, fun x => (Submodule.Quotient.mk_surjective _ x).choose,
    fun x => (Submodule.Quotient.mk_surjective _ x).choose_spec, hn, hls, he, Nat.lt_succ_self _, h1, h2, h3, h4⟩, rfl⟩

/-- The cycles of the group. -/
theorem HData.mem_Z (hS : S.Closed valid) (X : HData S valid R) (x : Fin X.sx.length → R) :
    x ∈ X.group.Z ↔ S.boundary1 X.fuel ∅ (items X.sx (chainOf X.sx x)) = .ok 0 :=
  mem_cycles hS X.nodup X.labels X.edges_eq X.fuel_lt X.vx_eq X.sx_eq X.M1_eq x

theorem HData.mem_B (hS : S.Closed valid) (X : HData S valid R) (x : Fin X.sx.length → R) :
    x ∈ X.group.B ↔ ∃ w : L → R, S.boundary2 X.sx (items X.ls w) = .ok (chainOf X.sx x) :=
  mem_boundaries hS X.nodup X.labels X.sx_eq X.M2_eq x

theorem HData.simplices (hS : S.Closed valid) (X : HData S valid R) : X.sx.Nodup ∧ (∀ d ∈ X.sx, S.IsDart valid d) ∧
    (∀ d, S.IsDart valid d → d ∈ X.sx ∨ S.oppF d ∈ X.sx) ∧ (∀ d ∈ X.sx, S.oppF d ∈ X.sx → S.oppF d = d) := by
  obtain ⟨sx, h, h'⟩ := simplices1_spec hS X.nodup X.labels
  rw [X.sx_eq] at h
  cases h
  exact h'

theorem HData.darts (hS : S.Closed valid) (X : HData S valid R) : X.es.Nodup ∧ ∀ d, d ∈ X.es ↔ S.IsDart valid d := by
  obtain ⟨es, h, h1, h2⟩ := edges_spec hS.bordered X.ls X.nodup fun l hl => (X.labels l).1 hl
  rw [X.edges_eq] at h
  cases h
  exact ⟨h1, fun d => by rw [h2]; exact ⟨fun h => h.2, fun h => ⟨(X.labels _).2 h.1, h⟩⟩⟩

theorem HData.mem_Z_cyc (hS : S.Closed valid) (X : HData S valid R) (x : Fin X.sx.length → R) : x ∈ X.group.Z ↔ S.Cyc valid X.es (chainOf X.sx x) := by
  obtain ⟨h1, h2, -, -⟩ := X.simplices hS
  obtain ⟨h3, h4⟩ := X.darts hS
  rw [X.mem_Z hS, boundary1_iff hS h3 h4 h1 h2 X.fuel_lt fun d hd => chainOf_not x hd]

theorem HData.mem_B_null (hS : S.Closed valid) (hself : ∀ d, S.IsDart valid d → S.opp d.1 d.2 ≠ .ok (some d)) (X : HData S valid R)
    (x : Fin X.sx.length → R) : x ∈ X.group.B ↔ S.Null valid (chainOf X.sx x) := by
  classical
  obtain ⟨h1, h2, h3, h4⟩ := X.simplices hS
  have hfold : ∀ d, S.IsDart valid d → S.oppF d ≠ d := fun d hd h => hself d hd (by rw [hS.opp_oppF hd, h])
  rw [X.mem_B hS]
  constructor
  · rintro ⟨w, hw⟩
    refine (boundary2_iff hS X.nodup X.labels h2 h3 h4 hfold fun d hd => chainOf_not x hd).1 ⟨_, ?_, hw⟩
    intro y hy
    obtain ⟨l, hl, rfl⟩ := List.mem_map.1 hy
    exact hl
  · rintro ⟨w, hw⟩
    refine ⟨w, ?_⟩
    obtain ⟨f, hf, hf0⟩ := boundary2_support hS h3 (items X.ls w) (by
      intro y hy
      obtain ⟨l, hl, rfl⟩ := List.mem_map.1 hy
      exact (X.labels l).1 hl)
    rw [hf]
    congr 1
    have hflow : ∀ d, S.IsDart valid d → S.flow f d = w d.1 - w (S.oppF d).1 := by
      intro d hd
      have hco : ∀ l, valid l → polygonCoeff (items X.ls w) l = w l := by
        intro l hl
        unfold polygonCoeff items
        rw [List.map_map]
        have := (X.labels l).2 hl
        rw [← List.sum_toFinset _ X.nodup, Finset.sum_eq_single l]
        · simp
        · intro b _ hb
          simp [hb]
        · intro h
          exact absurd (List.mem_toFinset.2 this) h
      rw [boundary2_flow hS h3 h4 _ (by
        intro y hy
        obtain ⟨l, hl, rfl⟩ := List.mem_map.1 hy
        exact (X.labels l).1 hl) hf hd, hco _ hd.1, hco _ (hS.oppF_dart hd).1]
    funext d
    by_cases hd : d ∈ X.sx
    · have hdd := h2 d hd
      have ho : S.oppF d ∉ X.sx := fun h => hfold d hdd (h4 d hd h)
      have e1 := hflow d hdd
      have e2 := hw d hdd
      rw [flow, hf0 _ ho, sub_zero] at e1
      rw [flow, chainOf_not x ho, sub_zero] at e2
      rw [e1, e2]
    · rw [hf0 d hd, chainOf_not x hd]

/-- What it means that a morphism of surfaces that maps an edge `d` to the chain `E d` acts on homology: the matrix is computed without an error, every cycle
has an image, and this image is the class of the sum of the images of the edges of the cycle, which is a cycle again. -/
def MapsHomology (X : HData S valid R) (Y : HData T valid' R) (E : L × ℕ → Except Err (L' × ℕ → R)) : Prop :=
  ∃ (f : HMor X.group Y.group) (c : Fin X.sx.length → Y.group.Chain), f = .induced (edgeClasses X.sx Y.sx E) ∧
    (∀ i, E X.sx[i] = .ok (chainOf Y.sx (c i))) ∧ (∃ A, HGroup.matrix f = .ok A) ∧
    ∀ x : X.group.Chain, S.boundary1 X.fuel ∅ (items X.sx (chainOf X.sx x)) = .ok 0 → ∃ y : Y.group.Chain, HGroup.call f x = .ok y ∧
      T.boundary1 Y.fuel ∅ (items Y.sx (chainOf Y.sx (∑ i : Fin X.sx.length, x i • c i))) = .ok 0 ∧
      Y.group.eq y (∑ i : Fin X.sx.length, x i • c i) = .ok true

/-- **C78.** A morphism of surfaces that maps edges to paths of edges, compatible with gluings, vertices and polygons, induces a homomorphism on homology: for
every cycle it is defined, and the image is the class of the combination of the paths. -/
theorem C78_path_map [Nontrivial R] (hS : S.Closed valid) (hT : T.Closed valid') (hself : ∀ d, S.IsDart valid d → S.opp d.1 d.2 ≠ .ok (some d))
    (hself' : ∀ d, T.IsDart valid' d → T.opp d.1 d.2 ≠ .ok (some d)) (X : HData S valid R) (Y : HData T valid' R) (hE : PathMap R S valid T valid' path)
    (E : L × ℕ → Except Err (L' × ℕ → R)) (hEp : ∀ d, S.IsDart valid d → E d = T.pathChain Y.sx (path d)) : MapsHomology X Y E := by
  obtain ⟨h1, h2, h3, h4⟩ := X.simplices hS
  obtain ⟨k1, k2, k3, k4⟩ := Y.simplices hT
  obtain ⟨h5, h6⟩ := X.darts hS
  obtain ⟨k5, k6⟩ := Y.darts hT
  have hfold : ∀ d, S.IsDart valid d → S.oppF d ≠ d := fun d hd h => hself d hd (by rw [hS.opp_oppF hd, h])
  have hC : ∀ d, ∃ c : L' × ℕ → R, S.IsDart valid d → T.pathChain Y.sx (path d) = .ok c ∧ (∀ x, x ∉ Y.sx → c x = 0) ∧
      ∀ x, T.IsDart valid' x → T.flow c x = T.flow (pathSum R (path d)) x := by
    intro d
    by_cases hd : S.IsDart valid d
    · obtain ⟨c, hc⟩ := pathChain_spec (R := R) hT k3 (path d) (hE.dart d hd)
      exact ⟨c, fun _ => hc⟩
    · exact ⟨0, fun h => absurd h hd⟩
  choose C hC using hC
  let c : Fin X.sx.length → Fin Y.sx.length → R := fun i j => C X.sx[i] Y.sx[j]
  have hdart : ∀ i : Fin X.sx.length, S.IsDart valid X.sx[i] := fun i => h2 _ (List.getElem_mem i.2)
  have hcC : ∀ i, chainOf Y.sx (c i) = C X.sx[i] := fun i => chainOf_items Y.sx k1 _ (hC _ (hdart i)).2.1
  have hEi : ∀ i : Fin X.sx.length, E X.sx[i] = .ok (C X.sx[i]) := fun i => by rw [hEp _ (hdart i), (hC _ (hdart i)).1]
  let Φ : (Fin X.sx.length → R) →ₗ[R] (Fin Y.sx.length → R) :=
    { toFun := fun x => ∑ i : Fin X.sx.length, x i • c i
      map_add' := fun x y => by simp only [Pi.add_apply, add_smul, Finset.sum_add_distrib]
      map_smul' := fun r x => by simp only [Pi.smul_apply, smul_eq_mul, mul_smul, Finset.smul_sum, RingHom.id_apply] }
  have himg : ∀ x : Fin X.sx.length → R, chainOf Y.sx (Φ x) = (X.sx.map fun d => chainOf X.sx x d • C d).sum := by
    intro x
    rw [← Fin.sum_univ_fun_getElem]
    have : chainOf Y.sx (Φ x) = ∑ i : Fin X.sx.length, x i • chainOf Y.sx (c i) := by
      funext d
      rw [Finset.sum_apply]
      by_cases hd : d ∈ Y.sx
      · obtain ⟨j, hj, rfl⟩ := List.getElem_of_mem hd
        have e1 := chainOf_get k1 (Φ x) ⟨j, hj⟩
        rw [show chainOf Y.sx (Φ x) Y.sx[j] = _ from e1]
        show (∑ i : Fin X.sx.length, x i • c i) ⟨j, hj⟩ = _
        rw [Finset.sum_apply]
        refine Finset.sum_congr rfl fun i _ => ?_
        have e2 := chainOf_get k1 (c i) ⟨j, hj⟩
        rw [Pi.smul_apply, Pi.smul_apply, show chainOf Y.sx (c i) Y.sx[j] = _ from e2]
      · rw [chainOf_not _ hd]
        symm
        refine Finset.sum_eq_zero fun i _ => ?_
        rw [Pi.smul_apply, chainOf_not _ hd, smul_zero]
    rw [this]
    refine Finset.sum_congr rfl fun i _ => ?_
    have e3 : chainOf X.sx x X.sx[i] = x i := chainOf_get h1 x i
    rw [hcC]
    exact congrArg (· • C X.sx[i]) e3.symm
  have hflow : ∀ d ∈ X.sx, ∀ x, T.IsDart valid' x → T.flow (C d) x = T.flow (pathSum R (path d)) x := fun d hd => (hC d (h2 d hd)).2.2
  have hZ : ∀ x : Fin X.sx.length → R, x ∈ X.group.Z → Φ x ∈ Y.group.Z := by
    intro x hx
    rw [X.mem_Z_cyc hS] at hx
    rw [Y.mem_Z_cyc hT, himg]
    exact hE.cyc hS hT h5 h6 h1 h2 k5 k6 hflow (fun d hd => chainOf_not x hd) hx
  have hB : ∀ x : Fin X.sx.length → R, x ∈ X.group.B → x ∈ X.group.Z → Φ x ∈ Y.group.B := by
    intro x hx _
    rw [X.mem_B_null hS hself] at hx
    rw [Y.mem_B_null hT hself', himg]
    exact hE.null hS hT X.nodup X.labels h5 h6 h1 h2 h3 h4 hfold hflow (fun d hd => chainOf_not x hd) hx
  have hΦ : ∀ e, edgeClasses X.sx Y.sx E e = .ok (Φ (Pi.single e 1)) := by
    intro e
    unfold edgeClasses
    rw [hEi]
    show Except.ok (c e) = _
    congr 1
    show c e = ∑ i : Fin X.sx.length, (Pi.single e (1 : R) : Fin X.sx.length → R) i • c i
    rw [Finset.sum_eq_single e]
    · simp
    · intro i _ hi
      rw [Pi.single_eq_of_ne hi, zero_smul]
    · simp
  obtain ⟨m1, m2⟩ := HGroup.C78_induced (G := X.group) (H := Y.group) (edgeClasses X.sx Y.sx E) Φ hΦ hZ hB
  refine ⟨.induced (edgeClasses X.sx Y.sx E), c, rfl, fun i => by rw [hEi, hcC], m1, fun x hx => ?_⟩
  have hx := (X.mem_Z hS x).2 hx
  obtain ⟨y, n1, n2⟩ := m2 x hx
  exact ⟨y, n1, (Y.mem_Z hT _).1 (hZ x hx), n2⟩

end RSurf
end Flat
