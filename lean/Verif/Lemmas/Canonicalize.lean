import Verif.Lemmas.SurfaceCode
import Verif.Props.Relabel
import Verif.Props.Copy
import Verif.Props.Equality

/-!
# The steps of `canonicalize`
-/

namespace Flat
namespace MSurf
variable {L K : Type} [LinearOrder L] [LabelNum L] [Field K] [LinearOrder K] [IsStrictOrderedRing K]

theorem exec_ok {m : Act L (Poly K) Unit} {s t : MSurf L (Poly K)} : exec m s = .ok t ↔ m s = .ok () t := by
  unfold exec
  cases m s with
  | ok a u => simp
  | error e u => simp

theorem exec_wp {m : Act L (Poly K) Unit} {s t : MSurf L (Poly K)} {Q : MSurf L (Poly K) → Prop} {E : Err → MSurf L (Poly K) → Prop}
    (h : wp m (fun _ => Q) E s) (ht : exec m s = .ok t) : Q t := by
  rw [exec_ok] at ht
  unfold wp at h
  rw [ht] at h
  exact h

/-- All polygons of the surface are polygons. -/
def AllValid (s : MSurf L (Poly K)) : Prop := ∀ l p, s.polygons.get l = some p → p.Valid

/-- The surface is connected and not empty. -/
def OnePiece (s : MSurf L (Poly K)) : Prop := s.polygons.keys ≠ [] ∧ ∀ a ∈ s.polygons.keys, ∀ b ∈ s.polygons.keys, s.Conn a b

/-- `t` arises from `s` by standardizing the polygons. -/
structure Std (s t : MSurf L (Poly K)) : Prop where
  polygons : ∀ x, t.polygons.get x = (s.polygons.get x).map (fun p => p.turned p.bestVertex)
  shifted : Shifted (fun x => (s.polyAt x).bestVertex) s t

theorem standardizePolygons_spec {s : MSurf L (Poly K)} (hs : Good s) (hv : AllValid s) :
    wp standardizePolygons (fun _ t => Good t ∧ Std s t) (fun _ _ => True) s := by
  obtain ⟨ls, hls, hln, hlm⟩ := labels_spec hs.1 hs.2.2
  have hps : s.polygonList = .ok (ls.map s.polyAt) := by
    unfold polygonList
    simp only [hls, bind, Except.bind]
    rw [mapM_ok_iff, List.forall₂_map_right_iff]
    exact List.forall₂_same.2 fun l hl => polygon_polyAt ((hlm l).1 hl)
  set w : L → ℕ := fun l => (s.polyAt l).bestVertex with hw
  set ls' := ls.filter (fun l => decide (¬ (w l = 0 ∧ (s.polyAt l).vertex (w l) = 0))) with hls'
  have hlist : (ls.zip (ls.map s.polyAt)).filterMap canonicalVertex = ls'.map (fun l => (l, w l)) := by
    rw [hls']
    clear hls hln hlm hps hls'
    induction ls with
    | nil => rfl
    | cons a ls ih =>
      rw [List.map_cons, List.zip_cons_cons, List.filterMap_cons, ih, List.filter_cons]
      unfold canonicalVertex
      by_cases h : ¬ (w a = 0 ∧ (s.polyAt a).vertex (w a) = 0)
      · rw [if_pos h, if_pos (decide_eq_true h)]
        rfl
      · rw [if_neg h, if_neg (show ¬ decide _ = true from fun hd => h (of_decide_eq_true hd))]
  have hmem : ∀ l p, s.polygons.get l = some p → l ∉ ls' → w l = 0 ∧ p.vertex 0 = 0 := by
    intro l p hp hl
    have hk : l ∈ ls := (hlm l).2 (by rw [Dict.mem_keys_iff, hp]; rfl)
    rw [hls', List.mem_filter, not_and] at hl
    have h1 : w l = 0 ∧ (s.polyAt l).vertex (w l) = 0 := by
      by_contra hc
      exact hl hk (decide_eq_true hc)
    rw [polyAt_eq hp] at h1
    exact ⟨h1.1, by rw [h1.1] at h1; exact h1.2⟩
  unfold standardizePolygons
  rw [wp_bind, wp_get, wp_bind, wp_liftE, hls]
  refine ⟨fun a ha => ?_, fun _ _ => trivial⟩
  injection ha with ha
  subst ha
  rw [wp_bind, wp_liftE, hps]
  refine ⟨fun a ha => ?_, fun _ _ => trivial⟩
  injection ha with ha
  subst ha
  rw [hlist]
  refine wp_mono (setVertexZeros_spec w ls' (hln.filter _) hs fun l hl => ?_) ?_ (fun _ _ h => h)
  · have hk : l ∈ s.polygons.keys := (hlm l).1 (List.mem_filter.1 hl).1
    rw [Dict.mem_keys_iff, Option.isSome_iff_exists] at hk
    obtain ⟨p, hp⟩ := hk
    refine ⟨p, hp, ?_⟩
    rw [hw]
    dsimp only
    rw [polyAt_eq hp]
    have := (hv l p hp).len3
    exact (Poly.bestVertex_spec (by omega)).1
  · rintro _ t ⟨g, h1, h2⟩
    refine ⟨g, fun x => ?_, ?_⟩
    · rw [h1]
      cases hp : s.polygons.get x with
      | none => simp
      | some p =>
        split_ifs with hx
        · rw [hw]
          dsimp only
          rw [polyAt_eq hp]
          rfl
        · obtain ⟨h3, h4⟩ := hmem x p hp hx
          rw [hw] at h3
          dsimp only at h3
          rw [polyAt_eq hp] at h3
          rw [Option.map_some, h3, Poly.turned_zero h4]
    · intro l p e l' p' e' hp hp' he he' ho
      refine h2 l p e l' p' e' hp hp' he he' ?_
      have hh : ∀ l p, s.polygons.get l = some p → (if l ∈ ls' then w l else 0) = w l := by
        intro l p hp
        split_ifs with hl
        · rfl
        · exact (hmem l p hp hl).1.symm
      dsimp only
      rw [hh l p hp, hh l' p' hp']
      exact ho

theorem Std.length {s t : MSurf L (Poly K)} (h : Std s t) (l : L) :
    (t.polygons.get l).map List.length = (s.polygons.get l).map List.length := by
  rw [h.polygons]
  cases s.polygons.get l with
  | none => rfl
  | some p => simp [Poly.turned_length]

theorem Std.mem {s t : MSurf L (Poly K)} (h : Std s t) (l : L) : l ∈ t.polygons.keys ↔ l ∈ s.polygons.keys := by
  rw [Dict.mem_keys_iff, Dict.mem_keys_iff, h.polygons]
  cases s.polygons.get l <;> rfl

theorem Std.adj {s t : MSurf L (Poly K)} (h : Std s t) (hs : GInv s) {a b : L} (ha : s.Adj a b) : t.Adj a b := by
  obtain ⟨e, e', ho⟩ := ha
  obtain ⟨p, h1, h2⟩ := opp_isEdge hs.toShape ho
  obtain ⟨p', k, h3, h4, h5, -⟩ := opp_target hs ho
  have h2' : e < p.length := h2
  refine ⟨_, _, h.shifted a p ((e + p.length * (s.polyAt a).bestVertex - (s.polyAt a).bestVertex) % p.length) b p'
    ((k + p'.length * (s.polyAt b).bestVertex - (s.polyAt b).bestVertex) % p'.length) h1 h3 (Nat.mod_lt _ (by omega)) (Nat.mod_lt _ (by omega)) ?_⟩
  rw [unshift h2', unshift h4, ho, h5]

theorem Std.onePiece {s t : MSurf L (Poly K)} (h : Std s t) (hs : GInv s) (ho : OnePiece s) : OnePiece t := by
  refine ⟨?_, fun a ha b hb => ?_⟩
  · obtain ⟨a, ha⟩ := List.exists_mem_of_ne_nil _ ho.1
    exact List.ne_nil_of_mem ((h.mem a).2 ha)
  · have hc := ho.2 a ((h.mem a).1 ha) b ((h.mem b).1 hb)
    clear hb
    induction hc with
    | refl => exact Relation.ReflTransGen.refl
    | tail _ hstep ih => exact ih.tail (h.adj hs hstep)

theorem Std.noBorder {s t : MSurf L (Poly K)} (h : Std s t) (hs : GInv s) (hb : NoBorder s) : NoBorder t :=
  h.shifted.noBorder hs hb h.length

theorem Relabeled.onePiece {f : L → L} {s t : MSurf L (Poly K)} (h : Relabeled f s t) (hs : GInv s) (ho : OnePiece s) : OnePiece t := by
  refine ⟨?_, fun a ha b hb => ?_⟩
  · obtain ⟨a, ha⟩ := List.exists_mem_of_ne_nil _ ho.1
    exact List.ne_nil_of_mem ((h.keys (f a)).2 ⟨a, ha, rfl⟩)
  · obtain ⟨a', ha', rfl⟩ := (h.keys a).1 ha
    obtain ⟨b', hb', rfl⟩ := (h.keys b).1 hb
    exact (h.conn' hs ha' (ho.2 a' ha' b' hb')).1

theorem Relabeled.noBorder {f : L → L} {s t : MSurf L (Poly K)} (h : Relabeled f s t) (hb : NoBorder s) : NoBorder t := by
  intro m p e hp he
  obtain ⟨l, hl, rfl⟩ := (h.keys m).1 (by rw [Dict.mem_keys_iff, hp]; rfl)
  obtain ⟨c, hc⟩ := hb l p e (by rw [← h.polygons l hl, hp]) he
  exact ⟨_, by rw [h.opp l hl, hc]; rfl⟩

theorem Relabeled.trans' {f g : L → L} {s t u : MSurf L (Poly K)} (h : Relabeled f s t) (h' : Relabeled g t u) (hs : GInv s) : Relabeled (g ∘ f) s u := by
  have hk : ∀ l ∈ s.polygons.keys, f l ∈ t.polygons.keys := fun l hl => (h.keys _).2 ⟨l, hl, rfl⟩
  refine ⟨fun a ha b hb hab => h.inj a ha b hb (h'.inj _ (hk a ha) _ (hk b hb) hab), fun l hl => ?_, fun l hl e => ?_, fun m => ?_⟩
  · rw [Function.comp, h'.polygons _ (hk l hl), h.polygons l hl]
  · rw [Function.comp, h'.opp _ (hk l hl), h.opp l hl, Option.map_map]
    rfl
  · rw [h'.keys]
    constructor
    · rintro ⟨a, ha, rfl⟩
      obtain ⟨b, hb, rfl⟩ := (h.keys a).1 ha
      exact ⟨b, hb, rfl⟩
    · rintro ⟨b, hb, rfl⟩
      exact ⟨f b, hk b hb, rfl⟩

/-- A copy of a surface. -/
theorem fromSurface_copy {s t : MSurf L (Poly K)} (h : GInv s) (hr : RootsOK s) {t0 : MSurf L (Poly K)} (ht : exec (fromSurface s none) t0 = .ok t) :
    Good t ∧ Relabeled id s t ∧ t.roots = s.roots := by
  obtain ⟨ls, hls, hln, hlm⟩ := labels_spec h hr
  obtain ⟨t', h1, h2, h3, h4, h5⟩ := fromSurface_spec h hr t0 none ls (Or.inr ⟨rfl, hls⟩) hln (fun l hl => (hlm l).1 hl)
  rw [exec_ok, h1] at ht
  injection ht with _ ht
  subst ht
  have hget : ∀ l, t'.polygons.get l = s.polygons.get l := by
    intro l
    rw [h3]
    split_ifs with hl
    · rfl
    · rw [hlm, Dict.mem_keys_iff, Option.not_isSome_iff_eq_none] at hl
      exact hl.symm
  refine ⟨h2, ⟨fun a _ b _ hab => hab, fun l _ => hget l, fun l _ e => ?_, fun l => ?_⟩, ?_⟩
  · have : ∀ c, t'.opp l e = some c ↔ s.opp l e = some c := by
      intro c
      rw [h4]
      refine ⟨fun hc => hc.1, fun hc => ⟨hc, ?_, ?_⟩⟩
      · exact (hlm l).2 (isEdge_mem (opp_isEdge h.toShape hc))
      · obtain ⟨_, _, hk⟩ := h.inv _ _ _ _ hc
        exact (hlm _).2 (isEdge_mem (opp_isEdge h.toShape hk))
    show t'.opp l e = _
    rw [Option.ext this]
    cases s.opp l e <;> rfl
  · rw [Dict.mem_keys_iff, hget, ← Dict.mem_keys_iff]
    simp
  · rw [h5, List.filter_eq_self]
    intro r hrr
    simpa using (hlm r).2 (hr.mem r hrr)

theorem fromSurface_succeeds {s : MSurf L (Poly K)} (h : GInv s) (hr : RootsOK s) (t0 : MSurf L (Poly K)) :
    ∃ t, exec (fromSurface s none) t0 = .ok t := by
  obtain ⟨ls, hls, hln, hlm⟩ := labels_spec h hr
  obtain ⟨t', h1, _⟩ := fromSurface_spec h hr t0 none ls (Or.inr ⟨rfl, hls⟩) hln (fun l hl => (hlm l).1 hl)
  exact ⟨t', exec_ok.2 h1⟩

/-- Changing the roots changes nothing else. -/
theorem relabeled_roots (s : MSurf L (Poly K)) (rs : List L) (b : Bool) : Relabeled id s { s with roots := rs, mutable := b } :=
  ⟨fun a _ b _ hab => hab, fun _ _ => rfl, fun l _ e => by
    show s.opp l e = _
    cases s.opp l e <;> rfl, fun l => by simp⟩

/-- A connected surface is listed from its root. -/
theorem labels_rooted {s : MSurf L (Poly K)} (h : GInv s) (hr : RootsOK s) (ho : OnePiece s) {r : L} (hroot : s.roots = [r]) :
    s.rootsList = .ok [r] ∧ s.labels = s.component r := by
  have hrk : r ∈ s.polygons.keys := hr.mem r (by rw [hroot]; simp)
  have h1 : s.rootsList = .ok [r] := by
    rw [rootsList_of_cover h hr, hroot]
    intro l hl
    exact ⟨r, by rw [hroot]; simp, ho.2 r hrk l hl⟩
  refine ⟨h1, ?_⟩
  obtain ⟨c, hc, -⟩ := component_spec h hrk
  unfold labels components
  simp only [h1, bind, Except.bind, hc, List.mapM_cons, List.mapM_nil, pure, Except.pure]
  simp

theorem component_keys {s : MSurf L (Poly K)} (h : GInv s) (ho : OnePiece s) {r : L} (hrk : r ∈ s.polygons.keys) :
    ∃ c, s.component r = .ok (r :: c) ∧ (r :: c).Nodup ∧ ∀ l, l ∈ r :: c ↔ l ∈ s.polygons.keys := by
  obtain ⟨c, hc, h1, h2⟩ := component_spec h hrk
  refine ⟨c, hc, h1, fun l => ?_⟩
  rw [h2]
  exact ⟨fun hl => conn_mem h hl hrk, fun hl => ho.2 r hrk l hl⟩

end MSurf
end Flat
