import Verif.Lemmas.CanonicalForm

/-!
# Surfaces that differ by the choice of labels, first vertices and positions
-/

namespace Flat
namespace MSurf
variable {L K : Type} [LinearOrder L] [LabelNum L] [Field K] [LinearOrder K] [IsStrictOrderedRing K]
variable {s t u S T C D E : MSurf L (Poly K)}

/-- The surfaces differ only in the names of the polygons, in the vertices of the polygons at which the numbering starts, and in the positions of the
polygons in the plane: the polygon `l` of `s` is the polygon `f l` of `t`, and edge `e + v l` of the former is edge `e` of the latter. -/
structure TranslationIso (f : L → L) (v : L → ℕ) (s t : MSurf L (Poly K)) : Prop where
  inj : ∀ a b p q, s.polygon a = .ok p → s.polygon b = .ok q → f a = f b → a = b
  surj : ∀ m q, t.polygon m = .ok q → ∃ l p, s.polygon l = .ok p ∧ m = f l
  polygon : ∀ l p, s.polygon l = .ok p → ∃ q, t.polygon (f l) = .ok q ∧ q.length = p.length ∧
    ∃ c : Vec K, ∀ i, q.vertex i = p.vertex (i + v l) + c
  glue : ∀ l p e l' p' e', s.polygon l = .ok p → s.polygon l' = .ok p' → e < p.length → e' < p'.length →
    s.oppositeEdge l ((e + v l) % p.length : ℕ) = .ok (some (l', (((e' + v l') % p'.length : ℕ) : Int))) →
    t.oppositeEdge (f l) e = .ok (some (f l', (e' : Int)))

/-- All edges are glued. -/
def Closed (s : MSurf L (Poly K)) : Prop :=
  ∀ l p (e : ℕ), s.polygon l = .ok p → e < p.length → ∃ c, s.oppositeEdge l e = .ok (some c)

theorem oppositeEdge_opp_some (h : GInv s) {l : L} {e : ℕ} {c : L × Int} : s.oppositeEdge l e = .ok (some c) ↔ s.opp l e = some c := by
  by_cases he : s.IsEdge l e
  · rw [oppositeEdge_eq_opp h.toShape he]
    simp
  · rw [oppositeEdge_error h.toShape he]
    refine ⟨fun hc => (by cases hc), fun hc => absurd (opp_isEdge h.toShape hc) he⟩

theorem Closed.noBorder (h : Closed s) (hs : GInv s) : NoBorder s := by
  intro l p e hp he
  obtain ⟨c, hc⟩ := h l p e (polygon_ok.2 hp) he
  exact ⟨c, (oppositeEdge_opp_some hs).1 hc⟩

theorem NoBorder.closed (h : NoBorder s) (hs : GInv s) : Closed s := by
  intro l p e hp he
  obtain ⟨c, hc⟩ := h l p e (polygon_ok.1 hp) he
  exact ⟨c, (oppositeEdge_opp_some hs).2 hc⟩

theorem onePiece_of_rootsList (h : GInv s) (hr : RootsOK s) {r : L} (hl : s.rootsList = .ok [r]) : OnePiece s := by
  obtain ⟨rs, h1, h2, h3, h4⟩ := rootsList_spec h hr
  rw [hl] at h1
  injection h1 with h1
  rw [← h1] at h2 h4
  refine ⟨List.ne_nil_of_mem (h2 r (by simp)), fun a ha b hb => ?_⟩
  obtain ⟨r1, hr1, c1⟩ := h4 a ha
  obtain ⟨r2, hr2, c2⟩ := h4 b hb
  rw [List.mem_singleton] at hr1 hr2
  subst hr1
  subst hr2
  exact conn_trans (conn_symm h c1) c2

theorem mem_of_polygon {l : L} {p : Poly K} (h : s.polygon l = .ok p) : l ∈ s.polygons.keys := by
  rw [Dict.mem_keys_iff, polygon_ok.1 h]
  rfl

theorem polygon_of_mem {l : L} (h : l ∈ s.polygons.keys) : ∃ p, s.polygon l = .ok p := ⟨_, polygon_polyAt h⟩

theorem Relabeled.iso {f : L → L} (h : Relabeled f s t) (hs : GInv s) (ht : GInv t) : TranslationIso f (fun _ => 0) s t := by
  refine ⟨fun a b p q ha hb => h.inj a (mem_of_polygon ha) b (mem_of_polygon hb), fun m q hm => ?_, fun l p hp => ?_, fun l p e l' p' e' hp hp' he he' ho => ?_⟩
  · obtain ⟨l, hl, rfl⟩ := (h.keys m).1 (mem_of_polygon hm)
    obtain ⟨p, hp⟩ := polygon_of_mem hl
    exact ⟨l, p, hp, rfl⟩
  · refine ⟨p, ?_, rfl, 0, fun i => by simp⟩
    rw [polygon_ok, h.polygons l (mem_of_polygon hp), polygon_ok.1 hp]
  · rw [add_zero, add_zero, Nat.mod_eq_of_lt he, Nat.mod_eq_of_lt he', oppositeEdge_opp_some hs] at ho
    rw [oppositeEdge_opp_some ht, h.opp l (mem_of_polygon hp), ho]
    rfl

theorem Std.iso (h : Std s t) (hs : GInv s) (ht : GInv t) (hv : AllValid s) : TranslationIso id (fun l => (s.polyAt l).bestVertex) s t := by
  refine ⟨fun a b p q _ _ hab => hab, fun m q hm => ?_, fun l p hp => ?_, fun l p e l' p' e' hp hp' he he' ho => ?_⟩
  · obtain ⟨p, hp⟩ := polygon_of_mem ((h.mem m).1 (mem_of_polygon hm))
    exact ⟨m, p, hp, rfl⟩
  · have hp' := polygon_ok.1 hp
    refine ⟨p.turned p.bestVertex, ?_, Poly.turned_length _ _, -p.vertex p.bestVertex, fun i => ?_⟩
    · rw [polygon_ok, id, h.polygons, hp']
      rfl
    · have := (hv l p hp').len3
      rw [Poly.turned_vertex (by omega), polyAt_eq hp', sub_eq_add_neg]
  · rw [oppositeEdge_opp_some hs] at ho
    rw [oppositeEdge_opp_some ht]
    exact h.shifted l p e l' p' e' (polygon_ok.1 hp) (polygon_ok.1 hp') he he' ho

theorem TranslationIso.trans {f g : L → L} {v w : L → ℕ} (h : TranslationIso f v s t) (h' : TranslationIso g w t u) :
    TranslationIso (g ∘ f) (fun l => w (f l) + v l) s u := by
  refine ⟨fun a b p q ha hb hab => ?_, fun m q hm => ?_, fun l p hp => ?_, fun l p e l' p' e' hp hp' he he' ho => ?_⟩
  · obtain ⟨p1, h1, -⟩ := h.polygon a p ha
    obtain ⟨q1, h2, -⟩ := h.polygon b q hb
    exact h.inj a b p q ha hb (h'.inj _ _ p1 q1 h1 h2 hab)
  · obtain ⟨l, p, hp, rfl⟩ := h'.surj m q hm
    obtain ⟨l0, p0, hp0, rfl⟩ := h.surj l p hp
    exact ⟨l0, p0, hp0, rfl⟩
  · obtain ⟨q, h1, h2, c, h3⟩ := h.polygon l p hp
    obtain ⟨q', k1, k2, c', k3⟩ := h'.polygon _ q h1
    exact ⟨q', k1, k2.trans h2, c + c', fun i => by rw [k3, h3, add_assoc, add_assoc]⟩
  · obtain ⟨q, h1, h2, -⟩ := h.polygon l p hp
    obtain ⟨q', k1, k2, -⟩ := h.polygon l' p' hp'
    refine h'.glue _ q e _ q' e' h1 k1 (by omega) (by omega) ?_
    rw [h2, k2]
    refine h.glue l p _ l' p' _ hp hp' (Nat.mod_lt _ (by omega)) (Nat.mod_lt _ (by omega)) ?_
    rw [Nat.mod_add_mod, Nat.mod_add_mod, add_assoc, add_assoc]
    exact ho

/-- The inverse of an isomorphism. -/
theorem TranslationIso.symm {f : L → L} {v : L → ℕ} (h : TranslationIso f v s t) (hs : GInv s) (ht : GInv t) (hb : NoBorder s) (hv : AllValid s) :
    ∃ g w, TranslationIso g w t s := by
  classical
  have hch : ∀ m, ∃ l, ∀ q, t.polygon m = .ok q → ∃ p, s.polygon l = .ok p ∧ m = f l := by
    intro m
    by_cases hm : ∃ q, t.polygon m = .ok q
    · obtain ⟨q, hq⟩ := hm
      obtain ⟨l, p, hp, hl⟩ := h.surj m q hq
      exact ⟨l, fun _ _ => ⟨p, hp, hl⟩⟩
    · exact ⟨m, fun q hq => absurd ⟨q, hq⟩ hm⟩
  choose g hg using hch
  have hgf : ∀ l p, s.polygon l = .ok p → g (f l) = l := by
    intro l p hp
    obtain ⟨q, hq, -⟩ := h.polygon l p hp
    obtain ⟨p', hp', he⟩ := hg (f l) q hq
    exact h.inj _ _ p' p hp' hp he.symm
  have hpos : ∀ l p, s.polygon l = .ok p → 0 < p.length := by
    intro l p hp
    have := (hv l p (polygon_ok.1 hp)).len3
    omega
  set w : L → ℕ := fun m => (s.polyAt (g m)).length * v (g m) - v (g m) with hw
  have hback : ∀ l p, s.polygon l = .ok p → ∀ i, (i + w (f l) + v l) % p.length = i % p.length := by
    intro l p hp i
    rw [hw]
    dsimp only
    have := hpos l p hp
    have hle : v l ≤ p.length * v l := Nat.le_mul_of_pos_left _ (by omega)
    rw [hgf l p hp, polyAt_eq (polygon_ok.1 hp), add_assoc, Nat.sub_add_cancel hle, Nat.add_mul_mod_self_left]
  have hpre : ∀ m q, t.polygon m = .ok q → ∃ l p, s.polygon l = .ok p ∧ m = f l ∧ g m = l ∧ q.length = p.length := by
    intro m q hq
    obtain ⟨p, hp, hm⟩ := hg m q hq
    obtain ⟨q', hq', hl, -⟩ := h.polygon _ p hp
    rw [← hm, hq] at hq'
    injection hq' with hq'
    subst hq'
    exact ⟨g m, p, hp, hm, rfl, hl⟩
  refine ⟨g, w, fun a b p q ha hb' hab => ?_, fun l p hp => ?_, fun m q hq => ?_, fun m q e m' q' e' hq hq' he he' ho => ?_⟩
  · obtain ⟨l, -, -, h1, h2, -⟩ := hpre a p ha
    obtain ⟨l', -, -, h1', h2', -⟩ := hpre b q hb'
    rw [h1, h1', ← h2, ← h2', hab]
  · obtain ⟨q, hq, -⟩ := h.polygon l p hp
    exact ⟨f l, q, hq, (hgf l p hp).symm⟩
  · obtain ⟨l, p, hp, rfl, hgl, hl⟩ := hpre m q hq
    obtain ⟨q', hq', -, c, hc⟩ := h.polygon l p hp
    rw [hq] at hq'
    injection hq' with hq'
    subst hq'
    refine ⟨p, by rw [hgl, hp], hl.symm, -c, fun i => ?_⟩
    rw [hc, add_neg_cancel_right, ← Poly.vertex_mod, ← Poly.vertex_mod p (i + w (f l) + v l), hback l p hp]
  · obtain ⟨l, p, hp, rfl, hgl, hl⟩ := hpre m q hq
    obtain ⟨l', p', hp', rfl, hgl', hl'⟩ := hpre m' q' hq'
    rw [hgl, hgl']
    have hep : e < p.length := by omega
    have hep' : e' < p'.length := by omega
    obtain ⟨c, hc⟩ := hb l p e (polygon_ok.1 hp) hep
    obtain ⟨p2, k, hp2, hk, hck, -⟩ := opp_target hs hc
    -- the edge of `t` that is glued to the edge
    have h1 := h.glue l p ((e + w (f l)) % p.length) c.1 p2 ((k + w (f c.1)) % p2.length) hp (polygon_ok.2 hp2)
      (Nat.mod_lt _ (by omega)) (Nat.mod_lt _ (by omega)) (by
        rw [Nat.mod_add_mod, Nat.mod_add_mod, hback l p hp, hback c.1 p2 (polygon_ok.2 hp2), Nat.mod_eq_of_lt hep, Nat.mod_eq_of_lt hk,
          oppositeEdge_opp_some hs, hc]
        exact congrArg some hck)
    rw [hl, hl'] at ho
    rw [h1] at ho
    injection ho with ho
    injection ho with ho
    rw [Prod.mk.injEq] at ho
    obtain ⟨ho1, ho2⟩ := ho
    have hcl : c.1 = l' := h.inj _ _ p2 p' (polygon_ok.2 hp2) hp' ho1
    rw [hcl, polygon_ok.1 hp'] at hp2
    injection hp2 with hp2
    subst hp2
    rw [hcl] at ho2
    have hkk : (k + w (f l')) % p'.length = (e' + w (f l')) % p'.length := by exact_mod_cast ho2
    have hke : k = e' := by
      have := congrArg (fun x => (x + v l') % p'.length) hkk
      simp only [Nat.mod_add_mod] at this
      rwa [hback l' p' hp', hback l' p' hp', Nat.mod_eq_of_lt hk, Nat.mod_eq_of_lt hep'] at this
    rw [oppositeEdge_opp_some hs, hc, hck, hcl, hke]

/-- Isomorphic surfaces have the same standardized polygons and gluings. -/
theorem TranslationIso.std {f : L → L} {v : L → ℕ} (h : TranslationIso f v D E) (hD : GInv D) (hE : GInv E) (hb : NoBorder D) (hv : AllValid D)
    (hS : GInv S) (hT : GInv T) (st : Std D S) (st' : Std E T) : Relabeled f S T := by
  have hbS := st.noBorder hD hb
  have hpoly : ∀ l p, D.polygons.get l = some p → ∃ q, E.polygons.get (f l) = some q ∧ q.length = p.length ∧
      q.turned q.bestVertex = p.turned p.bestVertex ∧ (q.bestVertex + v l) % p.length = p.bestVertex := by
    intro l p hp
    obtain ⟨q, h1, h2, c, h3⟩ := h.polygon l p (polygon_ok.2 hp)
    exact ⟨q, polygon_ok.1 h1, h2, Poly.turned_best (hv l p hp) h2 h3⟩
  have hget : ∀ l ∈ S.polygons.keys, ∃ p, D.polygons.get l = some p := by
    intro l hl
    rw [st.mem, Dict.mem_keys_iff, Option.isSome_iff_exists] at hl
    exact hl
  refine ⟨fun a ha b hb' hab => ?_, fun l hl => ?_, fun l hl e => ?_, fun m => ?_⟩
  · obtain ⟨p, hp⟩ := hget a ha
    obtain ⟨q, hq⟩ := hget b hb'
    exact h.inj a b p q (polygon_ok.2 hp) (polygon_ok.2 hq) hab
  · obtain ⟨p, hp⟩ := hget l hl
    obtain ⟨q, hq, -, h2, -⟩ := hpoly l p hp
    rw [st.polygons, st'.polygons, hp, hq, Option.map_some, Option.map_some, h2]
  · obtain ⟨p, hp⟩ := hget l hl
    obtain ⟨q, hq, hlen, hturn, hbest⟩ := hpoly l p hp
    by_cases he : e < p.length
    · obtain ⟨c, hc⟩ := hb l p ((e + p.bestVertex) % p.length) hp (Nat.mod_lt _ (by omega))
      obtain ⟨p', k, hp', hk, hck, -⟩ := opp_target hD hc
      obtain ⟨q', hq', hlen', hturn', hbest'⟩ := hpoly c.1 p' hp'
      set k' := (k + p'.length * p'.bestVertex - p'.bestVertex) % p'.length with hk'
      have hk'l : k' < p'.length := Nat.mod_lt _ (by omega)
      have hkk : (k' + p'.bestVertex) % p'.length = k := unshift hk
      have h1 : S.opp l e = some (c.1, (k' : Int)) := by
        refine st.shifted l p e c.1 p' k' hp hp' he hk'l ?_
        dsimp only
        rw [polyAt_eq hp, polyAt_eq hp', hkk, hc]
        exact congrArg some hck
      have h2 : T.opp (f l) e = some (f c.1, (k' : Int)) := by
        refine st'.shifted (f l) q e (f c.1) q' k' hq hq' (by omega) (by omega) ?_
        dsimp only
        rw [polyAt_eq hq, polyAt_eq hq', ← oppositeEdge_opp_some hE, hlen, hlen']
        refine h.glue l p _ c.1 p' _ (polygon_ok.2 hp) (polygon_ok.2 hp') (Nat.mod_lt _ (by omega)) (Nat.mod_lt _ (by omega)) ?_
        have e1 : ((e + q.bestVertex) % p.length + v l) % p.length = (e + p.bestVertex) % p.length := by
          have hb0 : p.bestVertex < p.length := (Poly.bestVertex_spec (by omega)).1
          rw [Nat.mod_add_mod, add_assoc, Nat.add_mod, hbest, Nat.add_mod e p.bestVertex, Nat.mod_eq_of_lt hb0]
        have e2 : ((k' + q'.bestVertex) % p'.length + v c.1) % p'.length = k := by
          have hb0 : p'.bestVertex < p'.length := (Poly.bestVertex_spec (by omega)).1
          rw [Nat.mod_add_mod, add_assoc, Nat.add_mod, hbest']
          rw [← hkk, Nat.add_mod k' p'.bestVertex]
          rw [Nat.mod_eq_of_lt hb0]
        rw [e1, e2, oppositeEdge_opp_some hD, hc]
        exact congrArg some hck
      rw [h1, h2]
      rfl
    · have n1 : S.opp l e = none := by
        by_contra hne
        obtain ⟨c, hc⟩ := Option.ne_none_iff_exists'.1 hne
        obtain ⟨r, hr, hre⟩ := opp_isEdge hS.toShape hc
        rw [st.polygons, hp] at hr
        injection hr with hr
        rw [← hr] at hre
        have : e < (p.turned p.bestVertex).length := hre
        rw [Poly.turned_length] at this
        exact he this
      have n2 : T.opp (f l) e = none := by
        by_contra hne
        obtain ⟨c, hc⟩ := Option.ne_none_iff_exists'.1 hne
        obtain ⟨r, hr, hre⟩ := opp_isEdge hT.toShape hc
        rw [st'.polygons, hq] at hr
        injection hr with hr
        rw [← hr] at hre
        have : e < (q.turned q.bestVertex).length := hre
        rw [Poly.turned_length] at this
        omega
      rw [n1, n2]
      rfl
  · rw [st'.mem]
    constructor
    · intro hm
      obtain ⟨q, hq⟩ := polygon_of_mem hm
      obtain ⟨l, p, hp, rfl⟩ := h.surj m q hq
      exact ⟨l, (st.mem l).2 (mem_of_polygon hp), rfl⟩
    · rintro ⟨l, hl, rfl⟩
      obtain ⟨p, hp⟩ := hget l hl
      obtain ⟨q, hq, -⟩ := hpoly l p hp
      rw [Dict.mem_keys_iff, hq]
      rfl

theorem numAt_listing {ls : List L} (hn : ls.Nodup) : ls.map (numAt ls) = (List.range ls.length).map LabelNum.num := by
  refine List.ext_getElem (by simp) fun i h1 h2 => ?_
  have hi : i < ls.length := by simpa using h1
  simp only [List.getElem_map, List.getElem_range, numAt]
  congr 1
  rw [List.findIdx_eq hi]
  refine ⟨by simp, fun j hj => ?_⟩
  simp only [decide_eq_false_iff_not]
  intro he
  have := (hn.getElem_inj_iff).1 he
  omega

/-- All polygons have their first vertex at the origin. -/
def AtOrigin (s : MSurf L (Poly K)) : Prop := ∀ l p, s.polygons.get l = some p → p.vertex 0 = 0

/-- Surfaces with the same code have the same polygons and gluings. -/
theorem sameContent_of_code (hs : GInv s) (ht : GInv t) (bs : NoBorder s) (bt : NoBorder t) (os : AtOrigin s) (ot : AtOrigin t) {ls : List L}
    (hls : ∀ l, l ∈ ls ↔ l ∈ s.polygons.keys) (hlt : ∀ l, l ∈ ls ↔ l ∈ t.polygons.keys) (hc : code s ls = code t ls) : SameContent s t := by
  have hrow : ∀ l ∈ ls, rowKey s ls l = rowKey t ls l := by
    unfold code at hc
    exact List.map_inj_left.1 hc
  have hpoly : ∀ l, s.polygons.get l = t.polygons.get l := by
    intro l
    by_cases hl : l ∈ ls
    · have h1 := (hls l).1 hl
      have h2 := (hlt l).1 hl
      rw [Dict.mem_keys_iff, Option.isSome_iff_exists] at h1 h2
      obtain ⟨p, hp⟩ := h1
      obtain ⟨q, hq⟩ := h2
      have := hrow l hl
      unfold rowKey at this
      have := (Prod.mk.inj (toLex.injective this)).1
      rw [polyAt_eq hp, polyAt_eq hq] at this
      rw [hp, hq, polyKey_inj (os l p hp) (ot l q hq) this]
    · have h1 : l ∉ s.polygons.keys := fun h => hl ((hls l).2 h)
      have h2 : l ∉ t.polygons.keys := fun h => hl ((hlt l).2 h)
      rw [Dict.mem_keys_iff, Option.not_isSome_iff_eq_none] at h1 h2
      rw [h1, h2]
  rw [sameContent_iff hs.toShape ht.toShape]
  refine ⟨fun l => by unfold polygon; rw [hpoly], fun l e => ?_⟩
  by_cases he : s.IsEdge l e
  · have he' : t.IsEdge l e := by
      unfold IsEdge at he ⊢
      rwa [← hpoly]
    rw [oppositeEdge_eq_opp hs.toShape he, oppositeEdge_eq_opp ht.toShape he']
    obtain ⟨p, hp, hlt'⟩ := he
    have hlt'' : e < p.length := hlt'
    have hq : t.polygons.get l = some p := by rw [← hpoly, hp]
    have hlk : l ∈ ls := (hls l).2 (by rw [Dict.mem_keys_iff, hp]; rfl)
    have := hrow l hlk
    unfold rowKey at this
    have := (Prod.mk.inj (toLex.injective this)).2
    rw [polyAt_eq hp, polyAt_eq hq, List.map_inj_left] at this
    have := this e (List.mem_range.2 hlt'')
    obtain ⟨h1, h2⟩ := Prod.mk.inj (toLex.injective this)
    obtain ⟨c, hcs⟩ := bs l p e hp hlt''
    obtain ⟨d, hds⟩ := bt l p e hq hlt''
    obtain ⟨p1, -, hp1, -⟩ := opp_target hs hcs
    obtain ⟨p2, -, hp2, -⟩ := opp_target ht hds
    rw [hcs, hds] at h1 h2
    dsimp only [Option.getD] at h1 h2
    have h3 := findIdx_inj ((hls c.1).2 (by rw [Dict.mem_keys_iff, hp1]; rfl)) ((hlt d.1).2 (by rw [Dict.mem_keys_iff, hp2]; rfl)) h1
    rw [hcs, hds, Prod.ext h3 h2]
  · have he' : ¬ t.IsEdge l e := by
      unfold IsEdge at he ⊢
      rwa [← hpoly]
    rw [oppositeEdge_error hs.toShape he, oppositeEdge_error ht.toShape he']
    simp only [Dict.mem_keys_iff, hpoly]

end MSurf
end Flat
