import Verif.Props.Doubles
import Verif.Props.SubdivideEdges
import Verif.Props.Centroid

/-!
# C31: subdividing a surface
-/

namespace Flat
namespace MSurf
variable {L K : Type} [LinearOrder L] [LabelNum L] [Field K] [LinearOrder K] [IsStrictOrderedRing K]

/-- The labels of a connected surface start with its root. -/
theorem connected_labels {s : MSurf L (Poly K)} (h : Reachable s) {r : L} (hroot : s.rootsList = .ok [r]) :
    ∃ ls, s.labels = .ok (r :: ls) ∧ (r :: ls).Nodup ∧ (∀ l, l ∈ r :: ls ↔ l ∈ s.polygons.keys) ∧
      ∀ l ∈ s.polygons.keys, s.Conn r l := by
  obtain ⟨rs, cs, h1, h2, h3, h4, h5, h6⟩ := components_spec h.ginv h.rootsOK
  obtain ⟨ls, k1, k2, k3⟩ := labels_spec h.ginv h.rootsOK
  rw [hroot] at h1
  injection h1 with h1
  subst h1
  cases h3 with
  | cons hc hrest =>
    cases hrest
    obtain ⟨⟨t, rfl⟩, -⟩ := hc
    have : s.labels = .ok (r :: t) := by
      unfold labels
      simp only [bind, Except.bind, h2, pure, Except.pure]
      simp
    rw [this] at k1
    injection k1 with k1
    subst k1
    refine ⟨t, this, k2, k3, fun l hl => ?_⟩
    obtain ⟨r', hr', hc'⟩ := h6 l hl
    rw [List.mem_singleton] at hr'
    rwa [hr'] at hc'

/-- The polygon with a label. -/
def polyAt (s : MSurf L (Poly K)) (l : L) : Poly K := (s.polygons.get l).getD []

omit [LabelNum L] [IsStrictOrderedRing K] [LinearOrder K] in
theorem polyAt_eq {s : MSurf L (Poly K)} {l : L} {p : Poly K} (h : s.polygons.get l = some p) : s.polyAt l = p := by
  unfold polyAt; rw [h]; rfl

omit [LabelNum L] [IsStrictOrderedRing K] [LinearOrder K] in
theorem polygon_polyAt {s : MSurf L (Poly K)} {l : L} (h : l ∈ s.polygons.keys) : s.polygon l = .ok (s.polyAt l) := by
  rw [Dict.mem_keys_iff, Option.isSome_iff_exists] at h
  obtain ⟨p, hp⟩ := h
  unfold polygon
  rw [polyAt_eq hp, hp]

omit [LabelNum L] [IsStrictOrderedRing K] [LinearOrder K] in
theorem polygon_iff {s : MSurf L (Poly K)} {l : L} {p : Poly K} : s.polygon l = .ok p ↔ s.polygons.get l = some p := by
  unfold polygon
  cases s.polygons.get l <;> simp

omit [LabelNum L] in
theorem firstCross_append {r : L} {A B : List ((L × Int) × (L × Int))} (hA : ∀ x ∈ A, x.1.1 = r)
    (hB : (∃ x ∈ A, x.2.1 ≠ r) ∨ ∀ x ∈ B, x.1.1 = x.2.1) : FirstCross r (A ++ B) := by
  induction A with
  | nil =>
    rcases hB with ⟨x, hx, _⟩ | hB
    · cases hx
    · rw [List.nil_append]
      clear hA
      induction B with
      | nil => trivial
      | cons x B ih =>
        unfold FirstCross
        rw [if_pos (hB x (by simp))]
        exact ih fun y hy => hB y (by simp [hy])
  | cons x A ih =>
    rw [List.cons_append]
    unfold FirstCross
    have hx := hA x (by simp)
    split_ifs with hc
    · refine ih (fun y hy => hA y (by simp [hy])) ?_
      rcases hB with ⟨y, hy, hyr⟩ | hB
      · rcases List.mem_cons.1 hy with rfl | hy
        · exact absurd (hc.symm.trans hx) hyr
        · exact Or.inl ⟨y, hy, hyr⟩
      · exact Or.inr hB
    · exact hx

theorem zip_map_self {α β : Type} (l : List α) (f : α → β) : l.zip (l.map f) = l.map (fun x => (x, f x)) := by
  induction l with
  | nil => rfl
  | cons x l ih => simp [ih]

/-- The pairs glued for an edge. -/
def edgePairs (s : MSurf L (Poly K)) (k : ℕ) (l : L) (e : ℕ) : List ((L × Int) × (L × Int)) :=
  match s.opp l e with
  | none => []
  | some c => (List.range k).map (fun (p : ℕ) =>
      ((l, (e : Int) * k + p), (c.1, c.2 * k + ((k : Int) - p - 1))))

omit [LabelNum L] [IsStrictOrderedRing K] [LinearOrder K] in
theorem mem_edgePairs {s : MSurf L (Poly K)} {k : ℕ} {l : L} {e : ℕ} {x : (L × Int) × (L × Int)} :
    x ∈ s.edgePairs k l e ↔ ∃ c, s.opp l e = some c ∧ ∃ i < k, x = ((l, (e : Int) * k + (i : ℕ)), (c.1, c.2 * k + ((k : Int) - (i : ℕ) - 1))) := by
  unfold edgePairs
  cases s.opp l e with
  | none => simp
  | some c =>
    simp only [List.mem_map, List.mem_range, Option.some.injEq, exists_eq_left']
    constructor
    · rintro ⟨i, hi, rfl⟩; exact ⟨i, hi, rfl⟩
    · rintro ⟨i, hi, rfl⟩; exact ⟨i, hi, rfl⟩

/-- The gluings of the surface with subdivided edges. -/
def subEdgesG (s : MSurf L (Poly K)) (k : ℕ) (l : L) (e : ℕ) : Option (L × Int) :=
  (s.opp l (e / k)).map (fun c => (c.1, c.2 * k + ((k : Int) - ((e % k : ℕ) : Int) - 1)))

theorem subEdgesG_inv {s : MSurf L (Poly K)} (h : Reachable s) {k : ℕ} (hk : 1 ≤ k) : ∀ l (e : ℕ) l' e', s.subEdgesG k l e = some (l', e') →
    ∃ j : ℕ, e' = j ∧ s.subEdgesG k l' j = some (l, (e : Int)) := by
  intro l e l' e' hc
  unfold subEdgesG at hc
  obtain ⟨⟨c1, c2⟩, h1, h2⟩ := Option.map_eq_some_iff.1 hc
  obtain ⟨j, rfl, hj⟩ := h.ginv.inv _ _ _ _ h1
  simp only [Prod.mk.injEq] at h2
  obtain ⟨rfl, rfl⟩ := h2
  have hm := Nat.mod_lt e (by omega : 0 < k)
  refine ⟨j * k + (k - e % k - 1), by push_cast; omega, ?_⟩
  unfold subEdgesG
  have hd : (j * k + (k - e % k - 1)) / k = j := by
    rw [Nat.mul_comm, Nat.mul_add_div (by omega), Nat.div_eq_of_lt (by omega), add_zero]
  have hr : (j * k + (k - e % k - 1)) % k = k - e % k - 1 := by
    rw [Nat.mul_comm, Nat.mul_add_mod, Nat.mod_eq_of_lt (by omega)]
  rw [hd, hr, hj]
  simp only [Option.map_some, Option.some.injEq, Prod.mk.injEq, true_and]
  have := Nat.div_add_mod e k
  have h3 : ((e : ℕ) : Int) = (k : Int) * ((e / k : ℕ) : Int) + ((e % k : ℕ) : Int) := by exact_mod_cast this.symm
  have h4 : ((k - e % k - 1 : ℕ) : Int) = (k : Int) - ((e % k : ℕ) : Int) - 1 := by omega
  rw [h4, h3]
  ring

/-- **C31.** On a connected surface `subdivide_edges(k)` succeeds and returns the surface made of the polygons with subdivided edges,
in which the piece `p` of an edge is glued to the piece `k - 1 - p` of the edge that it was glued to. -/
theorem C31_subdivide_edges_partial {s : MSurf L (Poly K)} (h : Reachable s) {r : L} (hroot : s.rootsList = .ok [r]) {k : ℕ} (hk : 1 ≤ k)
    (hv : ∀ l p, s.polygon l = .ok p → p.Valid) :
    ∃ t, s.subdivideEdges k MSurf.empty = .ok () t ∧ Reachable t ∧ t.mutable = false ∧
      (∀ l q, t.polygon l = .ok q ↔ ∃ p, s.polygon l = .ok p ∧ p.subdivideEdges k = .ok q) ∧
      (∀ l p e i, s.polygon l = .ok p → e < p.length → i < k → ∀ c, s.oppositeEdge l (e : ℕ) = .ok c →
        t.oppositeEdge l ((e * k + i : ℕ) : Int) = .ok (c.map (fun c => (c.1, c.2 * k + ((k - 1 - i : ℕ) : Int))))) ∧
      t.totalArea = s.totalArea := by
  obtain ⟨ls, hls, hnd, hmem, hconn⟩ := connected_labels h hroot
  generalize hLs : r :: ls = Ls at *
  have hrl : r ∈ Ls := by rw [← hLs]; simp
  have hpoly : ∀ l ∈ Ls, s.polygon l = .ok (s.polyAt l) := fun l hl => polygon_polyAt ((hmem l).1 hl)
  have hex : ∀ l ∈ Ls, ∃ q, (s.polyAt l).subdivideEdges k = .ok q := fun l hl =>
    (Poly.C13_subdivide_edges_total (hv l _ (hpoly l hl)) hk).imp fun _ h => h.1
  choose! Q hQ using hex
  have m1 : Ls.mapM s.polygon = .ok (Ls.map s.polyAt) := by
    rw [mapM_ok_iff, List.forall₂_map_right_iff]
    exact List.forall₂_same.2 hpoly
  have m2 : (Ls.map s.polyAt).mapM (fun p => p.subdivideEdges k) = .ok (Ls.map Q) := by
    rw [mapM_ok_iff, List.forall₂_map_right_iff, List.forall₂_map_left_iff]
    exact List.forall₂_same.2 hQ
  have hk : 1 ≤ k := (Poly.C13_subdivide_edges _ _ _ (hQ r hrl)).1
  have hlen : ∀ l ∈ Ls, (Q l).length = k * (s.polyAt l).length := fun l hl => (Poly.C13_subdivide_edges _ _ _ (hQ l hl)).2.1
  have hE : ∀ l e c, s.opp l e = some c → l ∈ Ls ∧ e < (s.polyAt l).length := by
    intro l e c hc
    obtain ⟨p, hp, he⟩ := opp_isEdge h.ginv.toShape hc
    exact ⟨(hmem l).2 (by rw [Dict.mem_keys_iff, hp]; rfl), by rw [polyAt_eq hp]; exact he⟩
  have m3 : (Ls.zip (Ls.map s.polyAt)).mapM (fun x => do
      let g ← (List.range x.2.length).mapM (subdivideEdgeGluings s k x.1)
      return g.flatten : L × Poly K → Except Err (List ((L × Int) × (L × Int)))) =
      .ok (Ls.map (fun l => ((List.range (s.polyAt l).length).map (s.edgePairs k l)).flatten)) := by
    rw [zip_map_self, mapM_ok_iff, List.forall₂_map_right_iff, List.forall₂_map_left_iff]
    refine List.forall₂_same.2 fun l hl => ?_
    have : (List.range (s.polyAt l).length).mapM (subdivideEdgeGluings s k l) =
        .ok ((List.range (s.polyAt l).length).map (s.edgePairs k l)) := by
      rw [mapM_ok_iff, List.forall₂_map_right_iff]
      refine List.forall₂_same.2 fun e he => ?_
      unfold subdivideEdgeGluings
      rw [oppositeEdge_eq_opp h.ginv.toShape ⟨s.polyAt l, polygon_iff.1 (hpoly l hl), List.mem_range.1 he⟩]
      unfold edgePairs
      simp only [bind, Except.bind]
      cases s.opp l e <;> rfl
    simp only [this, bind, Except.bind, pure, Except.pure]
  have hget : ∀ l, Dict.get (Ls.map (fun l => (l, Q l))) l = if l ∈ Ls then some (Q l) else none := by
    intro l
    split_ifs with hl
    · refine get_of_mem ?_ (List.mem_map.2 ⟨l, hl, rfl⟩)
      simpa [Dict.keys, Function.comp_def] using hnd
    · rw [Dict.get_eq_none_iff]
      simpa [Dict.keys, Function.comp_def] using hl
  have memG : ∀ x, x ∈ (Ls.map (fun l => ((List.range (s.polyAt l).length).map (s.edgePairs k l)).flatten)).flatten ↔
      ∃ l e c, s.opp l e = some c ∧ ∃ i < k, x = ((l, (e : Int) * k + (i : ℕ)), (c.1, c.2 * k + ((k : Int) - (i : ℕ) - 1))) := by
    intro x
    simp only [List.mem_flatten, List.mem_map, List.mem_range]
    constructor
    · rintro ⟨_, ⟨l, _, rfl⟩, hx⟩
      simp only [List.mem_flatten, List.mem_map, List.mem_range] at hx
      obtain ⟨_, ⟨e, _, rfl⟩, hx⟩ := hx
      obtain ⟨c, hc, hx⟩ := mem_edgePairs.1 hx
      exact ⟨l, e, c, hc, hx⟩
    · rintro ⟨l, e, c, hc, hx⟩
      obtain ⟨h1, h2⟩ := hE l e c hc
      refine ⟨_, ⟨l, h1, rfl⟩, ?_⟩
      simp only [List.mem_flatten, List.mem_map, List.mem_range]
      exact ⟨_, ⟨e, h2, rfl⟩, mem_edgePairs.2 ⟨c, hc, hx⟩⟩
  have hdiv : ∀ e i : ℕ, i < k → (e * k + i) / k = e ∧ (e * k + i) % k = i := by
    intro e i hi
    rw [Nat.mul_comm, Nat.mul_add_div (by omega), Nat.div_eq_of_lt hi, add_zero, Nat.mul_add_mod, Nat.mod_eq_of_lt hi]
    exact ⟨rfl, rfl⟩
  have spec := build_spec (Ls.map (fun l => (l, Q l))) (by simpa [Dict.keys, Function.comp_def] using hnd) (s.subEdgesG k) (subEdgesG_inv h hk)
    (by
      intro l e c hc
      unfold subEdgesG at hc
      obtain ⟨c', h1, -⟩ := Option.map_eq_some_iff.1 hc
      obtain ⟨hl, he⟩ := hE _ _ _ h1
      refine ⟨Q l, by rw [hget, if_pos hl], ?_⟩
      change e < (Q l).length
      rw [hlen l hl]
      rw [Nat.mul_comm]
      exact (Nat.div_lt_iff_lt_mul (by omega)).1 he)
    (Ls.map (fun l => ((List.range (s.polyAt l).length).map (s.edgePairs k l)).flatten)).flatten
    (by
      intro x hx
      obtain ⟨l, e, c, hc, i, hi, rfl⟩ := (memG x).1 hx
      refine ⟨e * k + i, by push_cast; rfl, ?_⟩
      unfold subEdgesG
      dsimp only
      rw [(hdiv e i hi).1, (hdiv e i hi).2, hc]
      rfl)
    (by
      intro l e c hc
      left
      rw [memG]
      unfold subEdgesG at hc
      obtain ⟨c', h1, rfl⟩ := Option.map_eq_some_iff.1 hc
      refine ⟨l, e / k, c', h1, e % k, Nat.mod_lt _ (by omega), ?_⟩
      have : ((e : ℕ) : Int) = ((e / k : ℕ) : Int) * (k : Int) + ((e % k : ℕ) : Int) := by
        have := Nat.div_add_mod e k
        rw [Nat.mul_comm] at this
        exact_mod_cast this.symm
      rw [this])
    [r] (Or.inr ⟨r, rfl, by simpa [Dict.keys, Function.comp_def] using hrl, by
      rw [← hLs, List.map_cons, List.flatten_cons]
      refine firstCross_append ?_ ?_
      · intro x hx
        simp only [List.mem_flatten, List.mem_map, List.mem_range] at hx
        obtain ⟨_, ⟨e, _, rfl⟩, hx⟩ := hx
        obtain ⟨c, _, i, _, rfl⟩ := mem_edgePairs.1 hx
        rfl
      · by_cases hself : ∀ e c, s.opp r e = some c → c.1 = r
        · right
          have honly : ∀ l, s.Conn r l → l = r := by
            intro l hl
            induction hl with
            | refl => rfl
            | tail _ hbc ih =>
              obtain ⟨e, e', he⟩ := hbc
              rw [ih] at he
              exact hself _ _ he
          have : ls = [] := by
            cases hls' : ls with
            | nil => rfl
            | cons a ls' =>
              rw [hls'] at hLs
              have ha : a = r := honly a (hconn a ((hmem a).1 (by rw [← hLs]; simp)))
              rw [← hLs, ha] at hnd
              simp at hnd
          rw [this]
          simp
        · left
          push Not at hself
          obtain ⟨e, c, hc, hcr⟩ := hself
          refine ⟨((r, (e : Int) * k + (0 : ℕ)), (c.1, c.2 * k + ((k : Int) - (0 : ℕ) - 1))), ?_, ?_⟩
          · simp only [List.mem_flatten, List.mem_map, List.mem_range]
            exact ⟨_, ⟨e, (hE _ _ _ hc).2, rfl⟩, mem_edgePairs.2 ⟨c, hc, 0, by omega, rfl⟩⟩
          · exact hcr⟩)
  have spec' : wp (s.subdivideEdges k) (fun _ t => Reachable t ∧ t.mutable = false ∧ (∀ l, t.polygons.get l = Dict.get (Ls.map (fun l => (l, Q l))) l) ∧
        (∀ l e, t.opp l e = s.subEdgesG k l e)) (fun _ _ => False) MSurf.empty := by
    unfold subdivideEdges
    have lift : ∀ {α : Type} (a : α) (f : α → Act L (Poly K) Unit) (Q E) (t : MSurf L (Poly K)), wp (f a) Q E t → wp (liftE (.ok a) >>= f) Q E t := by
      intro α a f Q E t hf
      rw [wp_bind, wp_liftE]
      refine ⟨fun b hb => ?_, fun _ hb => by cases hb⟩
      injection hb with hb
      rwa [← hb]
    rw [hls, hroot]
    refine lift _ _ _ _ _ ?_
    rw [m1]
    refine lift _ _ _ _ _ ?_
    rw [m2]
    refine lift _ _ _ _ _ ?_
    rw [m3, zip_map_self]
    rw [wp_bind] at spec ⊢
    refine wp_mono spec ?_ (fun _ _ hh => hh)
    intro _ t1 ht1
    refine lift _ _ _ _ _ ?_
    rw [wp_bind] at ht1 ⊢
    refine wp_mono ht1 ?_ (fun _ _ hh => hh)
    intro _ t2 ht2
    exact lift _ _ _ _ _ ht2
  obtain ⟨_, t, ht, hre, him, hp, ho⟩ := wp_ok spec'
  have hp' : ∀ l, t.polygons.get l = if l ∈ Ls then some (Q l) else none := fun l => by rw [hp, hget]
  refine ⟨t, ht, hre, him, fun l q => ?_, fun l p e i hlp he hi c hc => ?_, ?_⟩
  · rw [polygon_iff, hp']
    constructor
    · intro hq
      split_ifs at hq with hl
      injection hq with hq
      exact ⟨_, hpoly l hl, by rw [hQ l hl, hq]⟩
    · rintro ⟨p, h1, h2⟩
      have hl : l ∈ Ls := (hmem l).2 (by rw [Dict.mem_keys_iff, polygon_iff.1 h1]; rfl)
      rw [hpoly l hl] at h1
      injection h1 with h1
      rw [if_pos hl]
      have := hQ l hl
      rw [h1, h2] at this
      injection this with this
      rw [this]
  · have hl : l ∈ Ls := (hmem l).2 (by rw [Dict.mem_keys_iff, polygon_iff.1 hlp]; rfl)
    have hpe : s.polyAt l = p := by
      have := hpoly l hl
      rw [hlp] at this
      injection this with this
      exact this.symm
    rw [oppositeEdge_eq_opp h.ginv.toShape ⟨p, polygon_iff.1 hlp, he⟩] at hc
    injection hc with hc
    have hlt : e * k + i < (Q l).length := by
      rw [hlen l hl, hpe, Nat.mul_comm k]
      calc e * k + i < e * k + k := by omega
        _ = (e + 1) * k := by ring
        _ ≤ p.length * k := Nat.mul_le_mul_right _ he
    rw [oppositeEdge_eq_opp hre.ginv.toShape ⟨Q l, by rw [hp', if_pos hl], hlt⟩, ho]
    unfold subEdgesG
    rw [(hdiv e i hi).1, (hdiv e i hi).2, hc]
    congr 1
    cases c with
    | none => rfl
    | some c =>
      simp only [Option.map_some]
      congr 3
      omega
  · rw [totalArea_spec h.ginv h.rootsOK Ls hnd hmem s.polyAt hpoly, totalArea_spec hre.ginv hre.rootsOK Ls hnd ?_ Q ?_]
    · congr 2
      refine List.map_congr_left fun l hl => ?_
      exact (Poly.C13_subdivide_edges _ _ _ (hQ l hl)).2.2.1
    · intro l
      rw [Dict.mem_keys_iff, hp']
      split_ifs with hl <;> simp [hl]
    · intro l hl
      rw [polygon_iff, hp', if_pos hl]

/-- The gluings of the subdivided surface. -/
def subG (s : MSurf L (Poly K)) (x : Lex (L × ℕ)) (e : ℕ) : Option (Lex (L × ℕ) × Int) :=
  let l := (ofLex x).1
  let i := (ofLex x).2
  let n := (s.polyAt l).length
  if l ∈ s.polygons.keys ∧ i < n then
    if e = 0 then (s.opp l i).map (fun c => (toLex (c.1, c.2.toNat), 0))
    else if e = 1 then some (toLex (l, (i + 1) % n), 2)
    else if e = 2 then some (toLex (l, (i + n - 1) % n), 1)
    else none
  else none

theorem mod_succ_pred {n i : ℕ} (hi : i < n) : ((i + 1) % n + n - 1) % n = i := by
  rcases Nat.lt_or_ge (i + 1) n with h | h
  · rw [Nat.mod_eq_of_lt h, show i + 1 + n - 1 = i + n by omega, Nat.add_mod_right, Nat.mod_eq_of_lt hi]
  · rw [show i + 1 = n by omega, Nat.mod_self, show 0 + n - 1 = n - 1 by omega, Nat.mod_eq_of_lt (by omega)]
    omega

theorem mod_pred_succ {n i : ℕ} (hi : i < n) : ((i + n - 1) % n + 1) % n = i := by
  rcases Nat.eq_zero_or_pos i with rfl | h
  · rw [show 0 + n - 1 = n - 1 by omega, Nat.mod_eq_of_lt (by omega : n - 1 < n), show n - 1 + 1 = n by omega, Nat.mod_self]
  · rw [show i + n - 1 = i - 1 + n by omega, Nat.add_mod_right, Nat.mod_eq_of_lt (by omega : i - 1 < n), show i - 1 + 1 = i by omega,
      Nat.mod_eq_of_lt hi]

theorem subG_cases {s : MSurf L (Poly K)} {l : L} {i e : ℕ} {c : Lex (L × ℕ) × Int} : s.subG (toLex (l, i)) e = some c ↔
    (l ∈ s.polygons.keys ∧ i < (s.polyAt l).length) ∧
      ((e = 0 ∧ (s.opp l i).map (fun c => (toLex (c.1, c.2.toNat), (0 : Int))) = some c) ∨
       (e = 1 ∧ c = (toLex (l, (i + 1) % (s.polyAt l).length), 2)) ∨
       (e = 2 ∧ c = (toLex (l, (i + (s.polyAt l).length - 1) % (s.polyAt l).length), 1))) := by
  unfold subG
  dsimp only [ofLex_toLex]
  by_cases hli : l ∈ s.polygons.keys ∧ i < (s.polyAt l).length
  · refine Iff.trans (Eq.to_iff (congrArg (· = some c) (if_pos hli))) ?_
    rcases e with _ | _ | _ | e
    · simp [hli]
    · simp [hli, eq_comm]
    · simp [hli, eq_comm]
    · simp
  · refine Iff.trans (Eq.to_iff (congrArg (· = some c) (if_neg hli))) ?_
    simp [hli]

theorem subG_zero {s : MSurf L (Poly K)} {l : L} {i : ℕ} (hl : l ∈ s.polygons.keys) (hi : i < (s.polyAt l).length) :
    s.subG (toLex (l, i)) 0 = (s.opp l i).map (fun c => (toLex (c.1, c.2.toNat), (0 : Int))) := by
  refine Option.ext fun c => ?_
  rw [subG_cases]
  simp [hl, hi]

theorem subG_one {s : MSurf L (Poly K)} {l : L} {i : ℕ} (hl : l ∈ s.polygons.keys) (hi : i < (s.polyAt l).length) :
    s.subG (toLex (l, i)) 1 = some (toLex (l, (i + 1) % (s.polyAt l).length), 2) :=
  subG_cases.2 ⟨⟨hl, hi⟩, Or.inr (Or.inl ⟨rfl, rfl⟩)⟩

theorem subG_two {s : MSurf L (Poly K)} {l : L} {i : ℕ} (hl : l ∈ s.polygons.keys) (hi : i < (s.polyAt l).length) :
    s.subG (toLex (l, i)) 2 = some (toLex (l, (i + (s.polyAt l).length - 1) % (s.polyAt l).length), 1) :=
  subG_cases.2 ⟨⟨hl, hi⟩, Or.inr (Or.inr ⟨rfl, rfl⟩)⟩

theorem subG_inv {s : MSurf L (Poly K)} (h : Reachable s) : ∀ l (e : ℕ) l' e', s.subG l e = some (l', e') →
    ∃ j : ℕ, e' = j ∧ s.subG l' j = some (l, (e : Int)) := by
  intro x e x' e' hc
  obtain ⟨l, i, rfl⟩ : ∃ l i, x = toLex (l, i) := ⟨(ofLex x).1, (ofLex x).2, rfl⟩
  obtain ⟨⟨hl, hi⟩, hc'⟩ := subG_cases.1 hc
  clear hc
  have hn : 0 < (s.polyAt l).length := by omega
  rcases hc' with ⟨rfl, hc⟩ | ⟨rfl, hc⟩ | ⟨rfl, hc⟩
  · obtain ⟨⟨c1, c2⟩, h1, h2⟩ := Option.map_eq_some_iff.1 hc
    obtain ⟨j, rfl, hj⟩ := h.ginv.inv _ _ _ _ h1
    simp only [Prod.mk.injEq, Int.toNat_natCast] at h2
    obtain ⟨rfl, rfl⟩ := h2
    refine ⟨0, rfl, ?_⟩
    obtain ⟨p, hp, he⟩ := opp_isEdge h.ginv.toShape hj
    rw [subG_zero (by rw [Dict.mem_keys_iff, hp]; rfl) (by rw [polyAt_eq hp]; exact he), hj]
    simp
  · simp only [Prod.mk.injEq] at hc
    obtain ⟨rfl, rfl⟩ := hc
    refine ⟨2, rfl, ?_⟩
    rw [subG_two hl (Nat.mod_lt _ hn), mod_succ_pred hi]
    rfl
  · simp only [Prod.mk.injEq] at hc
    obtain ⟨rfl, rfl⟩ := hc
    refine ⟨1, rfl, ?_⟩
    rw [subG_one hl (Nat.mod_lt _ hn), mod_pred_succ hi]
    rfl

/-- The pairs glued for a piece. -/
def piecePairs (s : MSurf L (Poly K)) (l : L) (i : ℕ) : List ((Lex (L × ℕ) × Int) × (Lex (L × ℕ) × Int)) :=
  ((toLex (l, i), 1), (toLex (l, (i + 1) % (s.polyAt l).length), 2)) ::
    match s.opp l i with
    | none => []
    | some c => [((toLex (l, i), 0), (toLex (c.1, c.2.toNat), 0))]

omit [LabelNum L] [IsStrictOrderedRing K] [LinearOrder K] in
theorem mem_piecePairs {s : MSurf L (Poly K)} {l : L} {i : ℕ} {x : (Lex (L × ℕ) × Int) × (Lex (L × ℕ) × Int)} :
    x ∈ s.piecePairs l i ↔ x = ((toLex (l, i), 1), (toLex (l, (i + 1) % (s.polyAt l).length), 2)) ∨
      ∃ c, s.opp l i = some c ∧ x = ((toLex (l, i), 0), (toLex (c.1, c.2.toNat), 0)) := by
  unfold piecePairs
  cases s.opp l i with
  | none => simp
  | some c => simp

/-- **C31 (connected surfaces).** `subdivide()` of a connected surface with convex polygons works: polygon `l` becomes
the pieces `(l, 0), (l, 1), …`, neighbouring pieces are glued to each other, piece `(l, e)` is glued along its edge 0 as
edge `e` of polygon `l` was, and the area is the same.  Missing: surfaces which are not connected, where the method
fails (see below), and the root. -/
theorem C31_subdivide_partial {s : MSurf L (Poly K)} (h : Reachable s) {r : L} (hroot : s.rootsList = .ok [r])
    (hv : ∀ l p, s.polygon l = .ok p → p.Valid ∧ p.Convex) :
    ∃ t, s.subdivide MSurf.empty = .ok () t ∧ Reachable t ∧ t.mutable = false ∧
      (∀ l i q, t.polygon (toLex (l, i)) = .ok q ↔ ∃ p ts, s.polygon l = .ok p ∧ p.subdivide = .ok ts ∧ ts[i]? = some q) ∧
      (∀ l p i, s.polygon l = .ok p → i < p.length →
        t.oppositeEdge (toLex (l, i)) 1 = .ok (some (toLex (l, (i + 1) % p.length), 2)) ∧
        t.oppositeEdge (toLex (l, (i + 1) % p.length)) 2 = .ok (some (toLex (l, i), 1)) ∧
        ∀ c, s.oppositeEdge l (i : ℕ) = .ok c →
          t.oppositeEdge (toLex (l, i)) 0 = .ok (c.map (fun c => (toLex (c.1, c.2.toNat), 0)))) ∧
      t.totalArea = s.totalArea := by
  obtain ⟨ls, hls, hnd, hmem, hconn⟩ := connected_labels h hroot
  generalize hLs : r :: ls = Ls at *
  have hrl : r ∈ Ls := by rw [← hLs]; simp
  have hpoly : ∀ l ∈ Ls, s.polygon l = .ok (s.polyAt l) := fun l hl => polygon_polyAt ((hmem l).1 hl)
  have hex : ∀ l ∈ Ls, ∃ q, (s.polyAt l).subdivide = .ok q := fun l hl =>
    Poly.C13_subdivide_total (hv l _ (hpoly l hl)).1 (hv l _ (hpoly l hl)).2
  choose! T hT using hex
  have m1 : Ls.mapM s.polygon = .ok (Ls.map s.polyAt) := by
    rw [mapM_ok_iff, List.forall₂_map_right_iff]
    exact List.forall₂_same.2 hpoly
  have m2 : (Ls.map s.polyAt).mapM Poly.subdivide = .ok (Ls.map T) := by
    rw [mapM_ok_iff, List.forall₂_map_right_iff, List.forall₂_map_left_iff]
    exact List.forall₂_same.2 hT
  have hlen : ∀ l ∈ Ls, (T l).length = (s.polyAt l).length := fun l hl => (Poly.C13_subdivide _ _ (hT l hl)).1
  have hE : ∀ l e c, s.opp l e = some c → l ∈ Ls ∧ e < (s.polyAt l).length := by
    intro l e c hc
    obtain ⟨p, hp, he⟩ := opp_isEdge h.ginv.toShape hc
    exact ⟨(hmem l).2 (by rw [Dict.mem_keys_iff, hp]; rfl), by rw [polyAt_eq hp]; exact he⟩
  have m3 : (Ls.zip (Ls.map T)).mapM (fun x => do
      let g ← (List.range x.2.length).mapM (subdividePieceGluings s x.1 x.2.length)
      return g.flatten : L × List (Poly K) → Except Err (List ((Lex (L × ℕ) × Int) × (Lex (L × ℕ) × Int)))) =
      .ok (Ls.map (fun l => ((List.range (s.polyAt l).length).map (s.piecePairs l)).flatten)) := by
    rw [zip_map_self, mapM_ok_iff, List.forall₂_map_right_iff, List.forall₂_map_left_iff]
    refine List.forall₂_same.2 fun l hl => ?_
    have : (List.range (T l).length).mapM (subdividePieceGluings s l (T l).length) =
        .ok ((List.range (s.polyAt l).length).map (s.piecePairs l)) := by
      rw [hlen l hl, mapM_ok_iff, List.forall₂_map_right_iff]
      refine List.forall₂_same.2 fun e he => ?_
      unfold subdividePieceGluings
      rw [oppositeEdge_eq_opp h.ginv.toShape ⟨s.polyAt l, polygon_iff.1 (hpoly l hl), List.mem_range.1 he⟩]
      rfl
    simp only [this, bind, Except.bind, pure, Except.pure]
  set ps : List (Lex (L × ℕ) × Poly K) := (Ls.map (fun l => (T l).zipIdx.map (fun y => (toLex (l, y.2), y.1)))).flatten with hps
  have hkeys : Dict.keys ps = (Ls.map (fun l => (List.range (T l).length).map (fun i => toLex (l, i)))).flatten := by
    rw [hps, Dict.keys, List.map_flatten, List.map_map]
    congr 1
    refine List.map_congr_left fun l _ => ?_
    simp only [Function.comp_def, List.map_map]
    rw [show (fun x : Poly K × ℕ => toLex (l, x.2)) = (fun i => toLex (l, i)) ∘ Prod.snd from rfl, ← List.map_map]
    congr 1
    simp [List.zipIdx_map_snd, List.range_eq_range']
  have hknd : (Dict.keys ps).Nodup := by
    rw [hkeys, List.nodup_flatten]
    constructor
    · intro x hx
      obtain ⟨l, _, rfl⟩ := List.mem_map.1 hx
      refine List.Nodup.map ?_ List.nodup_range
      intro i j hij
      exact (Prod.mk.inj (toLex.injective hij)).2
    · rw [List.pairwise_map]
      refine hnd.imp ?_
      intro a b hab x hx hx'
      obtain ⟨i, _, rfl⟩ := List.mem_map.1 hx
      obtain ⟨j, _, hj⟩ := List.mem_map.1 hx'
      exact hab (Prod.mk.inj (toLex.injective hj)).1.symm
  have hget : ∀ l i, Dict.get ps (toLex (l, i)) = if l ∈ Ls then (T l)[i]? else none := by
    intro l i
    have hmemps : ∀ q, (toLex (l, i), q) ∈ ps ↔ l ∈ Ls ∧ (T l)[i]? = some q := by
      intro q
      rw [hps]
      simp only [List.mem_flatten, List.mem_map]
      constructor
      · rintro ⟨_, ⟨l', hl', rfl⟩, hx⟩
        obtain ⟨⟨q', i'⟩, hy, hx⟩ := List.mem_map.1 hx
        simp only [Prod.mk.injEq] at hx
        obtain ⟨hx1, rfl⟩ := hx
        obtain ⟨rfl, rfl⟩ := Prod.mk.inj (toLex.injective hx1)
        exact ⟨hl', List.mem_zipIdx_iff_getElem?.1 hy⟩
      · rintro ⟨hl, hq⟩
        exact ⟨_, ⟨l, hl, rfl⟩, List.mem_map.2 ⟨(q, i), List.mem_zipIdx_iff_getElem?.2 hq, rfl⟩⟩
    cases hg : Dict.get ps (toLex (l, i)) with
    | some q =>
      have := (hmemps q).1 (Dict.mem_of_get _ _ _ hg)
      rw [if_pos this.1, this.2]
    | none =>
      split_ifs with hl
      · cases hq : (T l)[i]? with
        | none => rfl
        | some q =>
          rw [Dict.get_of_mem ps hknd _ _ ((hmemps q).2 ⟨hl, hq⟩)] at hg
          cases hg
      · rfl
  have memG : ∀ x, x ∈ (Ls.map (fun l => ((List.range (s.polyAt l).length).map (s.piecePairs l)).flatten)).flatten ↔
      ∃ l ∈ Ls, ∃ i < (s.polyAt l).length, x ∈ s.piecePairs l i := by
    intro x
    simp only [List.mem_flatten, List.mem_map, List.mem_range]
    constructor
    · rintro ⟨_, ⟨l, hl, rfl⟩, hx⟩
      simp only [List.mem_flatten, List.mem_map, List.mem_range] at hx
      obtain ⟨_, ⟨e, he, rfl⟩, hx⟩ := hx
      exact ⟨l, hl, e, he, hx⟩
    · rintro ⟨l, hl, i, hi, hx⟩
      refine ⟨_, ⟨l, hl, rfl⟩, ?_⟩
      simp only [List.mem_flatten, List.mem_map, List.mem_range]
      exact ⟨_, ⟨i, hi, rfl⟩, hx⟩
  have tri : ∀ l ∈ Ls, ∀ i < (s.polyAt l).length, ∃ q, (T l)[i]? = some q ∧ q.length = 3 := by
    intro l hl i hi
    have hi' : i < (T l).length := by rw [hlen l hl]; exact hi
    exact ⟨(T l)[i], List.getElem?_eq_getElem hi', ((Poly.C13_subdivide _ _ (hT l hl)).2.1 i hi').1⟩
  have spec := build_spec ps hknd s.subG (subG_inv h)
    (by
      intro x e c hc
      obtain ⟨l, i, rfl⟩ : ∃ l i, x = toLex (l, i) := ⟨(ofLex x).1, (ofLex x).2, rfl⟩
      obtain ⟨hli, hc'⟩ := subG_cases.1 hc
      clear hc
      have hl := (hmem l).2 hli.1
      obtain ⟨q, hq, hq3⟩ := tri l hl i hli.2
      refine ⟨q, by rw [hget, if_pos hl, hq], ?_⟩
      change e < q.length
      rw [hq3]
      rcases hc' with hc | hc | hc <;> omega)
    (Ls.map (fun l => ((List.range (s.polyAt l).length).map (s.piecePairs l)).flatten)).flatten
    (by
      intro x hx
      obtain ⟨l, hl, i, hi, hx⟩ := (memG x).1 hx
      rcases mem_piecePairs.1 hx with rfl | ⟨c, hc, rfl⟩
      · exact ⟨1, rfl, subG_one ((hmem l).1 hl) hi⟩
      · refine ⟨0, rfl, ?_⟩
        rw [subG_zero ((hmem l).1 hl) hi, hc]
        rfl)
    (by
      intro x e c hc
      obtain ⟨l, i, rfl⟩ : ∃ l i, x = toLex (l, i) := ⟨(ofLex x).1, (ofLex x).2, rfl⟩
      obtain ⟨hli, hc'⟩ := subG_cases.1 hc
      clear hc
      have hl := (hmem l).2 hli.1
      rcases hc' with ⟨rfl, hc⟩ | ⟨rfl, hc⟩ | ⟨rfl, hc⟩
      · obtain ⟨c', h1, rfl⟩ := Option.map_eq_some_iff.1 hc
        left
        rw [memG]
        exact ⟨l, hl, i, hli.2, mem_piecePairs.2 (Or.inr ⟨c', h1, rfl⟩)⟩
      · left
        rw [memG]
        refine ⟨l, hl, i, hli.2, mem_piecePairs.2 (Or.inl ?_)⟩
        rw [hc]
        rfl
      · right
        rw [memG]
        refine ⟨l, hl, (i + (s.polyAt l).length - 1) % (s.polyAt l).length, Nat.mod_lt _ (by omega), mem_piecePairs.2 (Or.inl ?_)⟩
        rw [hc, mod_pred_succ hli.2]
        rfl)
    [toLex (r, 0)] (Or.inr ⟨toLex (r, 0), rfl, by
      have h3 := (hv r _ (hpoly r hrl)).1.len3
      rw [hkeys]
      refine List.mem_flatten.2 ⟨_, List.mem_map.2 ⟨r, hrl, rfl⟩, List.mem_map.2 ⟨0, List.mem_range.2 ?_, rfl⟩⟩
      rw [hlen r hrl]
      omega, by
      have h3 := (hv r _ (hpoly r hrl)).1.len3
      obtain ⟨n, hn⟩ : ∃ n, (s.polyAt r).length = n + 2 := ⟨(s.polyAt r).length - 2, by omega⟩
      rw [← hLs, List.map_cons, List.flatten_cons, hn, List.range_succ_eq_map, List.map_cons, List.flatten_cons, piecePairs]
      simp only [List.cons_append]
      unfold FirstCross
      rw [if_neg]
      · intro hc
        have := (Prod.mk.inj (toLex.injective hc)).2
        rw [hn, Nat.mod_eq_of_lt (by omega)] at this
        omega⟩)
  have spec' : wp (s.subdivide) (fun _ t => Reachable t ∧ t.mutable = false ∧ (∀ l, t.polygons.get l = Dict.get ps l) ∧
        (∀ l e, t.opp l e = s.subG l e)) (fun _ _ => False) MSurf.empty := by
    unfold subdivide
    have lift : ∀ {α : Type} (a : α) (f : α → Act (Lex (L × ℕ)) (Poly K) Unit) (Q E) (t : MSurf (Lex (L × ℕ)) (Poly K)), wp (f a) Q E t → wp (liftE (.ok a) >>= f) Q E t := by
      intro α a f Q E t hf
      rw [wp_bind, wp_liftE]
      refine ⟨fun b hb => ?_, fun _ hb => by cases hb⟩
      injection hb with hb
      rwa [← hb]
    rw [hls, hroot]
    refine lift _ _ _ _ _ ?_
    rw [m1]
    refine lift _ _ _ _ _ ?_
    rw [m2]
    refine lift _ _ _ _ _ ?_
    rw [m3, zip_map_self, List.map_map]
    rw [wp_bind] at spec ⊢
    refine wp_mono spec ?_ (fun _ _ hh => hh)
    intro _ t1 ht1
    refine lift _ _ _ _ _ ?_
    rw [wp_bind] at ht1 ⊢
    refine wp_mono ht1 ?_ (fun _ _ hh => hh)
    intro _ t2 ht2
    exact lift _ _ _ _ _ ht2
  obtain ⟨_, t, ht, hre, him, hp, ho⟩ := wp_ok spec'
  have hp' : ∀ l i, t.polygons.get (toLex (l, i)) = if l ∈ Ls then (T l)[i]? else none := fun l i => by rw [hp, hget]
  refine ⟨t, ht, hre, him, fun l i q => ?_, fun l p i hlp hi => ?_, ?_⟩
  · rw [polygon_iff, hp']
    constructor
    · intro hq
      split_ifs at hq with hl
      exact ⟨_, _, hpoly l hl, hT l hl, hq⟩
    · rintro ⟨p, ts, h1, h2, h3⟩
      have hl : l ∈ Ls := (hmem l).2 (by rw [Dict.mem_keys_iff, polygon_iff.1 h1]; rfl)
      rw [hpoly l hl] at h1
      injection h1 with h1
      rw [if_pos hl]
      have := hT l hl
      rw [h1, h2] at this
      injection this with this
      rw [← this, h3]
  · have hl : l ∈ Ls := (hmem l).2 (by rw [Dict.mem_keys_iff, polygon_iff.1 hlp]; rfl)
    have hpe : s.polyAt l = p := by
      have := hpoly l hl
      rw [hlp] at this
      injection this with this
      exact this.symm
    have edge : ∀ j < p.length, ∀ e : ℕ, e < 3 → t.oppositeEdge (toLex (l, j)) (e : Int) = .ok (s.subG (toLex (l, j)) e) := by
      intro j hj e he
      rw [← hpe] at hj
      obtain ⟨q, hq, hq3⟩ := tri l hl j hj
      rw [← ho]
      exact oppositeEdge_eq_opp hre.ginv.toShape ⟨q, by rw [hp', if_pos hl, hq], by change e < q.length; omega⟩
    have hmod : (i + 1) % p.length < p.length := Nat.mod_lt _ (by omega)
    refine ⟨?_, ?_, fun c hc => ?_⟩
    · rw [show (1 : Int) = ((1 : ℕ) : Int) from rfl, edge i hi 1 (by norm_num)]
      rw [subG_one ((hmem l).1 hl) (by rw [hpe]; exact hi), hpe]
    · rw [show (2 : Int) = ((2 : ℕ) : Int) from rfl, edge _ hmod 2 (by norm_num)]
      rw [subG_two ((hmem l).1 hl) (by rw [hpe]; exact hmod), hpe, mod_succ_pred hi]
    · rw [oppositeEdge_eq_opp h.ginv.toShape ⟨p, polygon_iff.1 hlp, hi⟩] at hc
      injection hc with hc
      rw [show (0 : Int) = ((0 : ℕ) : Int) from rfl, edge i hi 0 (by norm_num)]
      rw [subG_zero ((hmem l).1 hl) (by rw [hpe]; exact hi), hc]
      rfl
  · rw [totalArea_spec h.ginv h.rootsOK Ls hnd hmem s.polyAt hpoly,
      totalArea_spec hre.ginv hre.rootsOK (Dict.keys ps) hknd ?_ (fun x => t.polyAt x) ?_]
    · congr 1
      rw [hkeys, List.map_flatten, List.map_map, List.sum_flatten, List.map_map]
      congr 1
      refine List.map_congr_left fun l hl => ?_
      simp only [Function.comp_def, List.map_map]
      rw [← (Poly.C13_subdivide _ _ (hT l hl)).2.2.2]
      congr 1
      refine List.ext_getElem (by simp) fun i h1 h2 => ?_
      simp only [List.getElem_map, List.getElem_range]
      congr 1
      refine polyAt_eq ?_
      rw [hp', if_pos hl, List.getElem?_eq_getElem]
    · intro x
      rw [Dict.mem_keys_iff, Dict.mem_keys_iff, hp]
    · intro x hx
      refine polygon_polyAt ?_
      rw [Dict.mem_keys_iff] at hx ⊢
      rwa [hp]

/-! ### Examples -/

theorem exTorus_convex {l : ℕ} {p : Poly ℚ} (hp : exTorus.polygon l = .ok p) : p.Valid ∧ p.Convex := by
  obtain ⟨_, rfl⟩ := RSurf.exTorus_polygon hp
  refine ⟨Poly.valid_triangle (by decide +kernel), fun i j => ?_⟩
  have : ∀ i < 3, ∀ j < 3, 0 ≤ ccw (tri.edge i) (tri.vertex j - tri.vertex i) := by decide +kernel
  have h := this (i % 3) (Nat.mod_lt _ (by norm_num)) (j % 3) (Nat.mod_lt _ (by norm_num))
  rwa [show (3 : ℕ) = tri.length from rfl, Poly.edge_mod, Poly.vertex_mod, Poly.vertex_mod] at h

example : Reachable exTorus ∧ exTorus.rootsList = .ok [0] ∧ (∀ l p, exTorus.polygon l = .ok p → p.Valid ∧ p.Convex) :=
  ⟨exTorus_reachable, by decide +kernel, fun _ _ h => exTorus_convex h⟩

example : ∃ t, exTorus.subdivide MSurf.empty = .ok () t ∧ t.totalArea = .ok 1 ∧
    t.oppositeEdge (toLex (0, 2)) 1 = .ok (some (toLex (0, 0), 2)) ∧
    t.oppositeEdge (toLex (0, 2)) 0 = .ok (some (toLex (1, 2), 0)) := by
  obtain ⟨t, h1, -, -, -, h2, h3⟩ := C31_subdivide_partial exTorus_reachable (r := 0) (by decide +kernel) (fun _ _ h => exTorus_convex h)
  have h4 := h2 0 tri 2 (by decide +kernel) (by decide)
  exact ⟨t, h1, by rw [h3]; decide +kernel, h4.1, h4.2.2 (some (1, 2)) (by decide +kernel)⟩

example : ∃ t, exTorus.subdivideEdges 3 MSurf.empty = .ok () t ∧ t.totalArea = .ok 1 ∧
    t.oppositeEdge 0 4 = .ok (some (1, 4)) ∧ t.oppositeEdge 0 6 = .ok (some (1, 8)) := by
  obtain ⟨t, h1, -, -, -, h2, h3⟩ := C31_subdivide_edges_partial exTorus_reachable (r := 0) (by decide +kernel) (k := 3) (by norm_num)
    (fun _ _ h => (exTorus_convex h).1)
  exact ⟨t, h1, by rw [h3]; decide +kernel, h2 0 tri 1 1 (by decide +kernel) (by decide) (by norm_num) (some (1, 1)) (by decide +kernel),
    h2 0 tri 2 0 (by decide +kernel) (by decide) (by norm_num) (some (1, 2)) (by decide +kernel)⟩

/-! ### What does not hold

Both methods set the roots of the new surface before they glue: the root of a component is lost when the first two
of its polygons are glued, see C18. -/

/-- Two triangles which are not glued to anything. -/
def exApart : MSurf ℕ (Poly ℚ) := runOps [.addPolygon tri none, .addPolygon tri none] empty

/-- **C31, violated.** `subdivide()` of a surface that is not connected fails. -/
theorem C31_subdivide_disconnected_fails : ∃ s : MSurf ℕ (Poly ℚ), Reachable s ∧ s.labels = .ok [0, 1] ∧
    (∀ l p, s.polygon l = .ok p → p.Valid ∧ p.Convex) ∧ ∃ t, s.subdivide MSurf.empty = .error .assertionError t := by
  refine ⟨exApart, ?_, by decide +kernel, fun l p hp => ?_, ?_⟩
  · refine reachable_runOps _ _ .empty (by decide +kernel) ?_ ?_
    · intro op hop
      simp only [List.mem_cons, List.not_mem_nil, or_false] at hop
      rcases hop with rfl | rfl <;> simp [Op.NonNeg]
    · intro op hop
      simp only [List.mem_cons, List.not_mem_nil, or_false] at hop
      rcases hop with rfl | rfl <;> simp
  · have hk : exApart.polygons = exTorus.polygons := by decide +kernel
    refine exTorus_convex (l := l) ?_
    unfold MSurf.polygon at hp ⊢
    rwa [← hk]
  · have : (match exApart.subdivide MSurf.empty with | .ok _ _ => false | .error e _ => decide (e = .assertionError)) = true := by
      decide +kernel
    cases h : exApart.subdivide MSurf.empty with
    | ok _ t => rw [h] at this; simp at this
    | error e t =>
      rw [h] at this
      simp only [decide_eq_true_eq] at this
      rw [this]
      exact ⟨t, rfl⟩

/-- The torus with an explicit root. -/
def exRootedTorus : MSurf ℕ (Poly ℚ) := stateOf (setRoot 1 exTorus)

/-- **C31, violated.** The explicit root of a surface is not the root of `subdivide()` and of `subdivide_edges()`. -/
theorem C31_root_forgotten : ∃ s : MSurf ℕ (Poly ℚ), Reachable s ∧ s.rootsList = .ok [1] ∧
    (∃ t, s.subdivide MSurf.empty = .ok () t ∧ t.rootsList = .ok [toLex (0, 0)]) ∧
    (∃ t, s.subdivideEdges 2 MSurf.empty = .ok () t ∧ t.rootsList = .ok [0]) := by
  have hr : Reachable exRootedTorus := Reachable.step _ (.setRoot 1) exTorus_reachable (by decide +kernel) trivial (by simp)
  have hk : exRootedTorus.polygons = exTorus.polygons := by decide +kernel
  have hv : ∀ l p, exRootedTorus.polygon l = .ok p → p.Valid ∧ p.Convex := fun l p hp => by
    refine exTorus_convex (l := l) ?_
    unfold MSurf.polygon at hp ⊢
    rwa [← hk]
  refine ⟨exRootedTorus, hr, by decide +kernel, ?_, ?_⟩
  · obtain ⟨t, ht, -⟩ := C31_subdivide_partial hr (r := 1) (by decide +kernel) hv
    refine ⟨t, ht, ?_⟩
    have : (stateOf (exRootedTorus.subdivide MSurf.empty)).rootsList = .ok [toLex (0, 0)] := by decide +kernel
    rwa [ht] at this
  · obtain ⟨t, ht, -⟩ := C31_subdivide_edges_partial hr (r := 1) (by decide +kernel) (k := 2) (by norm_num) (fun l p h => (hv l p h).1)
    refine ⟨t, ht, ?_⟩
    have : (stateOf (exRootedTorus.subdivideEdges 2 MSurf.empty)).rootsList = .ok [0] := by decide +kernel
    rwa [ht] at this

end MSurf
end Flat
