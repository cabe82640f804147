import Verif.Lemmas.Gluing
import Verif.Lemmas.MapM
import Mathlib.Logic.Relation
import Mathlib.Data.List.Nodup
import Mathlib.Data.List.Perm.Subperm

/-!
# The traversal of components
-/

namespace Flat
namespace MSurf
variable {L P : Type} [LinearOrder L] [NumVertices P]

/-- Two polygons are adjacent when an edge of the first is glued to an edge of the second. -/
def Adj (s : MSurf L P) (l l' : L) : Prop := ∃ (e : ℕ) (e' : Int), s.opp l e = some (l', e')

/-- Two polygons are connected by a chain of glued edges. -/
def Conn (s : MSurf L P) : L → L → Prop := Relation.ReflTransGen s.Adj

theorem adj_symm {s : MSurf L P} (h : GInv s) {l l' : L} (ha : s.Adj l l') : s.Adj l' l := by
  obtain ⟨e, e', ho⟩ := ha
  obtain ⟨k, rfl, hk⟩ := h.inv _ _ _ _ ho
  exact ⟨k, e, hk⟩

theorem conn_symm {s : MSurf L P} (h : GInv s) {l l' : L} (hc : s.Conn l l') : s.Conn l' l := by
  induction hc with
  | refl => exact Relation.ReflTransGen.refl
  | tail _ hab ih => exact Relation.ReflTransGen.head (adj_symm h hab) ih

theorem conn_trans {s : MSurf L P} {a b c : L} (h : s.Conn a b) (h' : s.Conn b c) : s.Conn a c :=
  Relation.ReflTransGen.trans h h'

theorem adj_mem {s : MSurf L P} (h : GInv s) {l l' : L} (ha : s.Adj l l') :
    l ∈ s.polygons.keys ∧ l' ∈ s.polygons.keys := by
  have key : ∀ {l e c}, s.opp l e = some c → l ∈ s.polygons.keys := by
    intro l e c ho
    obtain ⟨p, hp, _⟩ := opp_isEdge h.toShape ho
    rw [Dict.mem_keys_iff, hp]; simp
  obtain ⟨e, e', ho⟩ := ha
  obtain ⟨k, rfl, hk⟩ := h.inv _ _ _ _ ho
  exact ⟨key ho, key hk⟩

theorem conn_mem {s : MSurf L P} (h : GInv s) {l l' : L} (hc : s.Conn l l') (hl : l ∈ s.polygons.keys) :
    l' ∈ s.polygons.keys := by
  cases hc with
  | refl => exact hl
  | tail _ hab => exact (adj_mem h hab).2

theorem crossLabels_spec {s : MSurf L P} (h : GInv s) {l : L} {p : P} (hp : s.polygons.get l = some p) :
    ∃ cs, s.crossLabels l = .ok cs ∧ (∀ l', l' ∈ cs ↔ s.Adj l l') ∧ cs.length ≤ nv p := by
  have hopp : ∀ e : ℕ, e < nv p → s.oppositeEdge l (e : Int) = .ok (s.opp l e) := fun e he =>
    oppositeEdge_eq_opp h.toShape ⟨p, hp, he⟩
  have hm : (List.range (nv p)).mapM (fun (e : ℕ) => s.oppositeEdge l e) =
      .ok ((List.range (nv p)).map (fun e => s.opp l e)) := by
    rw [mapM_ok_iff, List.forall₂_map_right_iff]
    refine List.forall₂_same.2 fun e he => hopp e (by simpa using he)
  refine ⟨((List.range (nv p)).map (fun e => s.opp l e)).filterMap (fun c => c.map Prod.fst), ?_,
    fun l' => ?_, ?_⟩
  · unfold crossLabels
    rw [hp]
    simp only [bind, Except.bind, hm]
    rfl
  · simp only [List.mem_filterMap, List.mem_map, List.mem_range, Option.map_eq_some_iff]
    constructor
    · rintro ⟨_, ⟨e, _, rfl⟩, c, hc, rfl⟩
      exact ⟨e, c.2, hc⟩
    · rintro ⟨e, e', ho⟩
      obtain ⟨q, hq, he⟩ := opp_isEdge h.toShape ho
      rw [hp] at hq
      injection hq with hq
      subst hq
      exact ⟨_, ⟨e, he, rfl⟩, _, ho, rfl⟩
  · refine (List.length_filterMap_le _ _).trans ?_
    simp

/-- The number of vertices of the polygons not yet seen. -/
def weight (d : Dict L P) (seen : List L) : ℕ :=
  ((d.filter (fun x => x.1 ∉ seen)).map (fun x => nv x.2)).sum

theorem weight_cons (d : Dict L P) (seen : List L) (l : L) (p : P) (h : (l, p) ∈ d) (hl : l ∉ seen) :
    weight d (l :: seen) + nv p ≤ weight d seen := by
  have mono : ∀ d : Dict L P, weight d (l :: seen) ≤ weight d seen := by
    intro d
    induction d with
    | nil => simp [weight]
    | cons x d ih =>
      unfold weight at ih ⊢
      by_cases h1 : x.1 ∈ seen
      · simpa [h1] using ih
      · by_cases h2 : x.1 = l
        · simp only [List.mem_cons, h2, true_or, not_true, decide_false, Bool.false_eq_true,
            not_false_eq_true, List.filter_cons_of_neg, hl, decide_true, List.filter_cons_of_pos,
            List.map_cons, List.sum_cons] at ih ⊢
          omega
        · simp only [List.mem_cons, h1, h2, or_self, not_false_eq_true, decide_true,
            List.filter_cons_of_pos, List.map_cons, List.sum_cons] at ih ⊢
          omega
  induction d with
  | nil => cases h
  | cons x d ih =>
    rcases List.mem_cons.1 h with rfl | h
    · have := mono d
      unfold weight at this ⊢
      simp only [List.mem_cons, true_or, not_true, decide_false, Bool.false_eq_true,
        not_false_eq_true, List.filter_cons_of_neg, hl, decide_true, List.filter_cons_of_pos,
        List.map_cons, List.sum_cons] at this ⊢
      omega
    · have := ih h
      unfold weight at this ⊢
      by_cases h1 : x.1 ∈ seen
      · simpa [h1] using this
      · by_cases h2 : x.1 = l
        · simp only [List.mem_cons, h2, true_or, not_true, decide_false, Bool.false_eq_true,
            not_false_eq_true, List.filter_cons_of_neg, hl, decide_true, List.filter_cons_of_pos,
            List.map_cons, List.sum_cons] at this ⊢
          omega
        · simp only [List.mem_cons, h1, h2, or_self, not_false_eq_true, decide_true,
            List.filter_cons_of_pos, List.map_cons, List.sum_cons] at this ⊢
          omega

/-- What the breadth first search returns, given enough fuel. -/
theorem bfs_spec {s : MSurf L P} (h : GInv s) (n : ℕ) (seen pending : List L)
    (hp : ∀ l ∈ pending, l ∈ s.polygons.keys) (hn : pending.length + weight s.polygons seen ≤ n) :
    ∃ ls, s.bfs n seen pending = .ok ls ∧ ls.Nodup ∧ (∀ l ∈ ls, l ∉ seen) ∧
      (∀ l ∈ pending, l ∈ seen ∨ l ∈ ls) ∧
      (∀ l ∈ ls, ∀ l', s.Adj l l' → l' ∈ seen ∨ l' ∈ ls) ∧
      (∀ l ∈ ls, ∃ r ∈ pending, s.Conn r l) := by
  induction n generalizing seen pending with
  | zero =>
    have : pending = [] := by
      cases pending with
      | nil => rfl
      | cons a b => simp at hn
    subst this
    exact ⟨[], rfl, List.nodup_nil, by simp, by simp, by simp, by simp⟩
  | succ n ih =>
    cases pending with
    | nil => exact ⟨[], rfl, List.nodup_nil, by simp, by simp, by simp, by simp⟩
    | cons label pending =>
      have hp' : ∀ l ∈ pending, l ∈ s.polygons.keys := fun l hl => hp l (by simp [hl])
      unfold bfs
      by_cases hseen : label ∈ seen
      · rw [if_pos hseen]
        obtain ⟨ls, h1, h2, h3, h4, h5, h6⟩ := ih seen pending hp' (by simp at hn; omega)
        refine ⟨ls, h1, h2, h3, fun l hl => ?_, h5, fun l hl => ?_⟩
        · rcases List.mem_cons.1 hl with rfl | hl
          · exact Or.inl hseen
          · exact h4 l hl
        · obtain ⟨r, hr, hc⟩ := h6 l hl
          exact ⟨r, by simp [hr], hc⟩
      · rw [if_neg hseen]
        have hlab := hp label (by simp)
        obtain ⟨p, hget⟩ : ∃ p, s.polygons.get label = some p := by
          rw [Dict.mem_keys_iff] at hlab
          exact Option.isSome_iff_exists.1 hlab
        obtain ⟨cs, hcs, hadj, hlen⟩ := crossLabels_spec h hget
        have hw := weight_cons s.polygons seen label p (Dict.mem_of_get _ _ _ hget) hseen
        obtain ⟨ls, h1, h2, h3, h4, h5, h6⟩ := ih (label :: seen) (pending ++ cs)
          (by
            intro l hl
            rcases List.mem_append.1 hl with hl | hl
            · exact hp' l hl
            · exact (adj_mem h ((hadj l).1 hl)).2)
          (by simp at hn ⊢; omega)
        rw [hcs]
        dsimp only
        rw [h1]
        refine ⟨label :: ls, rfl, ?_, ?_, ?_, ?_, ?_⟩
        · rw [List.nodup_cons]
          exact ⟨fun hl => h3 label hl (by simp), h2⟩
        · intro l hl
          rcases List.mem_cons.1 hl with rfl | hl
          · exact hseen
          · exact fun hs => h3 l hl (by simp [hs])
        · intro l hl
          rcases List.mem_cons.1 hl with rfl | hl
          · simp
          · rcases h4 l (by simp [hl]) with h' | h'
            · rcases List.mem_cons.1 h' with rfl | h'
              · simp
              · exact Or.inl h'
            · simp [h']
        · intro l hl l' hll
          have : l' ∈ label :: seen ∨ l' ∈ ls := by
            rcases List.mem_cons.1 hl with rfl | hl
            · exact h4 l' (by simp [(hadj l').2 hll])
            · exact h5 l hl l' hll
          rcases this with h' | h'
          · rcases List.mem_cons.1 h' with rfl | h'
            · simp
            · exact Or.inl h'
          · simp [h']
        · intro l hl
          rcases List.mem_cons.1 hl with rfl | hl
          · exact ⟨l, by simp, Relation.ReflTransGen.refl⟩
          · obtain ⟨r, hr, hc⟩ := h6 l hl
            rcases List.mem_append.1 hr with hr | hr
            · exact ⟨r, by simp [hr], hc⟩
            · exact ⟨label, by simp, Relation.ReflTransGen.head ((hadj r).1 hr) hc⟩

theorem weight_nil (d : Dict L P) : weight d [] = (d.map (fun x => nv x.2)).sum := by
  simp [weight]

/-- `component(root)` lists exactly the labels connected to the root, each once, the root first. -/
theorem component_spec {s : MSurf L P} (h : GInv s) {root : L} (hr : root ∈ s.polygons.keys) :
    ∃ ls, s.component root = .ok (root :: ls) ∧ (root :: ls).Nodup ∧
      ∀ l, l ∈ root :: ls ↔ s.Conn root l := by
  obtain ⟨ls, h1, h2, h3, h4, h5, h6⟩ := bfs_spec h s.fuel [] [root] (by simpa using hr)
    (by rw [weight_nil]; simp [fuel])
  obtain ⟨ls', hls⟩ : ∃ ls', ls = root :: ls' := by
    have h1' := h1
    unfold fuel at h1'
    rw [Nat.add_comm] at h1'
    unfold bfs at h1'
    rw [if_neg (by simp)] at h1'
    split at h1'
    · cases h1'
    · split at h1'
      · cases h1'
      · injection h1' with h1'
        exact ⟨_, h1'.symm⟩
  subst hls
  refine ⟨ls', h1, h2, fun l => ⟨fun hl => ?_, fun hc => ?_⟩⟩
  · obtain ⟨r, hr', hc⟩ := h6 l hl
    rw [List.mem_singleton] at hr'
    subst hr'
    exact hc
  · induction hc with
    | refl => simp
    | tail _ hab ih =>
      rcases h5 _ ih _ hab with h' | h'
      · cases h'
      · exact h'

theorem component_error {s : MSurf L P} {root : L} (hr : root ∉ s.polygons.keys) :
    s.component root = .error .keyError := by
  unfold component fuel
  rw [Nat.add_comm]
  unfold bfs
  rw [if_neg (by simp)]
  have : s.crossLabels root = .error .keyError := by
    unfold crossLabels
    rw [(Dict.get_eq_none_iff _ _).2 hr]
  rw [this]

/-- The explicitly set roots are labels of different components. -/
structure RootsOK (s : MSurf L P) : Prop where
  mem : ∀ r ∈ s.roots, r ∈ s.polygons.keys
  sep : s.roots.Pairwise (fun a b => ¬ s.Conn a b)

/-- Removing the labels of a list, `set.remove`. -/
theorem removeLabels_spec (labels c : List L) (hn : labels.Nodup) (hc : c.Nodup) (hsub : ∀ l ∈ c, l ∈ labels) :
    ∃ ls, removeLabels labels c = .ok ls ∧ ls.Nodup ∧ (∀ l, l ∈ ls ↔ l ∈ labels ∧ l ∉ c) ∧
      ls.length + c.length = labels.length := by
  induction c generalizing labels with
  | nil => exact ⟨labels, rfl, hn, by simp, by simp⟩
  | cons a c ih =>
    unfold removeLabels
    rw [if_pos (hsub a (by simp))]
    rw [List.nodup_cons] at hc
    obtain ⟨ls, h1, h2, h3, h4⟩ := ih (labels.erase a) (hn.erase a) hc.2 (fun l hl => by
      rw [hn.mem_erase_iff]
      exact ⟨fun he => hc.1 (he ▸ hl), hsub l (by simp [hl])⟩)
    refine ⟨ls, h1, h2, fun l => ?_, ?_⟩
    · rw [h3, hn.mem_erase_iff, List.mem_cons]; tauto
    · have := List.length_erase_of_mem (hsub a (by simp))
      have hpos : 0 < labels.length := List.length_pos_of_mem (hsub a (by simp))
      simp only [List.length_cons]
      omega

theorem removeComponents_spec {s : MSurf L P} (h : GInv s) (roots labels : List L) (hn : labels.Nodup)
    (hsub : ∀ r ∈ roots, r ∈ s.polygons.keys)
    (hlab : ∀ r ∈ roots, ∀ l, s.Conn r l → l ∈ labels)
    (hsep : roots.Pairwise (fun a b => ¬ s.Conn a b)) :
    ∃ ls, s.removeComponents labels roots = .ok ls ∧ ls.Nodup ∧
      (∀ l, l ∈ ls ↔ l ∈ labels ∧ ∀ r ∈ roots, ¬ s.Conn r l) := by
  induction roots generalizing labels with
  | nil => exact ⟨labels, rfl, hn, by simp⟩
  | cons r rs ih =>
    rw [List.pairwise_cons] at hsep
    obtain ⟨c, hc, hcn, hcm⟩ := component_spec h (hsub r (by simp))
    obtain ⟨ls1, k1, k2, k3, _⟩ := removeLabels_spec labels (r :: c) hn hcn
      (fun l hl => hlab r (by simp) l ((hcm l).1 hl))
    obtain ⟨ls, m1, m2, m3⟩ := ih ls1 k2 (fun r' hr' => hsub r' (by simp [hr'])) (fun r' hr' l hl => by
      rw [k3]
      refine ⟨hlab r' (by simp [hr']) l hl, fun hl' => ?_⟩
      exact hsep.1 r' hr' (conn_trans ((hcm l).1 hl') (conn_symm h hl))) hsep.2
    refine ⟨ls, ?_, m2, fun l => ?_⟩
    · unfold removeComponents
      simp only [bind, Except.bind, hc, k1]
      exact m1
    · rw [m3, k3, hcm]
      simp only [List.mem_cons, forall_eq_or_imp]
      tauto

theorem foldl_min_mem (x : L) (xs : List L) : xs.foldl min x ∈ x :: xs := by
  induction xs generalizing x with
  | nil => simp
  | cons y ys ih =>
    rw [List.foldl_cons]
    have := ih (min x y)
    rcases List.mem_cons.1 this with h | h
    · rw [h]
      rcases min_choice x y with h' | h' <;> simp [h']
    · simp [h]

theorem minLabel_spec {ls : List L} (h : ls ≠ []) : ∃ m ∈ ls, minLabel ls = .ok m := by
  cases ls with
  | nil => exact absurd rfl h
  | cons x xs => exact ⟨_, foldl_min_mem x xs, rfl⟩

theorem remainingRoots_spec {s : MSurf L P} (h : GInv s) (n : ℕ) (labels : List L) (hn : labels.Nodup)
    (hsub : ∀ l ∈ labels, l ∈ s.polygons.keys)
    (hcl : ∀ l ∈ labels, ∀ l', s.Conn l l' → l' ∈ labels) (hlen : labels.length ≤ n) :
    ∃ rs, s.remainingRoots n labels = .ok rs ∧ (∀ r ∈ rs, r ∈ labels) ∧
      rs.Pairwise (fun a b => ¬ s.Conn a b) ∧ (∀ l ∈ labels, ∃ r ∈ rs, s.Conn r l) := by
  induction n generalizing labels with
  | zero =>
    have : labels = [] := List.length_eq_zero_iff.1 (by omega)
    subst this
    exact ⟨[], by simp [remainingRoots], by simp, List.Pairwise.nil, by simp⟩
  | succ n ih =>
    cases labels with
    | nil => exact ⟨[], by simp [remainingRoots], by simp, List.Pairwise.nil, by simp⟩
    | cons x xs =>
      obtain ⟨m, hm, hmin⟩ := minLabel_spec (ls := x :: xs) (by simp)
      obtain ⟨c, hc, hcn, hcm⟩ := component_spec h (hsub m hm)
      obtain ⟨ls1, k1, k2, k3, k4⟩ := removeLabels_spec (x :: xs) (m :: c) hn hcn
        (fun l hl => hcl m hm l ((hcm l).1 hl))
      obtain ⟨rs, m1, m2, m3, m4⟩ := ih ls1 k2 (fun l hl => hsub l ((k3 l).1 hl).1) (fun l hl l' hll => by
        rw [k3] at hl ⊢
        refine ⟨hcl l hl.1 l' hll, fun hl' => hl.2 ?_⟩
        rw [hcm] at hl' ⊢
        exact conn_trans hl' (conn_symm h hll)) (by simp at k4 hlen; omega)
      refine ⟨m :: rs, ?_, ?_, ?_, ?_⟩
      · simp only [remainingRoots, bind, Except.bind, hmin, hc, k1, m1]
        rfl
      · intro r hr
        rcases List.mem_cons.1 hr with rfl | hr
        · exact hm
        · exact ((k3 r).1 (m2 r hr)).1
      · rw [List.pairwise_cons]
        refine ⟨fun r hr hcr => ?_, m3⟩
        have := ((k3 r).1 (m2 r hr)).2
        rw [hcm] at this
        exact this hcr
      · intro l hl
        by_cases hml : s.Conn m l
        · exact ⟨m, by simp, hml⟩
        · have : l ∈ ls1 := by
            rw [k3, hcm]
            exact ⟨hl, hml⟩
          obtain ⟨r, hr, hrl⟩ := m4 l this
          exact ⟨r, by simp [hr], hrl⟩

/-- `roots()` contains exactly one label for each component, the explicit ones first. -/
theorem rootsList_spec {s : MSurf L P} (h : GInv s) (hr : RootsOK s) :
    ∃ rs, s.rootsList = .ok (s.roots ++ rs) ∧ (∀ r ∈ s.roots ++ rs, r ∈ s.polygons.keys) ∧
      (s.roots ++ rs).Pairwise (fun a b => ¬ s.Conn a b) ∧
      (∀ l ∈ s.polygons.keys, ∃ r ∈ s.roots ++ rs, s.Conn r l) := by
  obtain ⟨ls, h1, h2, h3⟩ := removeComponents_spec h s.roots s.polygons.keys h.nodupP hr.mem
    (fun r hrr l hl => conn_mem h hl (hr.mem r hrr)) hr.sep
  obtain ⟨rs, k1, k2, k3, k4⟩ := remainingRoots_spec h ls.length ls h2 (fun l hl => ((h3 l).1 hl).1)
    (fun l hl l' hll => by
      rw [h3] at hl ⊢
      refine ⟨conn_mem h hll hl.1, fun r hrr hrl => hl.2 r hrr (conn_trans hrl (conn_symm h hll))⟩) le_rfl
  refine ⟨rs, ?_, ?_, ?_, ?_⟩
  · unfold rootsList
    simp only [bind, Except.bind, h1, k1]
    rfl
  · intro r hrr
    rcases List.mem_append.1 hrr with hrr | hrr
    · exact hr.mem r hrr
    · exact ((h3 r).1 (k2 r hrr)).1
  · rw [List.pairwise_append]
    exact ⟨hr.sep, k3, fun a ha b hb => ((h3 b).1 (k2 b hb)).2 a ha⟩
  · intro l hl
    by_cases hex : ∃ r ∈ s.roots, s.Conn r l
    · obtain ⟨r, hrr, hrl⟩ := hex
      exact ⟨r, by simp [hrr], hrl⟩
    · have : l ∈ ls := by
        rw [h3]
        exact ⟨hl, fun r hrr hrl => hex ⟨r, hrr, hrl⟩⟩
      obtain ⟨r, hrr, hrl⟩ := k4 l this
      exact ⟨r, by simp [hrr], hrl⟩

/-- `components()`: one list for each root. -/
theorem components_spec {s : MSurf L P} (h : GInv s) (hr : RootsOK s) :
    ∃ rs cs, s.rootsList = .ok rs ∧ s.components = .ok cs ∧
      List.Forall₂ (fun r c => (∃ t, c = r :: t) ∧ c.Nodup ∧ ∀ l, l ∈ c ↔ s.Conn r l) rs cs ∧
      (∀ r ∈ rs, r ∈ s.polygons.keys) ∧
      rs.Pairwise (fun a b => ¬ s.Conn a b) ∧ (∀ l ∈ s.polygons.keys, ∃ r ∈ rs, s.Conn r l) := by
  obtain ⟨rs', h1, h2, h3, h4⟩ := rootsList_spec h hr
  generalize s.roots ++ rs' = rs at h1 h2 h3 h4
  have : ∃ cs, rs.mapM s.component = .ok cs ∧
      List.Forall₂ (fun r c => (∃ t, c = r :: t) ∧ c.Nodup ∧ ∀ l, l ∈ c ↔ s.Conn r l) rs cs := by
    clear h1 h3 h4
    induction rs with
    | nil => exact ⟨[], rfl, List.Forall₂.nil⟩
    | cons r rs ih =>
      obtain ⟨cs, k1, k2⟩ := ih (fun r' hr' => h2 r' (by simp [hr']))
      obtain ⟨c, hc, hcn, hcm⟩ := component_spec h (h2 r (by simp))
      refine ⟨(r :: c) :: cs, ?_, List.Forall₂.cons ⟨⟨c, rfl⟩, hcn, hcm⟩ k2⟩
      rw [mapM_ok_iff] at k1 ⊢
      exact List.Forall₂.cons hc k1
  obtain ⟨cs, k1, k2⟩ := this
  refine ⟨rs, cs, h1, ?_, k2, h2, h3, h4⟩
  unfold components
  simp only [bind, Except.bind, h1, k1]

/-- `labels()` lists every label once. -/
theorem labels_spec {s : MSurf L P} (h : GInv s) (hr : RootsOK s) :
    ∃ ls, s.labels = .ok ls ∧ ls.Nodup ∧ ∀ l, l ∈ ls ↔ l ∈ s.polygons.keys := by
  obtain ⟨rs, cs, h1, h2, h3, h4, h5, h6⟩ := components_spec h hr
  refine ⟨cs.flatten, ?_, ?_, fun l => ?_⟩
  · unfold labels
    simp only [bind, Except.bind, h2]
    rfl
  · clear h1 h2 h4 h6
    induction h3 with
    | nil => simp
    | cons hrc hrest ih =>
      rename_i r c rs cs
      rw [List.pairwise_cons] at h5
      rw [List.flatten_cons, List.nodup_append]
      refine ⟨hrc.2.1, ih h5.2, fun a ha b hb hab => ?_⟩
      subst hab
      rw [hrc.2.2] at ha
      obtain ⟨c', hc', hac'⟩ := List.mem_flatten.1 hb
      obtain ⟨r', hr', hcr⟩ : ∃ r' ∈ rs, ∀ l, l ∈ c' ↔ s.Conn r' l := by
        clear ih h5 ha hb hrc
        induction hrest with
        | nil => cases hc'
        | cons h1 h2 ih =>
          rcases List.mem_cons.1 hc' with rfl | hc'
          · exact ⟨_, by simp, h1.2.2⟩
          · obtain ⟨r', hr', hh⟩ := ih hc'
            exact ⟨r', by simp [hr'], hh⟩
      exact h5.1 r' hr' (conn_trans ha (conn_symm h ((hcr a).1 hac')))
  · constructor
    · intro hl
      obtain ⟨c, hc, hlc⟩ := List.mem_flatten.1 hl
      clear h1 h2 h5 h6 hl
      induction h3 with
      | nil => cases hc
      | cons hrc hrest ih =>
        rcases List.mem_cons.1 hc with rfl | hc
        · exact conn_mem h ((hrc.2.2 l).1 hlc) (h4 _ (by simp))
        · exact ih (fun r hr => h4 r (by simp [hr])) hc
    · intro hl
      obtain ⟨r, hrr, hrl⟩ := h6 l hl
      clear h1 h2 h4 h5 h6
      induction h3 with
      | nil => cases hrr
      | cons hrc hrest ih =>
        rw [List.flatten_cons, List.mem_append]
        rcases List.mem_cons.1 hrr with rfl | hrr
        · exact Or.inl ((hrc.2.2 l).2 hrl)
        · exact Or.inr (ih hrr)

end MSurf
end Flat
