import Verif.Props.Gluing

/-!
# C20, C21: iteration over labels, components and roots
-/

namespace Flat
namespace MSurf
variable {L K : Type} [LinearOrder L] [LabelNum L] [Field K] [LinearOrder K] [IsStrictOrderedRing K]

/-- Some edge of `a` is glued to an edge of `b`. -/
def Glued (s : MSurf L (Poly K)) (a b : L) : Prop :=
  ∃ (e : ℕ) (e' : Int), s.oppositeEdge a e = .ok (some (b, e'))

/-- `b` can be reached from `a` by crossing glued edges. -/
def Linked (s : MSurf L (Poly K)) : L → L → Prop := Relation.ReflTransGen s.Glued

/-- `l` is the label of a polygon. -/
def IsLabel (s : MSurf L (Poly K)) (l : L) : Prop := ∃ p, s.polygon l = .ok p

omit [LabelNum L] [IsStrictOrderedRing K] in
theorem isLabel_iff {s : MSurf L (Poly K)} {l : L} : s.IsLabel l ↔ l ∈ s.polygons.keys := by
  unfold IsLabel
  simp only [polygon_ok]
  rw [Dict.mem_keys_iff, Option.isSome_iff_exists]

omit [LabelNum L] in
theorem glued_iff {s : MSurf L (Poly K)} (h : GInv s) {a b : L} : s.Glued a b ↔ s.Adj a b := by
  constructor
  · rintro ⟨e, e', ho⟩
    obtain ⟨k, _, _, _, ho', _⟩ := oppositeEdge_some h ho
    exact ⟨e, k, ho'⟩
  · rintro ⟨e, e', ho⟩
    refine ⟨e, e', ?_⟩
    rw [oppositeEdge_eq_opp h.toShape, ho]
    obtain ⟨k, _, hk⟩ := h.inv _ _ _ _ ho
    obtain ⟨k', hk1, hk2⟩ := h.inv _ _ _ _ hk
    rw [Int.natCast_inj] at hk1
    subst hk1
    exact opp_isEdge h.toShape hk2

omit [LabelNum L] in
theorem linked_iff {s : MSurf L (Poly K)} (h : GInv s) {a b : L} : s.Linked a b ↔ s.Conn a b := by
  constructor
  · exact Relation.ReflTransGen.mono (fun _ _ => (glued_iff h).1) _ _
  · exact Relation.ReflTransGen.mono (fun _ _ => (glued_iff h).2) _ _

/-! ### C20 -/

/-- **C20.** Iterating over `labels()` yields every label exactly once. -/
theorem C20_labels_once {s : MSurf L (Poly K)} (h : Reachable s) :
    ∃ ls, s.labels = .ok ls ∧ ls.Nodup ∧ ∀ l, l ∈ ls ↔ s.IsLabel l := by
  obtain ⟨ls, h1, h2, h3⟩ := labels_spec h.ginv h.rootsOK
  exact ⟨ls, h1, h2, fun l => by rw [h3, isLabel_iff]⟩

/-- **C20**, one component: starting from a label, the search lists this label first, then exactly the
labels that can be reached across glued edges, each once. -/
theorem C20_component_labels {s : MSurf L (Poly K)} (h : Reachable s) {root : L} (hr : s.IsLabel root) :
    ∃ ls, s.component root = .ok (root :: ls) ∧ (root :: ls).Nodup ∧
      ∀ l, l ∈ root :: ls ↔ s.Linked root l := by
  obtain ⟨ls, h1, h2, h3⟩ := component_spec h.ginv (isLabel_iff.1 hr)
  exact ⟨ls, h1, h2, fun l => by rw [h3, linked_iff h.ginv]⟩

/-- **C20**, all components: `components()` partitions the labels, the components come in the order of
`roots()` and start with their root. -/
theorem C20_components_partition {s : MSurf L (Poly K)} (h : Reachable s) :
    ∃ rs cs, s.rootsList = .ok rs ∧ s.components = .ok cs ∧ cs.map List.head? = rs.map some ∧
      cs.Pairwise List.Disjoint ∧ (∀ c ∈ cs, c.Nodup) ∧ (∀ l, s.IsLabel l ↔ ∃ c ∈ cs, l ∈ c) ∧
      (∀ c ∈ cs, ∀ a ∈ c, ∀ b, b ∈ c ↔ s.Linked a b) := by
  obtain ⟨rs, cs, h1, h2, h3, h4, h5, h6⟩ := components_spec h.ginv h.rootsOK
  have hg := h.ginv
  have key : ∀ c ∈ cs, ∃ r ∈ rs, c.Nodup ∧ ∀ l, l ∈ c ↔ s.Conn r l := by
    clear h1 h2 h4 h5 h6
    induction h3 with
    | nil => intro c hc; cases hc
    | cons hh _ ih =>
      intro c hc
      rcases List.mem_cons.1 hc with rfl | hc
      · exact ⟨_, by simp, hh.2⟩
      · obtain ⟨r, hr, hh⟩ := ih c hc
        exact ⟨r, List.mem_cons_of_mem _ hr, hh⟩
  refine ⟨rs, cs, h1, h2, ?_, ?_, fun c hc => ?_, fun l => ?_, fun c hc a ha b => ?_⟩
  · clear h1 h2 h4 h5 h6 key
    induction h3 with
    | nil => rfl
    | cons hh _ ih =>
      obtain ⟨⟨t, rfl⟩, _⟩ := hh
      simp [ih]
  · clear h1 h2 h4 h6 key
    induction h3 with
    | nil => exact List.Pairwise.nil
    | @cons r c rs cs hh ht ih =>
      rw [List.pairwise_cons] at h5
      refine List.Pairwise.cons (fun c' hc' => ?_) (ih h5.2)
      obtain ⟨r', hr', hm⟩ : ∃ r' ∈ rs, ∀ l, l ∈ c' ↔ s.Conn r' l := by
        clear ih h5 hh
        induction ht with
        | nil => cases hc'
        | cons hh _ ih =>
          rcases List.mem_cons.1 hc' with rfl | hc'
          · exact ⟨_, by simp, hh.2.2⟩
          · obtain ⟨r, hr, hh⟩ := ih hc'
            exact ⟨r, List.mem_cons_of_mem _ hr, hh⟩
      intro l hl hl'
      exact h5.1 r' hr' (conn_trans ((hh.2.2 l).1 hl) (conn_symm hg ((hm l).1 hl')))
  · exact (key c hc).choose_spec.2.1
  · rw [isLabel_iff]
    constructor
    · intro hl
      obtain ⟨r, hr, hrl⟩ := h6 l hl
      have : ∃ c ∈ cs, ∀ l, l ∈ c ↔ s.Conn r l := by
        clear h1 h2 h4 h5 h6 key
        induction h3 with
        | nil => cases hr
        | cons hh _ ih =>
          rcases List.mem_cons.1 hr with rfl | hr
          · exact ⟨_, by simp, hh.2.2⟩
          · obtain ⟨c, hc, hh⟩ := ih hr
            exact ⟨c, List.mem_cons_of_mem _ hc, hh⟩
      obtain ⟨c, hc, hm⟩ := this
      exact ⟨c, hc, (hm l).2 hrl⟩
    · rintro ⟨c, hc, hl⟩
      obtain ⟨r, hr, _, hm⟩ := key c hc
      exact conn_mem hg ((hm l).1 hl) (h4 r hr)
  · obtain ⟨r, _, _, hm⟩ := key c hc
    rw [linked_iff hg, hm]
    have ha' := (hm a).1 ha
    exact ⟨fun hb => conn_trans (conn_symm hg ha') hb, fun hb => conn_trans ha' hb⟩

/-- Three triangles, two of them glued. -/
def exThree : MSurf ℕ (Poly ℚ) :=
  ⟨[(0, tri), (1, tri), (2, tri)],
   [(0, [none, none, none]), (1, [some (2, 0), none, none]), (2, [some (1, 0), none, none])], [], true, 2⟩

theorem exThree_reachable : Reachable exThree := by
  have h0 : Reachable (MSurf.empty : MSurf ℕ (Poly ℚ)) := .empty
  have h1 := Reachable.step _ (.addPolygon tri none) h0 rfl trivial (by simp)
  have h2 := Reachable.step _ (.addPolygon tri none) h1 rfl trivial (by simp)
  have h3 := Reachable.step _ (.addPolygon tri none) h2 rfl trivial (by simp)
  exact Reachable.step _ (.glue (1, 0) (2, 0)) h3 rfl (by simp [Op.NonNeg]) (by simp)

example : Reachable exThree ∧ exThree.labels = .ok [0, 1, 2] ∧ exThree.components = .ok [[0], [1, 2]] ∧
    exThree.IsLabel 2 := ⟨exThree_reachable, by decide, by decide, ⟨tri, rfl⟩⟩

/-! ### C21 -/

/-- **C21.** In every reachable state `roots()` contains exactly one label of every component. -/
theorem C21_one_root_per_component {s : MSurf L (Poly K)} (h : Reachable s) :
    ∃ rs, s.rootsList = .ok rs ∧ rs.Nodup ∧ (∀ r ∈ rs, s.IsLabel r) ∧
      ∀ l, s.IsLabel l → ∃! r, r ∈ rs ∧ s.Linked r l := by
  have hg := h.ginv
  obtain ⟨rs', h1, h2, h3, h4⟩ := rootsList_spec hg h.rootsOK
  generalize s.roots ++ rs' = rs at h1 h2 h3 h4
  have uniq : ∀ a ∈ rs, ∀ b ∈ rs, s.Conn a b → a = b := by
    have : RootsOK { s with roots := rs } := ⟨h2, h3⟩
    intro a ha b hb hab
    exact sep_unique (hg.withRoots rs) this ha hb hab
  refine ⟨rs, h1, ?_, fun r hr => isLabel_iff.2 (h2 r hr), fun l hl => ?_⟩
  · exact h3.imp fun hab => by rintro rfl; exact hab Relation.ReflTransGen.refl
  · obtain ⟨r, hr, hrl⟩ := h4 l (isLabel_iff.1 hl)
    refine ⟨r, ⟨hr, (linked_iff hg).2 hrl⟩, fun r' ⟨hr', hrl'⟩ => ?_⟩
    exact uniq r' hr' r hr (conn_trans ((linked_iff hg).1 hrl') (conn_symm hg hrl))

/-- **C21**, the explicit roots (given by `set_root` and `set_roots`) are labels of polygons in different
components, and `roots()` starts with them. -/
theorem C21_explicit_roots_distinct {s : MSurf L (Poly K)} (h : Reachable s) :
    (∀ r ∈ s.roots, s.IsLabel r) ∧ s.roots.Pairwise (fun a b => ¬ s.Linked a b) ∧
    ∃ rs, s.rootsList = .ok (s.roots ++ rs) := by
  refine ⟨fun r hr => isLabel_iff.2 (h.rootsOK.mem r hr), h.rootsOK.sep.imp fun hab hc =>
    hab ((linked_iff h.ginv).1 hc), ?_⟩
  obtain ⟨rs', h1, _⟩ := rootsList_spec h.ginv h.rootsOK
  exact ⟨rs', h1⟩

/-- There are no explicit roots or every component has one. -/
def Rooted (s : MSurf L (Poly K)) : Prop := s.roots = [] ∨ ∀ l, s.IsLabel l → ∃ r ∈ s.roots, s.Linked r l

omit [LabelNum L] in
theorem rooted_iff {s : MSurf L (Poly K)} (h : GInv s) : s.Rooted ↔ s.FullRoots := by
  unfold Rooted FullRoots
  simp only [isLabel_iff, linked_iff h]

/-- The calls that the root bookkeeping is made for. -/
inductive BasicOp (L K : Type) where
  | add (p : Poly K) (label : Option L)
  | glue (x y : L × ℕ)
  | unglue (x : L × ℕ)

/-- Perform the call. -/
def BasicOp.run : BasicOp L K → Act L (Poly K) Unit
  | add p label => do let _ ← addPolygon p label
  | glue x y => MSurf.glue (x.1, (x.2 : Int)) (y.1, (y.2 : Int))
  | unglue x => MSurf.unglue x.1 (x.2 : Int)

theorem BasicOp.spec {s : MSurf L (Poly K)} (hg : GInv s) (hr : RootsOK s) (op : BasicOp L K) :
    wp op.run (fun _ s' => FullRoots s → FullRoots s')
      (fun e s' => FullRoots s → FullRoots s' ∧ e ≠ .assertionError) s := by
  cases op with
  | add p label =>
    unfold BasicOp.run
    rw [wp_bind]
    refine wp_mono (addPolygon_spec hg.toShape p label) ?_ ?_
    · rintro l s' ⟨_, _, h⟩
      exact (h.roots_ok hg hr).2
    · rintro e s' ⟨rfl, ⟨rfl, _⟩ | ⟨rfl, _⟩⟩ <;> exact fun hf => ⟨hf, by simp⟩
  | glue x y => exact wp_mono (glue_roots hg hr x y) (fun _ _ h => h.2) (fun _ _ h => h.2)
  | unglue x => exact wp_mono (unglue_roots hg hr x.1 x.2) (fun _ _ h => h.2) (fun _ _ h => h.2)

/-- The call as an operation in a history. -/
def BasicOp.toOp : BasicOp L K → Op L K
  | add p label => .addPolygon p label
  | glue x y => .glue (x.1, (x.2 : Int)) (y.1, (y.2 : Int))
  | unglue x => .unglue x.1 (x.2 : Int)

theorem BasicOp.reachable {s : MSurf L (Poly K)} (h : Reachable s) (hm : s.mutable = true) (op : BasicOp L K) :
    Reachable (stateOf (op.run s)) := by
  have := Reachable.step s op.toOp h hm (by cases op <;> simp [BasicOp.toOp, Op.NonNeg])
    (by cases op <;> simp [BasicOp.toOp])
  cases op <;> exact this

/-- **C21**, the bookkeeping: starting from a reachable state without explicit roots or with one explicit
root for every component, no sequence of `add_polygon`, `glue` and `unglue` calls ever raises an assertion
error, and every component keeps its explicit root.

Partial: the full claim also allows histories where only some components have an explicit root (after
`set_root` on a disconnected surface) or where a component with its explicit root was cut by
`remove_polygon`; there `glue` and `unglue` crash, see `C21_glue_crash_violation`,
`C21_unglue_crash_violation`, `C21_remove_crash_violation`. -/
theorem C21_bookkeeping_partial {s : MSurf L (Poly K)} (h : Reachable s) (hf : s.Rooted)
    (ops : List (BasicOp L K)) (op : BasicOp L K) :
    let s' := ops.foldl (fun s op => stateOf (op.run s)) s
    s'.Rooted ∧ ∀ s'', op.run s' ≠ .error .assertionError s'' := by
  have immutable_stays : ∀ (s : MSurf L (Poly K)) (op : BasicOp L K), s.mutable = false →
      stateOf (op.run s) = s := by
    intro s op hm
    cases op <;> simp [BasicOp.run, addPolygon, addPolygonBase, MSurf.glue, MSurf.unglue, checkMutable, hm,
      bind, EStateM.bind, get, getThe, MonadStateOf.get, EStateM.get, throw, throwThe, MonadExceptOf.throw,
      EStateM.throw, stateOf]
  induction ops generalizing s with
  | nil =>
    refine ⟨hf, fun s'' hs'' => ?_⟩
    have spec := op.spec h.ginv h.rootsOK
    unfold wp at spec
    dsimp only [List.foldl_nil] at hs''
    rw [hs''] at spec
    exact (spec ((rooted_iff h.ginv).1 hf)).2 rfl
  | cons o ops ih =>
    cases hm : s.mutable with
    | false =>
      have := immutable_stays s o hm
      simp only [List.foldl_cons, this]
      exact ih h hf
    | true =>
      have hr := BasicOp.reachable h hm o
      refine ih hr ((rooted_iff hr.ginv).2 ?_)
      refine (wp_stateOf o.run FullRoots s).1 ?_
      refine wp_mono (o.spec h.ginv h.rootsOK) ?_ ?_
      · exact fun _ _ hh => hh ((rooted_iff h.ginv).1 hf)
      · exact fun _ _ hh => (hh ((rooted_iff h.ginv).1 hf)).1

/-- The surface `exThree` with an explicit root in each component. -/
def exRooted : MSurf ℕ (Poly ℚ) := { exThree with roots := [2, 0] }

example : Reachable exRooted ∧ exRooted.Rooted := by
  refine ⟨Reachable.step _ (.setRoots [2, 0]) exThree_reachable rfl trivial (by simp), Or.inr ?_⟩
  rintro l ⟨p, hp⟩
  have : l = 0 ∨ l = 1 ∨ l = 2 := by
    have := isLabel_iff.1 ⟨p, hp⟩
    revert this
    simp [exRooted, exThree, Dict.keys]
  rcases this with rfl | rfl | rfl
  · exact ⟨0, by decide, Relation.ReflTransGen.refl⟩
  · exact ⟨2, by decide, Relation.ReflTransGen.single ⟨0, 0, by decide⟩⟩
  · exact ⟨2, by decide, Relation.ReflTransGen.refl⟩

/-- **C21** fails for `glue`: after `set_root(0)` on a surface with three components, gluing the two other
components raises an assertion error. -/
theorem C21_glue_crash_violation :
    ∃ s : MSurf ℕ (Poly ℚ), Reachable s ∧ s.mutable = true ∧ ∃ s', glue (1, 0) (2, 0) s = .error .assertionError s' := by
  have h0 : Reachable (MSurf.empty : MSurf ℕ (Poly ℚ)) := .empty
  have h1 := Reachable.step _ (.addPolygon tri none) h0 rfl trivial (by simp)
  have h2 := Reachable.step _ (.addPolygon tri none) h1 rfl trivial (by simp)
  have h3 := Reachable.step _ (.addPolygon tri none) h2 rfl trivial (by simp)
  have h4 := Reachable.step _ (.setRoot 0) h3 rfl trivial (by simp)
  exact ⟨_, h4, rfl, _, rfl⟩

/-- **C21** fails for `unglue`: after `set_root(0)`, ungluing the only edge between two polygons of
another component raises an assertion error. -/
theorem C21_unglue_crash_violation :
    ∃ s : MSurf ℕ (Poly ℚ), Reachable s ∧ s.mutable = true ∧ ∃ s', unglue 1 0 s = .error .assertionError s' :=
  ⟨_, Reachable.step _ (.setRoot 0) exThree_reachable rfl trivial (by simp), rfl, _, rfl⟩

/-- A triangle glued to three other triangles, with an explicit root. -/
def exStar : MSurf ℕ (Poly ℚ) := { stateOf ((do
    glue (0, 0) (1, 0)
    glue (0, 1) (2, 0)
    glue (0, 2) (3, 0) : Act ℕ (Poly ℚ) Unit) (stateOf ((do
    let _ ← addPolygon tri none
    let _ ← addPolygon tri none
    let _ ← addPolygon tri none
    let _ ← addPolygon tri none : Act ℕ (Poly ℚ) Unit) empty))) with roots := [1] }

theorem exStar_reachable : Reachable exStar := by
  have h0 : Reachable (MSurf.empty : MSurf ℕ (Poly ℚ)) := .empty
  have h1 := Reachable.step _ (.addPolygon tri none) h0 rfl trivial (by simp)
  have h2 := Reachable.step _ (.addPolygon tri none) h1 rfl trivial (by simp)
  have h3 := Reachable.step _ (.addPolygon tri none) h2 rfl trivial (by simp)
  have h4 := Reachable.step _ (.addPolygon tri none) h3 rfl trivial (by simp)
  have h5 := Reachable.step _ (.glue (0, 0) (1, 0)) h4 rfl (by simp [Op.NonNeg]) (by simp)
  have h6 := Reachable.step _ (.glue (0, 1) (2, 0)) h5 rfl (by simp [Op.NonNeg]) (by simp)
  have h7 := Reachable.step _ (.glue (0, 2) (3, 0)) h6 rfl (by simp [Op.NonNeg]) (by simp)
  exact Reachable.step _ (.setRoot 1) h7 rfl trivial (by simp)

/-- **C21** fails after `remove_polygon`: the surface is connected and rooted, removing the polygon in the
middle leaves components without root, and gluing two of them raises an assertion error. -/
theorem C21_remove_crash_violation :
    Reachable exStar ∧ exStar.roots = [1] ∧ exStar.components = .ok [[1, 0, 2, 3]] ∧
    ∃ s', removePolygon 0 exStar = .ok () s' ∧ ∃ s'', glue (2, 1) (3, 1) s' = .error .assertionError s'' :=
  ⟨exStar_reachable, rfl, by decide, _, rfl, _, rfl⟩

/-- **C21**, a related defect: the explicit root of a component is forgotten when the component is glued to
one without explicit root (here the component of `1` has root `1`, afterwards its root is `0`). -/
theorem C21_glue_forgets_root :
    ∃ s : MSurf ℕ (Poly ℚ), Reachable s ∧ s.rootsList = .ok [1, 0] ∧
      ∃ s', glue (0, 0) (1, 1) s = .ok () s' ∧ s'.rootsList = .ok [0] := by
  refine ⟨_, Reachable.step _ (.setRoot 1) exThree_reachable rfl trivial (by simp), by decide, _, rfl, by decide⟩

end MSurf
end Flat
