import Mathlib.Algebra.Group.Defs
import Mathlib.Algebra.Group.Basic
import Mathlib.Data.List.Basic
import Mathlib.Data.List.Forall2
import Mathlib.Tactic.SplitIfs
import Mathlib.Tactic.Cases
import Verif.Model.Morphism

/-!
# C53: composition and sections of morphisms
-/

namespace Flat
namespace MorphSys
variable {A Surf Pt : Type} [DecidableEq Surf]

/-- A class of morphisms with its own `section()` (linear maps) returns a morphism of the same class in the other direction, which does what `_section_point`
does (morphism.py 3945), and whose section is the morphism again. -/
structure Lawful (Y : MorphSys A Surf Pt) : Prop where
  dom : ∀ a b, Y.sec a = some b → Y.dom b = Y.cod a
  cod : ∀ a b, Y.sec a = some b → Y.cod b = Y.dom a
  img : ∀ a b, Y.sec a = some b → Y.img b = Y.sct a
  sec : ∀ a b, Y.sec a = some b → Y.sec b = some a

variable (Y : MorphSys A Surf Pt)

/-- The morphisms that can be produced with the API: elementary morphisms, identities, renamed morphisms, sections and compositions. -/
inductive Built : Morph A Surf → Prop
  | atom (a : A) : Built (.atom a)
  | ident (s : Surf) : Built (.ident s)
  | named {m : Morph A Surf} (h : Built m) : Built (.named m)
  | sect {m m' : Morph A Surf} (h : Built m) (hm : Y.section' m = .ok m') : Built m'
  | comp {f g m : Morph A Surf} (hf : Built f) (hg : Built g) (hm : Y.composition f g = .ok m) : Built m

/-! ## Invariant of these morphisms -/

/-- A chain of morphisms. -/
inductive Chain : Surf → Surf → List (Morph A Surf) → Prop
  | one (m : Morph A Surf) : Chain (Y.ends m).1 (Y.ends m).2 [m]
  | cons {c : Surf} {ms : List (Morph A Surf)} (m : Morph A Surf) (h : Chain (Y.ends m).2 c ms) : Chain (Y.ends m).1 c (m :: ms)

/-- Neither the identity nor a composition, and not the section of a section. -/
def Simple : Morph A Surf → Prop
  | .atom _ => True
  | .named _ => True
  | .sect (.atom a) => Y.sec a = none
  | .sect (.named _) => True
  | _ => False

def WF : Morph A Surf → Prop
  | .ident _ => True
  | .comp d c ms => Chain Y d c ms ∧ 2 ≤ ms.length ∧ ∀ m ∈ ms, Simple Y m
  | m => Simple Y m

variable {Y}

theorem Chain.append {d e c : Surf} {ms ns : List (Morph A Surf)} (h : Chain Y d e ms) (h' : Chain Y e c ns) : Chain Y d c (ms ++ ns) := by
  induction h with
  | one m => exact .cons m h'
  | cons m _ ih => exact .cons m (ih h')

theorem Chain.ne_nil {d c : Surf} {ms : List (Morph A Surf)} (h : Chain Y d c ms) : ms ≠ [] := by
  cases h <;> simp

theorem Simple.parts_eq {m : Morph A Surf} (h : Simple Y m) : parts m = [m] := by
  cases m <;> first | rfl | exact absurd h (by simp [Simple])

theorem Simple.wf {m : Morph A Surf} (h : Simple Y m) : WF Y m := by
  cases m <;> first | exact h | exact absurd h (by simp [Simple])

/-- The parts of a morphism other than an identity. -/
theorem WF.parts_spec {m : Morph A Surf} (h : WF Y m) (hi : ∀ s, m ≠ .ident s) :
    Chain Y (Y.ends m).1 (Y.ends m).2 (parts m) ∧ 1 ≤ (parts m).length ∧ ∀ x ∈ parts m, Simple Y x := by
  cases m with
  | ident s => exact absurd rfl (hi s)
  | comp d c ms => exact ⟨h.1, by have := h.2.1; show 1 ≤ ms.length; omega, h.2.2⟩
  | atom a => exact ⟨.one _, Nat.le_refl _, fun x hx => by rw [List.mem_singleton.1 hx]; exact h⟩
  | sect a => exact ⟨.one _, Nat.le_refl _, fun x hx => by rw [List.mem_singleton.1 hx]; exact h⟩
  | named a => exact ⟨.one _, Nat.le_refl _, fun x hx => by rw [List.mem_singleton.1 hx]; exact h⟩

theorem comp_eq {f g : Morph A Surf} (h : (Y.ends g).2 = (Y.ends f).1) (hf : ∀ s, f ≠ .ident s) (hg : ∀ s, g ≠ .ident s) :
    Y.composition f g = .ok (.comp (Y.ends g).1 (Y.ends f).2 (parts g ++ parts f)) := by
  unfold composition
  rw [if_neg (by simpa using h)]
  cases g <;> first | (exact absurd rfl (hg _)) | (cases f <;> first | (exact absurd rfl (hf _)) | rfl)

theorem comp_ident {f : Morph A Surf} {s : Surf} (h : (Y.ends f).1 = s) : Y.composition f (.ident s) = .ok f := by
  unfold composition
  rw [if_neg (by simpa [ends] using h.symm)]

theorem ident_comp {g : Morph A Surf} {s : Surf} (h : (Y.ends g).2 = s) : Y.composition (.ident s) g = .ok g := by
  unfold composition
  rw [if_neg (by simpa [ends] using h)]
  cases g with
  | ident t => simp only [ends] at h; subst h; rfl
  | _ => rfl

theorem ident_or (f : Morph A Surf) : (∃ s, f = .ident s) ∨ ∀ s, f ≠ .ident s := by
  cases f with
  | ident s => exact .inl ⟨s, rfl⟩
  | _ => right; intro s h; cases h

/-- The three cases of a composition. -/
theorem comp_cases {f g m : Morph A Surf} (h : Y.composition f g = .ok m) : (Y.ends g).2 = (Y.ends f).1 ∧
    ((∃ s, f = .ident s ∧ m = g) ∨ (∃ s, g = .ident s ∧ m = f) ∨
      ((∀ s, f ≠ .ident s) ∧ (∀ s, g ≠ .ident s) ∧ m = .comp (Y.ends g).1 (Y.ends f).2 (parts g ++ parts f))) := by
  have he : (Y.ends g).2 = (Y.ends f).1 := by
    by_contra hne
    unfold composition at h
    rw [if_pos hne] at h
    cases h
  refine ⟨he, ?_⟩
  rcases ident_or f with ⟨s, rfl⟩ | hf
  · rw [ident_comp (by simpa [ends] using he)] at h
    cases h
    exact .inl ⟨s, rfl, rfl⟩
  · rcases ident_or g with ⟨s, rfl⟩ | hg
    · rw [comp_ident (by simpa [ends] using he.symm)] at h
      cases h
      exact .inr (.inl ⟨s, rfl, rfl⟩)
    · rw [comp_eq he hf hg] at h
      cases h
      exact .inr (.inr ⟨hf, hg, rfl⟩)

theorem WF.comp {f g m : Morph A Surf} (hf : WF Y f) (hg : WF Y g) (h : Y.composition f g = .ok m) : WF Y m ∧
    Y.ends m = ((Y.ends g).1, (Y.ends f).2) := by
  obtain ⟨he, ⟨s, rfl, rfl⟩ | ⟨s, rfl, rfl⟩ | ⟨h1, h2, rfl⟩⟩ := comp_cases h
  · refine ⟨hg, ?_⟩
    simp only [ends] at he ⊢
    rw [← he]
  · refine ⟨hf, ?_⟩
    simp only [ends] at he ⊢
    rw [he]
  · obtain ⟨c1, l1, s1⟩ := hf.parts_spec h1
    obtain ⟨c2, l2, s2⟩ := hg.parts_spec h2
    refine ⟨⟨c2.append (he ▸ c1), by rw [List.length_append]; omega, ?_⟩, rfl⟩
    intro x hx
    rcases List.mem_append.1 hx with hx | hx
    · exact s2 x hx
    · exact s1 x hx

/-- The section of a simple morphism. -/
theorem Simple.section_spec (hY : Lawful Y) {m : Morph A Surf} (h : Simple Y m) : ∃ s, Y.section' m = .ok s ∧ Simple Y s ∧
    Y.ends s = ((Y.ends m).2, (Y.ends m).1) ∧ (∀ p, Y.image s p = Y.sectionPoint m p) ∧ (∀ p, Y.sectionPoint s p = Y.image m p) ∧
    Y.section' s = .ok m := by
  cases m with
  | atom a =>
    cases hs : Y.sec a with
    | none =>
      refine ⟨.sect (.atom a), by simp [section', hs], hs, rfl, fun p => ?_, fun p => ?_, by simp [section']⟩ <;> simp [image, sectionPoint]
    | some b =>
      refine ⟨.atom b, by simp [section', hs], trivial, ?_, fun p => ?_, fun p => ?_, ?_⟩
      · simp only [ends]; rw [hY.dom a b hs, hY.cod a b hs]
      · simp only [image, sectionPoint]; rw [hY.img a b hs]
      · simp only [image, sectionPoint]; rw [← hY.img b a (hY.sec a b hs)]
      · simp [section', hY.sec a b hs]
  | named a =>
    refine ⟨.sect (.named a), by simp [section'], trivial, rfl, fun p => ?_, fun p => ?_, by simp [section']⟩ <;> simp [image, sectionPoint]
  | sect x =>
    cases x with
    | atom a =>
      refine ⟨.atom a, by simp [section'], trivial, rfl, fun p => ?_, fun p => ?_, ?_⟩
      · simp [image, sectionPoint]
      · simp [image, sectionPoint]
      · have h' : Y.sec a = none := h
        simp [section', h']
    | named a =>
      refine ⟨.named a, by simp [section'], trivial, rfl, fun p => ?_, fun p => ?_, by simp [section']⟩ <;> simp [image, sectionPoint]
    | ident a => exact absurd h (by simp [Simple])
    | sect a => exact absurd h (by simp [Simple])
    | comp d c a => exact absurd h (by simp [Simple])
  | ident a => exact absurd h (by simp [Simple])
  | comp d c a => exact absurd h (by simp [Simple])

theorem imageAll_append (ms ns : List (Morph A Surf)) (p : Pt) :
    Y.imageAll (ms ++ ns) p = (Y.imageAll ms p).bind (Y.imageAll ns) := by
  induction ms generalizing p with
  | nil => simp [imageAll, Except.bind]
  | cons m ms ih =>
    simp only [List.cons_append, imageAll]
    cases Y.image m p with
    | error x => rfl
    | ok q => exact ih q

theorem sectionAll_append (ms ns : List (Morph A Surf)) (p : Pt) :
    Y.sectionAll (ms ++ ns) p = (Y.sectionAll ns p).bind (Y.sectionAll ms) := by
  induction ms with
  | nil => simp only [List.nil_append]; cases Y.sectionAll ns p <;> simp [sectionAll, Except.bind]
  | cons m ms ih =>
    simp only [List.cons_append, sectionAll, ih]
    cases Y.sectionAll ns p with
    | error x => rfl
    | ok q => simp [Except.bind, sectionAll]

theorem image_parts (m : Morph A Surf) (p : Pt) : Y.image m p = Y.imageAll (parts m) p := by
  cases m <;> simp only [parts, imageAll, image] <;> split <;> simp_all

theorem sectionPoint_parts (m : Morph A Surf) (p : Pt) : Y.sectionPoint m p = Y.sectionAll (parts m) p := by
  cases m <;> simp [parts, sectionAll, sectionPoint]

theorem Simple.ne_ident {m : Morph A Surf} (h : Simple Y m) (s : Surf) : m ≠ .ident s := by
  rintro rfl; exact h

/-- The product of the sections of a chain. -/
theorem sectionProd_spec (hY : Lawful Y) {d c : Surf} {ms : List (Morph A Surf)} (h : Chain Y d c ms) (hs : ∀ m ∈ ms, Simple Y m) :
    ∃ t, Y.sectionProd ms = .ok t ∧ WF Y t ∧ (∀ s, t ≠ .ident s) ∧ Y.ends t = (c, d) ∧ (parts t).length = ms.length ∧
      (∀ x ∈ parts t, Simple Y x) ∧
      List.Forall₂ (fun m s => Y.section' m = .ok s) ms (parts t).reverse := by
  induction h with
  | one m =>
    obtain ⟨s, h1, h2, h3, -, -, -⟩ := (hs m (by simp)).section_spec hY
    refine ⟨s, by simp [sectionProd, h1], h2.wf, h2.ne_ident, h3, by rw [h2.parts_eq]; rfl, by rw [h2.parts_eq]; simpa using h2, ?_⟩
    rw [h2.parts_eq]
    exact .cons h1 .nil
  | @cons c ms m hc ih =>
    obtain ⟨s, h1, h2, h3, -, -, -⟩ := (hs m (by simp)).section_spec hY
    obtain ⟨t, t1, t2, t3, t4, t5, t6, t7⟩ := ih (fun x hx => hs x (List.mem_cons_of_mem _ hx))
    have he : (Y.ends t).2 = (Y.ends s).1 := by rw [t4, h3]
    have hcomp := comp_eq he h2.ne_ident t3
    have hw := t2.comp h2.wf (m := t) |> fun _ => h2.wf.comp t2 hcomp
    refine ⟨_, ?_, hw.1, ?_, ?_, ?_, ?_, ?_⟩
    · rotate_left
      obtain ⟨x, xs, rfl⟩ := List.exists_cons_of_ne_nil hc.ne_nil
      rw [sectionProd]
      simp only [h1, t1]
      exact hcomp
    · intro s h; cases h
    · rw [hw.2, t4, h3]
    · show (parts t ++ parts s).length = (m :: ms).length
      rw [List.length_append, t5, h2.parts_eq]
      rfl
    · intro x hx
      have hx : x ∈ parts t ++ parts s := hx
      rcases List.mem_append.1 hx with hx | hx
      · exact t6 x hx
      · rw [h2.parts_eq] at hx
        rw [List.mem_singleton.1 hx]; exact h2
    · show List.Forall₂ _ (m :: ms) (parts t ++ parts s).reverse
      rw [h2.parts_eq, List.reverse_append]
      exact .cons h1 t7

theorem forall2_image (hY : Lawful Y) {ms ss : List (Morph A Surf)} (h : List.Forall₂ (fun m s => Y.section' m = .ok s) ms ss)
    (hs : ∀ m ∈ ms, Simple Y m) (p : Pt) : Y.imageAll ss.reverse p = Y.sectionAll ms p ∧ Y.sectionAll ss.reverse p = Y.imageAll ms p ∧
      List.Forall₂ (fun s m => Y.section' s = .ok m) ss ms := by
  induction h generalizing p with
  | nil => exact ⟨rfl, rfl, .nil⟩
  | cons h1 h2 ih =>
    rename_i m s ms ss
    obtain ⟨s', e1, e2, e3, e4, e5, e6⟩ := (hs m (by simp)).section_spec hY
    rw [h1] at e1
    cases e1
    have ih := ih (fun x hx => hs x (List.mem_cons_of_mem _ hx))
    rw [List.reverse_cons, imageAll_append, sectionAll_append]
    refine ⟨?_, ?_, .cons e6 (ih p).2.2⟩
    · rw [(ih p).1]
      simp only [sectionAll]
      cases Y.sectionAll ms p with
      | error x => rfl
      | ok q =>
        simp only [Except.bind, imageAll, e4]
        cases Y.sectionPoint m q <;> rfl
    · simp only [imageAll, sectionAll, e5]
      cases Y.image m p with
      | error x => rfl
      | ok q => exact (ih q).2.1

/-- The section of a morphism other than the identity. -/
theorem WF.section_spec (hY : Lawful Y) {m : Morph A Surf} (h : WF Y m) (hi : ∀ s, m ≠ .ident s) : ∃ t, Y.section' m = .ok t ∧ WF Y t ∧
    (∀ s, t ≠ .ident s) ∧ Y.ends t = ((Y.ends m).2, (Y.ends m).1) ∧ (∀ p, Y.image t p = Y.sectionPoint m p) ∧
    (∀ p, Y.sectionPoint t p = Y.image m p) ∧ List.Forall₂ (fun m s => Y.section' m = .ok s) (parts m) (parts t).reverse := by
  by_cases hsimp : Simple Y m
  · obtain ⟨s, e1, e2, e3, e4, e5, e6⟩ := hsimp.section_spec hY
    refine ⟨s, e1, e2.wf, e2.ne_ident, e3, e4, e5, ?_⟩
    rw [hsimp.parts_eq, e2.parts_eq]
    exact .cons e1 .nil
  · cases m with
    | comp d c ms =>
      obtain ⟨hc, hl, hs⟩ := h
      obtain ⟨t, t1, t2, t3, t4, t5, t6, t7⟩ := sectionProd_spec hY hc hs
      refine ⟨t, by simpa [section'] using t1, t2, t3, t4, fun p => ?_, fun p => ?_, t7⟩
      · rw [image_parts, ← List.reverse_reverse (parts t), (forall2_image hY t7 hs p).1]
        simp [sectionPoint]
      · rw [sectionPoint_parts, ← List.reverse_reverse (parts t), (forall2_image hY t7 hs p).2.1]
        simp [image]
    | ident s => exact absurd rfl (hi s)
    | atom a => exact absurd h hsimp
    | sect a => exact absurd h hsimp
    | named a => exact absurd h hsimp

theorem Built.wf (hY : Lawful Y) {m : Morph A Surf} (h : Built Y m) : WF Y m := by
  induction h with
  | atom a => exact trivial
  | ident s => exact trivial
  | named _ _ => exact trivial
  | @sect m m' h hm ih =>
    rcases ident_or m with ⟨s, rfl⟩ | hi
    · simp only [section'] at hm
      cases hm
      exact trivial
    · obtain ⟨t, t1, t2, -⟩ := ih.section_spec hY hi
      rw [hm] at t1
      cases t1
      exact t2
  | comp hf hg hm ih1 ih2 => exact (ih1.comp ih2 hm).1

/-! ## The properties -/

/-- A composition exists exactly when the surfaces agree; it goes from the domain of the first to the codomain of the second morphism. -/
theorem C53_composition_defined (hY : Lawful Y) {f g : Morph A Surf} (hf : Built Y f) (hg : Built Y g) :
    if (Y.ends g).2 = (Y.ends f).1 then ∃ m, Y.composition f g = .ok m ∧ Y.ends m = ((Y.ends g).1, (Y.ends f).2)
    else Y.composition f g = .error .valueError := by
  by_cases h : (Y.ends g).2 = (Y.ends f).1
  · rw [if_pos h]
    have hok : ∃ m, Y.composition f g = .ok m := by
      rcases ident_or f with ⟨s, rfl⟩ | hf'
      · exact ⟨g, ident_comp (by simpa [ends] using h)⟩
      · rcases ident_or g with ⟨s, rfl⟩ | hg'
        · exact ⟨f, comp_ident (by simpa [ends] using h.symm)⟩
        · exact ⟨_, comp_eq h hf' hg'⟩
    obtain ⟨m, hm⟩ := hok
    exact ⟨m, hm, ((hf.wf hY).comp (hg.wf hY) hm).2⟩
  · rw [if_neg h]
    unfold composition
    rw [if_pos h]

/-- The image of a point under a composition is the composition of the images. -/
theorem C53_image {f g m : Morph A Surf} (h : Y.composition f g = .ok m) (p : Pt) : Y.image m p = (Y.image g p).bind (Y.image f) := by
  obtain ⟨-, ⟨s, rfl, rfl⟩ | ⟨s, rfl, rfl⟩ | ⟨h1, h2, rfl⟩⟩ := comp_cases h
  · simp only [image]; cases Y.image m p <;> rfl
  · simp [image, Except.bind]
  · simp only [image]
    rw [imageAll_append, ← image_parts]
    congr 1
    funext q
    exact (image_parts f q).symm

/-- The brackets in a composition do not matter: the morphisms are equal. -/
theorem C53_associative (hY : Lawful Y) {f g h : Morph A Surf} (hf : Built Y f) (hg : Built Y g) (hh : Built Y h) :
    (Y.composition f g).bind (fun fg => Y.composition fg h) = (Y.composition g h).bind (fun gh => Y.composition f gh) := by
  have hfg := C53_composition_defined hY hf hg
  have hgh := C53_composition_defined hY hg hh
  by_cases h1 : (Y.ends g).2 = (Y.ends f).1
  · rw [if_pos h1] at hfg
    obtain ⟨fg, hfg, e1⟩ := hfg
    by_cases h2 : (Y.ends h).2 = (Y.ends g).1
    · rw [if_pos h2] at hgh
      obtain ⟨gh, hgh, e2⟩ := hgh
      rw [hfg, hgh]
      simp only [Except.bind]
      rcases ident_or f with ⟨s, rfl⟩ | hf'
      · rw [ident_comp (by simpa [ends] using h1)] at hfg
        cases hfg
        rw [hgh, ident_comp (by rw [e2]; simpa [ends] using h1)]
      · rcases ident_or g with ⟨s, rfl⟩ | hg'
        · rw [comp_ident (by simpa [ends] using h1.symm)] at hfg
          rw [ident_comp (by simpa [ends] using h2)] at hgh
          cases hfg; cases hgh; rfl
        · rcases ident_or h with ⟨s, rfl⟩ | hh'
          · rw [comp_ident (by simpa [ends] using h2.symm)] at hgh
            cases hgh
            rw [hfg, comp_ident (by rw [e1]; simpa [ends] using h2.symm)]
          · rw [comp_eq h1 hf' hg'] at hfg
            rw [comp_eq h2 hg' hh'] at hgh
            cases hfg; cases hgh
            rw [comp_eq (by simpa [ends] using h2) (by intro s h; cases h) hh', comp_eq (by simpa [ends] using h1) hf' (by intro s h; cases h)]
            simp [ends, parts, List.append_assoc]
    · rw [if_neg h2] at hgh
      rw [hfg, hgh]
      simp only [Except.bind]
      unfold composition
      rw [if_pos (by rw [e1]; exact h2)]
  · rw [if_neg h1] at hfg
    rw [hfg]
    by_cases h2 : (Y.ends h).2 = (Y.ends g).1
    · rw [if_pos h2] at hgh
      obtain ⟨gh, hgh, e2⟩ := hgh
      rw [hgh]
      simp only [Except.bind]
      unfold composition
      rw [if_pos (by rw [e2]; exact h1)]
    · rw [if_neg h2] at hgh
      rw [hgh]
      rfl

/-- Composing with the identity changes nothing. -/
theorem C53_identity (f : Morph A Surf) :
    Y.composition f (.ident (Y.ends f).1) = .ok f ∧ Y.composition (.ident (Y.ends f).2) f = .ok f :=
  ⟨comp_ident rfl, ident_comp rfl⟩

theorem eq_of_parts {f g : Morph A Surf} (hf : WF Y f) (hg : WF Y g) (hf' : ∀ s, f ≠ .ident s) (hg' : ∀ s, g ≠ .ident s)
    (he : Y.ends f = Y.ends g) (hp : parts f = parts g) : f = g := by
  by_cases h1 : Simple Y f
  · by_cases h2 : Simple Y g
    · rw [h1.parts_eq, h2.parts_eq] at hp
      exact List.singleton_inj.1 hp
    · cases g with
      | comp d c ms =>
        rw [h1.parts_eq] at hp
        have := hg.2.1
        simp only [parts] at hp
        rw [← hp] at this
        simp at this
      | ident s => exact absurd rfl (hg' s)
      | atom a => exact absurd hg h2
      | sect a => exact absurd hg h2
      | named a => exact absurd hg h2
  · cases f with
    | comp d c ms =>
      by_cases h2 : Simple Y g
      · rw [h2.parts_eq] at hp
        have := hf.2.1
        simp only [parts] at hp
        rw [hp] at this
        simp at this
      · cases g with
        | comp d' c' ns =>
          simp only [parts] at hp
          simp only [ends] at he
          cases he; cases hp; rfl
        | ident s => exact absurd rfl (hg' s)
        | atom a => exact absurd hg h2
        | sect a => exact absurd hg h2
        | named a => exact absurd hg h2
    | ident s => exact absurd rfl (hf' s)
    | atom a => exact absurd hf h1
    | sect a => exact absurd hf h1
    | named a => exact absurd hf h1

theorem sections_unique {ms ss ts : List (Morph A Surf)} (h : List.Forall₂ (fun m s => Y.section' m = .ok s) ms ss)
    (h' : List.Forall₂ (fun m s => Y.section' m = .ok s) ms ts) : ss = ts := by
  induction h generalizing ts with
  | nil => cases h'; rfl
  | cons h1 h2 ih =>
    cases h' with
    | cons h3 h4 =>
      rw [h1] at h3
      cases h3
      rw [ih h4]

/-- A morphism has a section; it goes in the other direction and its section is the morphism. -/
theorem C53_section (hY : Lawful Y) {f : Morph A Surf} (hf : Built Y f) : ∃ s, Y.section' f = .ok s ∧
    Y.ends s = ((Y.ends f).2, (Y.ends f).1) ∧ Y.section' s = .ok f := by
  rcases ident_or f with ⟨s, rfl⟩ | hi
  · exact ⟨.ident s, by simp [section'], rfl, by simp [section']⟩
  · have hwf := hf.wf hY
    obtain ⟨t, t1, t2, t3, t4, t5, t6, t7⟩ := hwf.section_spec hY hi
    refine ⟨t, t1, t4, ?_⟩
    obtain ⟨u, u1, u2, u3, u4, u5, u6, u7⟩ := t2.section_spec hY t3
    obtain ⟨p1, p2, p3⟩ := hwf.parts_spec hi
    have h1 : List.Forall₂ (fun s m => Y.section' s = .ok m) (parts t).reverse (parts f) := by
      by_cases hp : Nonempty Pt
      · exact (forall2_image hY t7 p3 hp.some).2.2
      · clear p1 p2 t4 t5 t6 u4 u5 u6
        have : ∀ (ms ss : List (Morph A Surf)), List.Forall₂ (fun m s => Y.section' m = .ok s) ms ss → (∀ m ∈ ms, Simple Y m) →
            List.Forall₂ (fun s m => Y.section' s = .ok m) ss ms := by
          intro ms ss h
          induction h with
          | nil => intro _; exact .nil
          | cons h1 h2 ih =>
            rename_i m s ms ss
            intro hs
            obtain ⟨s', e1, e2, e3, e4, e5, e6⟩ := (hs m (by simp)).section_spec hY
            rw [h1] at e1
            cases e1
            exact .cons e6 (ih (fun x hx => hs x (List.mem_cons_of_mem _ hx)))
        exact this _ _ t7 p3
    have h2 : List.Forall₂ (fun s m => Y.section' s = .ok m) (parts t).reverse (parts u) := by
      have := List.forall₂_reverse_iff.2 u7
      rwa [List.reverse_reverse] at this
    have h3 := sections_unique h1 h2
    rw [u1, eq_of_parts hwf u2 hi u3 (by rw [u4, t4]) h3]

/-- The section of a composition is the composition of the sections in reverse order. -/
theorem C53_section_composition (hY : Lawful Y) {f g m : Morph A Surf} (hf : Built Y f) (hg : Built Y g) (h : Y.composition f g = .ok m) :
    ∃ sf sg sm, Y.section' f = .ok sf ∧ Y.section' g = .ok sg ∧ Y.section' m = .ok sm ∧ Y.composition sg sf = .ok sm := by
  obtain ⟨sf, f1, f2, f3⟩ := C53_section hY hf
  obtain ⟨sg, g1, g2, g3⟩ := C53_section hY hg
  obtain ⟨sm, m1, m2, m3⟩ := C53_section hY (.comp hf hg h)
  refine ⟨sf, sg, sm, f1, g1, m1, ?_⟩
  obtain ⟨he, ⟨s, rfl, rfl⟩ | ⟨s, rfl, rfl⟩ | ⟨h1, h2, rfl⟩⟩ := comp_cases h
  · simp only [section'] at f1
    cases f1
    rw [g1] at m1
    cases m1
    exact comp_ident (by rw [g2]; exact he)
  · simp only [section'] at g1
    cases g1
    rw [f1] at m1
    cases m1
    exact ident_comp (by rw [f2]; exact he.symm)
  · obtain ⟨t, t1, t2, t3, t4, -, -, t7⟩ := (hf.wf hY).section_spec hY h1
    rw [f1] at t1
    cases t1
    obtain ⟨t', u1, u2, u3, u4, -, -, u7⟩ := (hg.wf hY).section_spec hY h2
    rw [g1] at u1
    cases u1
    have hw := (hf.wf hY).comp (hg.wf hY) h
    obtain ⟨v, v1, v2, v3, v4, -, -, v7⟩ := hw.1.section_spec hY (by intro s h; cases h)
    rw [m1] at v1
    cases v1
    have he' : (Y.ends sf).2 = (Y.ends sg).1 := by rw [f2, g2]; exact he.symm
    have hc := comp_eq he' u3 t3
    have hw' := u2.comp t2 hc
    rw [hc]
    congr 1
    refine eq_of_parts hw'.1 v2 (by intro s h; cases h) v3 ?_ ?_
    · rw [hw'.2, v4, hw.2, f2, g2]
    · show parts sf ++ parts sg = parts sm
      have := sections_unique (List.rel_append u7 t7) v7
      dsimp only at this
      rw [← List.reverse_append] at this
      exact List.reverse_injective this

/-- All morphisms that can be built have points of the codomain as images of points of the domain if the elementary ones have. -/
theorem maps (hY : Lawful Y) (par : Pt → Surf) (h1 : ∀ a p q, par p = Y.dom a → Y.img a p = .ok q → par q = Y.cod a)
    (h2 : ∀ a p q, par p = Y.cod a → Y.sct a p = .ok q → par q = Y.dom a) {m : Morph A Surf} (h : Built Y m) :
    (∀ p q, par p = (Y.ends m).1 → Y.image m p = .ok q → par q = (Y.ends m).2) ∧
    (∀ p q, par p = (Y.ends m).2 → Y.sectionPoint m p = .ok q → par q = (Y.ends m).1) := by
  induction h with
  | atom a => exact ⟨fun p q hp hq => h1 a p q hp (by simpa [image] using hq), fun p q hp hq => h2 a p q hp (by simpa [sectionPoint] using hq)⟩
  | ident s =>
    refine ⟨fun p q hp hq => ?_, fun p q hp hq => ?_⟩
    · simp only [image] at hq; cases hq; exact hp
    · simp [sectionPoint] at hq
  | named _ ih =>
    refine ⟨fun p q hp hq => ih.1 p q hp (by simpa [image] using hq), fun p q hp hq => ih.2 p q hp (by simpa [sectionPoint] using hq)⟩
  | @sect m m' h hm ih =>
    rcases ident_or m with ⟨s, rfl⟩ | hi
    · simp only [section'] at hm
      cases hm
      exact ih
    · obtain ⟨t, t1, -, -, t4, t5, t6, -⟩ := (h.wf hY).section_spec hY hi
      rw [hm] at t1
      cases t1
      rw [t4]
      refine ⟨fun p q hp hq => ih.2 p q hp (by rw [← t5]; exact hq), fun p q hp hq => ih.1 p q hp (by rw [← t6]; exact hq)⟩
  | @comp f g m hf hg hm ih1 ih2 =>
    obtain ⟨he, ⟨s, rfl, rfl⟩ | ⟨s, rfl, rfl⟩ | ⟨k1, k2, rfl⟩⟩ := comp_cases hm
    · exact ih2
    · exact ih1
    · refine ⟨fun p q hp hq => ?_, fun p q hp hq => ?_⟩
      · rw [C53_image hm] at hq
        cases hr : Y.image g p with
        | error x => rw [hr] at hq; cases hq
        | ok r =>
          rw [hr] at hq
          exact ih1.1 r q (by rw [ih2.1 p r hp hr, he]) hq
      · simp only [sectionPoint] at hq
        rw [sectionAll_append, ← sectionPoint_parts] at hq
        cases hr : Y.sectionPoint f p with
        | error x => rw [hr] at hq; cases hq
        | ok r =>
          rw [hr] at hq
          simp only [Except.bind] at hq
          rw [← sectionPoint_parts] at hq
          exact ih2.2 r q (by rw [ih1.2 p r hp hr, he]) hq

/-- `s` is a section of `f` on points: applying `s` to a point of the codomain of `f` and then applying `f` returns to the same point. -/
def IsSection (Y : MorphSys A Surf Pt) (par : Pt → Surf) (f s : Morph A Surf) : Prop :=
  ∀ q p, par q = (Y.ends f).2 → Y.image s q = .ok p → Y.image f p = .ok q

/-- The section of a composition is a section if the sections of the factors are. -/
theorem C53_section_of_composition (hY : Lawful Y) (par : Pt → Surf) (k1 : ∀ a p q, par p = Y.dom a → Y.img a p = .ok q → par q = Y.cod a)
    (k2 : ∀ a p q, par p = Y.cod a → Y.sct a p = .ok q → par q = Y.dom a) {f g m sf sg sm : Morph A Surf} (hf : Built Y f) (hg : Built Y g)
    (h : Y.composition f g = .ok m) (hsf : Y.section' f = .ok sf) (hsg : Y.section' g = .ok sg) (hsm : Y.section' m = .ok sm)
    (h1 : IsSection Y par f sf) (h2 : IsSection Y par g sg) : IsSection Y par m sm := by
  obtain ⟨sf', sg', sm', e1, e2, e3, e4⟩ := C53_section_composition hY hf hg h
  rw [hsf] at e1; rw [hsg] at e2; rw [hsm] at e3
  cases e1; cases e2; cases e3
  intro q p hpar hq
  rw [((hf.wf hY).comp (hg.wf hY) h).2] at hpar
  rw [C53_image e4] at hq
  cases hr : Y.image sf q with
  | error x => rw [hr] at hq; cases hq
  | ok r =>
    rw [hr] at hq
    obtain ⟨t, t1, t2, -⟩ := C53_section hY hf
    rw [hsf] at t1
    cases t1
    have hr' := (maps hY par k1 k2 (.sect hf hsf)).1 q r (by rw [t2]; exact hpar) hr
    rw [C53_image h, h2 r p (by rw [hr', t2]; exact (comp_cases h).1.symm) hq]
    exact h1 q r hpar hr

/-- Calling a morphism with a point of its domain gives the image, and calling it with another point is a `ValueError`; the assertion at the end of a call
holds if it holds for the elementary morphisms. -/
theorem C53_call (hY : Lawful Y) (par : Pt → Surf) (h1 : ∀ a p q, par p = Y.dom a → Y.img a p = .ok q → par q = Y.cod a)
    (h2 : ∀ a p q, par p = Y.cod a → Y.sct a p = .ok q → par q = Y.dom a) {m : Morph A Surf} (h : Built Y m) (p : Pt) :
    Y.call par m p = if par p = (Y.ends m).1 then Y.image m p else .error .valueError := by
  unfold call
  by_cases hp : par p = (Y.ends m).1
  · rw [if_neg (by simpa using hp), if_pos hp]
    cases hq : Y.image m p with
    | error x => rfl
    | ok q =>
      dsimp only
      rw [if_neg]
      simpa using (maps hY par h1 h2 h).1 p q hp hq
  · rw [if_pos hp, if_neg hp]

/-- The assertions in the constructor of a composition hold: its morphisms form a chain from its domain to its codomain. -/
theorem C53_chain (hY : Lawful Y) {d c : Surf} {ms : List (Morph A Surf)} (h : Built Y (.comp d c ms)) :
    ∃ (hne : ms ≠ []), (Y.ends (ms.head hne)).1 = d ∧ (Y.ends (ms.getLast hne)).2 = c ∧
      List.IsChain (fun a b => (Y.ends a).2 = (Y.ends b).1) ms := by
  have hc : Chain Y d c ms := (h.wf hY).1
  refine ⟨hc.ne_nil, ?_⟩
  clear h
  induction hc with
  | one m => exact ⟨rfl, rfl, List.IsChain.singleton _⟩
  | cons m hc ih =>
    rename_i c ms
    obtain ⟨i1, i2, i3⟩ := ih
    obtain ⟨x, xs, rfl⟩ := List.exists_cons_of_ne_nil hc.ne_nil
    refine ⟨rfl, by simpa using i2, ?_⟩
    exact List.isChain_cons_cons.2 ⟨i1.symm, i3⟩

/-- The matrix of a composition in homology is the product of the matrices. -/
theorem C53_homology_matrix {M : Type} [Monoid M] (mat : Morph A Surf → M) (hid : ∀ s, mat (.ident s) = 1) {f g m : Morph A Surf}
    (h : Y.composition f g = .ok m) : homologyMatrix mat m = homologyMatrix mat f * homologyMatrix mat g := by
  have key : ∀ (ms : List (Morph A Surf)) (x : M), ms.foldl (fun x m => x * mat m) x = x * ms.foldl (fun x m => x * mat m) 1 := by
    intro ms
    induction ms with
    | nil => intro x; simp
    | cons m ms ih => intro x; rw [List.foldl_cons, List.foldl_cons, ih, ih (1 * mat m), one_mul, mul_assoc]
  have hparts : ∀ m : Morph A Surf, homologyMatrix mat m = (parts m).reverse.foldl (fun x m => x * mat m) 1 := by
    intro m
    cases m <;> simp [homologyMatrix, parts]
  obtain ⟨-, ⟨s, rfl, rfl⟩ | ⟨s, rfl, rfl⟩ | ⟨h1, h2, rfl⟩⟩ := comp_cases h
  · simp [homologyMatrix, hid]
  · simp [homologyMatrix, hid]
  · rw [hparts f, hparts g]
    simp only [homologyMatrix]
    rw [List.reverse_append, List.foldl_append, key]

/-- A morphism that is factored through the identity has a section; but that section raises `NotImplementedError` on all points. -/
theorem C53_named_identity_violation (s : Surf) (p : Pt) : ∃ t, Y.section' (.named (.ident s)) = .ok t ∧ Y.image t p = .error .notImplemented ∧
    Y.image (.named (.ident s)) p = .ok p :=
  ⟨.sect (.named (.ident s)), by simp [section'], by simp [image, sectionPoint], by simp [image]⟩

/-! ## Example -/

/-- Translations between surfaces `i` and `j`, some of them with their own method `section()`. -/
def exSys : MorphSys (ℕ × ℕ × ℤ × Bool) ℕ (ℕ × ℤ) where
  dom a := a.1
  cod a := a.2.1
  img a p := .ok (a.2.1, p.2 + a.2.2.1)
  sct a p := .ok (a.1, p.2 - a.2.2.1)
  sec a := if a.2.2.2 then some (a.2.1, a.1, -a.2.2.1, true) else none

theorem exSys_lawful : Lawful exSys := by
  constructor
  all_goals
    rintro ⟨i, j, k, b⟩ b' h
    cases b
    · simp [exSys] at h
    · simp only [exSys, if_true, Option.some.injEq] at h
      subst h
      first | rfl | simp [exSys] | (funext p; simp [exSys, sub_eq_add_neg])

/-- A composition of three morphisms whose sections are sections. -/
example : ∃ f g m sf sg sm, Built exSys f ∧ Built exSys g ∧ exSys.composition f g = .ok m ∧ exSys.section' f = .ok sf ∧ exSys.section' g = .ok sg ∧
    exSys.section' m = .ok sm ∧ IsSection exSys Prod.fst f sf ∧ IsSection exSys Prod.fst g sg ∧
    exSys.image m (0, 10) = .ok (3, 16) ∧ exSys.image sm (3, 16) = .ok (0, 10) := by
  refine ⟨.atom (2, 3, 3, true), .comp 0 2 [.atom (0, 1, 1, false), .atom (1, 2, 2, true)],
    .comp 0 3 [.atom (0, 1, 1, false), .atom (1, 2, 2, true), .atom (2, 3, 3, true)], .atom (3, 2, -3, true),
    .comp 2 0 [.atom (2, 1, -2, true), .sect (.atom (0, 1, 1, false))],
    .comp 3 0 [.atom (3, 2, -3, true), .atom (2, 1, -2, true), .sect (.atom (0, 1, 1, false))], .atom _,
    .comp (f := .atom (1, 2, 2, true)) (g := .atom (0, 1, 1, false)) (.atom _) (.atom _) rfl, rfl, rfl, rfl, rfl, ?_, ?_, rfl, rfl⟩
  · rintro ⟨i, q⟩ ⟨j, p⟩ hi h
    simp only [image, exSys, ends, Except.ok.injEq, Prod.mk.injEq] at h hi ⊢
    omega
  · rintro ⟨i, q⟩ ⟨j, p⟩ hi h
    simp only [image, imageAll, sectionPoint, exSys, ends, Except.ok.injEq, Prod.mk.injEq] at h hi ⊢
    omega

example : (∀ a p q, p.1 = exSys.dom a → exSys.img a p = .ok q → q.1 = exSys.cod a) ∧
    (∀ a p q, p.1 = exSys.cod a → exSys.sct a p = .ok q → q.1 = exSys.dom a) := by
  refine ⟨?_, ?_⟩ <;>
  · rintro a p q - h
    simp only [exSys, Except.ok.injEq] at h ⊢
    rw [← h]

end MorphSys
end Flat
