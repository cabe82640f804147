import Verif.Model.Triangulate

/-!
# Cutting a polygon along chords

`triangulation()` of a Euclidean polygon, by cutting along chords.
-/

namespace Flat
namespace Poly
variable {K : Type} [Field K] [LinearOrder K]

/-- The check of the angles in `triangulation()`, euclidean_polygons.py 1328-1342. -/
def chordAngles (p : Poly K) (i j : ℕ) : Bool :=
  isBetween (p.vertex (i + 1) - p.vertex i) (p.vertex (i + (p.length - 1)) - p.vertex i) (p.vertex j - p.vertex i) &&
  isBetween (p.vertex (j + 1) - p.vertex j) (p.vertex (j + (p.length - 1)) - p.vertex j) (-(p.vertex j - p.vertex i))

/-- The loop over the edges in `triangulation()`, euclidean_polygons.py 1345-1363, on the edges in a list. -/
def chordFree (p : Poly K) (i j : ℕ) : List ℕ → Except Err Bool
  | [] => .ok true
  | k :: ks =>
    if k = i ∨ k = j ∨ k = (i + (p.length - 1)) % p.length ∨ k = (j + (p.length - 1)) % p.length then chordFree p i j ks
    else match isSegmentIntersecting (p.vertex i, p.vertex j) (p.vertex k, p.vertex (k + 1)) with
      | .zero => chordFree p i j ks
      | .one => .error .assertionError
      | .two => .ok false
      | .valueError => .error .valueError
      | .assertionError => .error .assertionError

/-- Whether the body of the loop in `triangulation()` cuts along the chord, euclidean_polygons.py 1328-1365. -/
def chordGood (p : Poly K) (i j : ℕ) : Except Err Bool :=
  if p.chordAngles i j then p.chordFree i j (List.range p.length) else .ok false

/-- The chords in the order in which `triangulation()` considers them, euclidean_polygons.py 1327-1330. -/
def chordPairs (n : ℕ) : List (ℕ × ℕ) :=
  (List.range (n - 1)).flatMap (fun i => (List.range' (i + 2) ((if i = 0 then n - 1 else n) - (i + 2))).map (fun j => (i, j)))

/-- The first chord in a list that `triangulation()` cuts along. -/
def findChord (p : Poly K) : List (ℕ × ℕ) → Except Err (Option (ℕ × ℕ))
  | [] => .ok none
  | x :: xs =>
    match p.chordGood x.1 x.2 with
    | .error e => .error e
    | .ok true => .ok (some x)
    | .ok false => findChord p xs

theorem findChord_mem {p : Poly K} {xs : List (ℕ × ℕ)} {x : ℕ × ℕ} (h : p.findChord xs = .ok (some x)) :
    x ∈ xs ∧ p.chordGood x.1 x.2 = .ok true := by
  induction xs with
  | nil => simp [findChord] at h
  | cons y xs ih =>
    unfold findChord at h
    split at h
    · cases h
    · rename_i hy
      cases h
      exact ⟨by simp, hy⟩
    · exact ⟨List.mem_cons_of_mem _ (ih h).1, (ih h).2⟩

theorem mem_chordPairs {n : ℕ} {x : ℕ × ℕ} : x ∈ chordPairs n ↔ x.1 + 2 ≤ x.2 ∧ x.2 < n ∧ ¬ (x.1 = 0 ∧ x.2 + 1 = n) := by
  obtain ⟨i, j⟩ := x
  simp only [chordPairs, List.mem_flatMap, List.mem_range, List.mem_map, List.mem_range'_1, Prod.mk.injEq]
  constructor
  · rintro ⟨i', h, j', h', rfl, rfl⟩
    split_ifs at h' with h0 <;> omega
  · rintro ⟨h1, h2, h3⟩
    refine ⟨i, by omega, j, ?_, rfl, rfl⟩
    split_ifs with h0 <;> omega

/-- The vertices of the first part, euclidean_polygons.py 1371. -/
def chordPart (p : Poly K) (x : ℕ × ℕ) : Poly K := (List.take (x.2 + 1) p).drop x.1

/-- The vertices of the second part, euclidean_polygons.py 1376. -/
def chordRest (p : Poly K) (x : ℕ × ℕ) : Poly K := List.drop x.2 p ++ List.take (x.1 + 1) p

/-- The indices of the vertices of the second part, euclidean_polygons.py 1378-1385. -/
def restIndex (n j s : ℕ) : ℕ := if s < n - j then s + j else s - (n - j)

/-- `triangulation()` of a polygon, euclidean_polygons.py 1206-1389.  (The polygons for the two parts are created without
checks.) -/
def triangulation (p : Poly K) : Except Err (List (ℕ × ℕ)) :=
  if p.length < 3 then .error .valueError
  else if p.length = 3 then .ok []
  else match h : p.findChord (chordPairs p.length) with
    | .error e => .error e
    | .ok none => .error .assertionError
    | .ok (some x) => do
      let s ← triangulation (p.chordPart x)
      let t ← triangulation (p.chordRest x)
      return x :: (s.map (fun y => (y.1 + x.1, y.2 + x.1)) ++
        t.map (fun y => (restIndex p.length x.2 y.1, restIndex p.length x.2 y.2)))
termination_by p.length
decreasing_by
  · obtain ⟨h1, h2, h3⟩ := mem_chordPairs.1 (findChord_mem h).1
    simp only [chordPart, List.length_drop, List.length_take]
    omega
  · obtain ⟨h1, h2, h3⟩ := mem_chordPairs.1 (findChord_mem h).1
    simp only [chordRest, List.length_append, List.length_drop, List.length_take]
    omega

end Poly
end Flat
