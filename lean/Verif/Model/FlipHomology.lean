import Verif.Model.Topology
import Verif.Model.SurfaceOps

/-!
# Model of the transport of chains along Delaunay flips

`DelaunayTriangulationMorphism` of `flatsurf/geometry/morphism.py` (3228-3380), `_image_homology_gen` (1377-1420), the recording of flips
in `flatsurf/geometry/lazy.py` (1310-1314) and the conversion of an edge to a chain in `flatsurf/geometry/homology.py` (1032-1038).

Matrices whose rows and columns are numbered by the list `gens` of edges are given as functions of two edges.
-/

namespace Flat
variable {L : Type} [DecidableEq L] {R : Type} [CommRing R]

/-- A flip as recorded in `_flips`: an edge and its opposite edge. -/
abbrev FlipRec (L : Type) := (L × ℕ) × (L × ℕ)

/-- `denormalize(lbl, e)`, morphism.py 3360-3365, for `lbl` one of the two labels of the flip. -/
def FlipRec.denormalize (f : FlipRec L) (x : L × ℕ) : L × ℕ :=
  if x.1 = f.1.1 then (x.1, (x.2 + f.1.2) % 3) else (x.1, (x.2 + f.2.2) % 3)

/-- The positions `(image, preimage)` of the matrix that are set to 1, morphism.py 3372-3378. -/
def FlipRec.ones (f : FlipRec L) : List ((L × ℕ) × (L × ℕ)) :=
  let l := f.1.1
  let o := f.2.1
  ([((o, 1), (l, 0)), ((l, 2), (l, 0)), ((o, 2), (l, 1)), ((l, 1), (l, 2)),
    ((l, 1), (o, 0)), ((o, 2), (o, 0)), ((l, 2), (o, 1)), ((o, 1), (o, 2))] : List ((L × ℕ) × (L × ℕ))).map
    (fun x => (f.denormalize x.1, f.denormalize x.2))

/-- `_image_homology_edge_chain_matrix_flip(flip, gens)`, morphism.py 3318-3380. -/
def FlipRec.matrix (f : FlipRec L) (i j : L × ℕ) : R :=
  if (i, j) ∈ f.ones then 1
  else if i.1 ≠ f.1.1 ∧ i.1 ≠ f.2.1 ∧ i = j then 1
  else 0

/-- The product of matrices. -/
def matMul {D : Type} (gens : List D) (A B : D → D → R) (i j : D) : R := (gens.map (fun k => A i k * B k j)).sum

/-- `_image_homology_edge_chain_matrix()`, morphism.py 3279-3316: the identity times the matrices of the flips, the last flip first. -/
def chainMatrix (gens : List (L × ℕ)) (flips : List (FlipRec L)) : L × ℕ → L × ℕ → R :=
  flips.reverse.foldl (fun A f => matMul gens A f.matrix) (fun i j => if i = j then 1 else 0)

namespace RSurf
variable {K : Type} [Field K] [LinearOrder K] [IsStrictOrderedRing K]

/-- `homology((label, edge))`, homology.py 1032-1038. -/
def toChain (S : RSurf L K) (sx : List (L × ℕ)) (d : L × ℕ) : Except Err (L × ℕ → R) :=
  if d ∈ sx then .ok (Pi.single d 1)
  else do
    let c ← S.opp! d.1 d.2
    if c ∉ sx then throw .assertionError
    return -Pi.single c 1

/-- `_image_homology_edge(label, edge, codomain)`, morphism.py 3256-3277: the sum of the edges with the coefficients of a column. -/
def imageOfEdge [DecidableEq R] (T : RSurf L K) (sx : List (L × ℕ)) (A : L × ℕ → L × ℕ → R) (d : L × ℕ) : List (L × ℕ) → Except Err (L × ℕ → R)
  | [] => .ok 0
  | i :: gens =>
    if A i d = 0 then T.imageOfEdge sx A d gens
    else do
      let f ← T.toChain sx i
      let g ← T.imageOfEdge sx A d gens
      return A i d • f + g

/-- `_image_homology_gen(gen, codomain)`, morphism.py 1411-1420. -/
def imageOfChain [DecidableEq R] (T : RSurf L K) (sx gens : List (L × ℕ)) (A : L × ℕ → L × ℕ → R) : List ((L × ℕ) × R) → Except Err (L × ℕ → R)
  | [] => .ok 0
  | (d, r) :: chain => do
    let f ← T.imageOfEdge sx A d gens
    let g ← T.imageOfChain sx gens A chain
    return r • f + g

end RSurf

namespace MSurf
variable {L K : Type} [LinearOrder L] [Field K] [LinearOrder K] [IsStrictOrderedRing K]

/-- Flips in a row and what `_certify_flip` records of them, lazy.py 1310-1314. -/
def recordFlips : List (L × ℕ) → Act L (Poly K) (List (FlipRec L))
  | [] => pure []
  | d :: ds => do
    let c ← liftE ((← get).oppositeEdge! d.1 d.2)
    triangleFlip d.1 d.2
    let fs ← recordFlips ds
    return (d, (c.1, c.2.toNat)) :: fs

end MSurf
end Flat
