# Formal model of sage-flatsurf: design

Source: `/repo` (flatsurf/sage-flatsurf at the pinned commit), read as text only.
Prover: Lean 4.33.0 with single Mathlib modules.  Project: `/verif/lean`.

## Layout

* `lean/Verif/Model/*.lean`  – definitions that mirror the Python code, function by
  function; every definition cites file and lines.
* `lean/Verif/Lemmas/*.lean` – helper lemmas.
* `lean/Verif/Props/*.lean`  – the property theorems (named in `MANIFEST.json`), each with
  an `example` showing that the hypotheses can be met, and, where the code
  violates the property, a witness theorem (`..._violation`) next to the theorem that holds (`_partial` in its name or
  status `partial` in the manifest).

## Conventions of the model

* **Numbers.** Exact coordinates (QQ, number fields, AA, embedded in the reals) are
  elements of an arbitrary linearly ordered field `K`
  (`[Field K] [LinearOrder K] [IsStrictOrderedRing K]`).  Inexact rings (RDF, RR) and interval
  arithmetic are outside of the model.
* **Angles** (C63, C64, C65) are exact real numbers, for a strictly monotone embedding `ι : K →+* ℝ`.  The code computes them with floats and
  optionally replaces them by a nearby rational number (`euclidean.py` 155-278); neither rounding nor that guess is modelled.
* **Vectors** are pairs; polygons are lists of vertices in counterclockwise order (what
  `EuclideanPolygon` stores); immutability of Sage vectors is implicit.
* **Exceptions** are values: a mutating method is modelled as a function returning the
  state after the call together with an outcome, so a method that raises after having
  partially mutated its state is modelled with its partial mutation.
* **Dictionaries** are association lists with insertion order (Python >= 3.7 semantics).
* **Loops** become structural recursion, folds or recursion with fuel.  Where fuel is used, it
  is proved sufficient, or the theorem quantifies over all fuel.
* Sage coercion, parents, categories, UniqueRepresentation, pickling, plotting and deprecation
  branches are not modelled.

## Plan per property

| id | what is modelled | how proved |
|----|------------------|------------|
| C01 | `Similarity` with fields a,b,s,t,sign and its product, inverse, quotient, call | case split on signs + `ring`; faithfulness by evaluating at 0, e1, e2 |
| C02 | predicates as coded | compare with quantified statements over points |
| C03 | `similarity_from_vectors` | `field_simp`, uniqueness from 2x2 system |
| C04 | `edge_transformation`, group constructor | algebra on top of C01/C03 |
| C05 | `ccw`, `is_parallel`, `is_anti_parallel` | order reasoning with explicit scalar |
| C06 | `is_between` branch by branch | independent spec: position of a direction on the circle of directions |
| C07 | `is_segment_intersecting` | spec: sets of points `p + t(q-p)`, `0<=t<=1` |
| C08 | `line_intersection`, `solve`, `time_on_ray`, `ray_segment_intersection` | exact algebra |
| C09 | `area` as a fold over the vertex list; `_mul_` | induction on the list |
| C10 | `_mul_` | list reversal lemmas |
| C11 | ear clipping loop of `triangulate` | invariant over clips (area, boundary, multiset of directed edges); an ear is always found, through the existence of triangulations of simple polygons |
| C12 | `get_point_position` of convex polygons | half planes; crossing count (non-convex polygons: C61) |
| C13 | `subdivide`, `subdivide_edges`, `centroid` | telescoping sums |
| C14 | `join` | edge-vector lists, area via shoelace over concatenation |
| C15 | `is_translate`, `is_half_translate`, `is_isometric` | search over shifts = existential |
| C16–C19 | `MutableOrientedSimilaritySurface` as state machine over `_polygons`, `_gluings`, `_roots`, `_mutable`, `_next_label` | invariant by induction over op list |
| C20 | breadth-first enumeration of labels with visited set | invariant, termination measure |
| C21 | roots bookkeeping in glue/unglue/remove | expected to be violated: witness + partial |
| C22 | `__eq__`, `__hash__` | finite map extensionality |
| C23 | `from_surface` | loop invariant over processed gluings |
| C24 | `relabel` | loop/refinement |
| C25 | `set_vertex_zero` | index arithmetic mod n |
| C26 | `triangle_flip` | geometry + gluing permutation |
| C27 | `subdivide_polygon` | index arithmetic |
| C28 | `join_polygons` | index arithmetic |
| C29 | `_delaunay_edge_needs_flip/_join` (angle comparison via cosines) | polynomial identities with incircle determinant |
| C30 | flip + potential | strict decrease of a weighted sum, irreflexivity on sequences |
| C31 | `subdivide`, `subdivide_edges` of surfaces | involution on indices |
| C32 | `euler_characteristic`, `genus` | permutation sign argument |
| C33 | representatives of `SurfacePoint` | orbit closure of partial injective maps |
| C34 | minimal covers | algebra on 2x2 rotation matrices / similarities |
| C35 | opposite_edge of infinite surfaces | case analysis with `omega` |
| C36 | `GL2RImageSurface` | index arithmetic |
| C37 | `LazyRelabeledSurface` label tables | state machine invariant |
| C38 | `cached_surface_method` | state machine invariant |
| C39 | `boundary` | sums over vertices/edges |
| C40 | `algebraic_intersection` | finite-sum rearrangement |
| C41 | `Path` | word combinatorics; associativity expected to be violated |
| C42 | matrix group BFS, `is_finite` | reachability; `is_finite` violated: witness |
| C43 | `FlowPolygonMap` | piecewise translation inverse |
| C44 | `Circle` | algebra |
| C45 | `SimilaritySurfaceTangentVector.__init__` | sector case analysis |
| C46 | `billiard`, `polygon_double` | index arithmetic + reflection |
| C47 | views | list membership; `Edges.__contains__` violated |
| C48 | category checks with memo set | loop invariant |
| C49 | `ramified_cover` | violated (uses the wrong label): witness + partial |
| C50 | `cmp` | violated: witness + partial |
| C51–C52 | Klein/half-plane conversion, isometries | algebra |
| C53 | morphism composition | list induction |
| C54 | flip chain matrix | linear algebra on basis |
| C55 | Mega-Wollmilchsau group | quaternion algebra |
| C56 | `LazyTriangulatedSurface`, `LazyDelaunaySurface` (cell walk) | involution on edges of triangles; walk invariant (every triangle once, boundary word closed and inscribed) |
| C57 | `slope` | signs of rotated vectors |
| C58 | `_check` of polygons created from vertices | exact characterisation: simple, counterclockwise |
| C59 | `Path.intersection` of the fundamental group | crossing sums; antisymmetry and invariance |
| C60 | `clockwise_to`, `counterclockwise_to` of tangent vectors | sector walk invariant, cyclic order of directions |
| C61 | `get_point_position` of non-convex polygons | winding numbers additive over the triangulation of C11; jump of the winding number across a side |
| C62 | `LazyDelaunayTriangulatedSurface` | invariant: developed circumdisks of certified triangles are empty, flips elsewhere keep them empty; canonical states for independence of the order |
| C63 | `angle` of polygons, `edges_ccw`, `turns`, angles of vertices | lifts of directions: the number of half turns of a path of directions is its total angle |
| C64 | `angles`, `stratum`, with `euler_characteristic` and `genus` of C32 | angle sum by induction over the triangulation of C11; double counting of corners |
| C65 | `angle` of points | bijection between corners at a vertex and representatives of the point |
| C66 | `flow_to_exit` | first hit among the sides; local structure of polygons from the jump of the winding number across a side |
| C67 | trajectories: segments, `next`, `previous`, `flow`, `is_closed`, `coding`, `cylinder` | chords and edges as a relation; invariants of `flow`; equivariance under scaling |
| C68 | `SaddleConnection` (constructor, `invert`, equality), `saddle_connections` | unfolding along a segment; the search sees a vertex exactly if it is visible in its wedge; termination from a bound on the number of sides crossed by a wedge within a disk, by well-founded recursion |
| C69 | `Cylinder` (constructor, `area`, `boundary`, `holonomy`), `cylinder` of a trajectory | the polygons along a closed line, unfolded into the plane as a periodic strip indexed by ℤ; the cylinder is the interval of lines that cross all the edges of the strip; the area by telescoping trapezoids |
| C70 | `simplices`, `_chain_complex`, `_homology`, `genus` | boundary matrices have one entry 1 and one entry -1 per edge, so their kernels and images are known for connected surfaces; rank-nullity over a principal ideal domain; torsion is excluded since a chain of polygons whose boundary is divisible by r is constant modulo r |
| C71 | `algebraic_intersection`, `symplectic_basis` | edges with directions are a finite set with permutations, and the counters of the code are potentials along the rotation about a vertex; a chain that pairs to zero with all closed chains is a coboundary of a function on vertices along paths, which shifts the counters to a function on polygons (nondegenerate); a linear form that vanishes on boundaries of polygons is integrated around the polygons (surjective); closed chains are combinations of integral ones, so the form is alternating in characteristic 2, too; the matrix in any basis is invertible, so the invariants in the normal form of Sage, which is a parameter with the documented contract, are 1. |
| C72 | `flow_map` of convex polygons, `StraightLineTrajectoryTranslation` | edges are ordered by their width across the direction, and the four turning points of the boundary make the two partitions; images under the interval map are ends of chords; triples stand for segments, and this is kept by every step of `flow` (simulation of the trajectories of C67). Partial: vertices are missed when another vertex is in the way (characterised exactly by `C72_forward_separatrix`); on surfaces built from triangles this cannot happen (`C72_triangles`). |
| C73 | `Origami` with permutations or with explicit inverse maps | surfaces of rectangles glued along two permutations (`Lemmas/Grid`): rotating around a vertex passes four corners for each step of the commutator, so the corners at a vertex are listed along its cycle, and angles and strata follow from C63 and C64; connectedness is transitivity of the group generated. Partial because of the violations below. |
| C74 | `ThurstonVeech.__call__` with the cycles, the eigenvalue and the eigenvector as parameters | the surface is built by the mutable surface of C01 (`Lemmas/AddPolys`, `Lemmas/Build`); sums over the intersection matrix are sums over squares, so the eigenvector equation is the equation of the moduli; the surface is a surface of rectangles as in C73 with the permutations `r` and the inverse of `u`. |
| C75 | `triangulation()` of a polygon, by recursion on the number of vertices | an ear gives a chord that passes the tests (`Lemmas/ChordTest`), and the tests are equivalent to being a chord that leaves into the polygon at both ends. The two parts are simple; a part with clockwise vertices would give a winding number below 1 close to the chord (`Lemmas/ChordSplit`); winding numbers of the parts add up, so that the parts do not overlap and their interior points are interior points of the polygon. |
| C76 | `standardize_polygons()` and `canonicalize()` as functions of the Delaunay decomposition | turning polygons one by one amounts to one shift of all edges (`Lemmas/Standardize`); `cmp` compares codes in a linear order, which do not depend on the labels (`Lemmas/SurfaceCode`); the loop finds a root with maximal code, and the code determines the surface up to labels. Isomorphism is the structure `TranslationIso`, stated with `polygon` and `opposite_edge` only. |
| C77 | `SimplicialHomologyClass`, `SimplicialCohomologyClass` | the group is a structure with cycles, boundaries, any basis of the quotient and any lift (`HGroup`); `Lemmas/HomologyCycles` shows that for a surface the cycles are the chains with `boundary1` zero and the boundaries are the values of `boundary2` |
| C78 | `hom()`, morphisms of homology groups, `_image_homology*` of the identity, `GL2RMorphism`, `SubdivideEdgesMorphism` and triangulations | a matrix acts on coefficients (`Lemmas/HomologyMorphism`); a map from edges to paths that respects gluings, vertices and polygons (`PathMap`) sends cycles to cycles and boundaries to boundaries (`Lemmas/PathMap`, by telescoping along the paths); `Lemmas/PathMapInstances` shows that the morphisms are such maps, for triangulations by turning around a vertex inside of a polygon |
| C79 | `SaddleConnection._homology_` | functions on the edges that are odd under gluings and add up to zero around polygons (`Lemmas/EdgeCocycle.lean`) are summed along the path of edges; with vertices, vectors and classes modulo boundaries as values this gives `C79_boundary`, `C79_cycle`, `C79_holonomy`, `C79_invert` |
| C80 | `HyperbolicPlane.polygon`, `intersection`, `half_spaces`, `in` | the order of the half spaces is a strict total order (`Lemmas/HalfSpaceOrder`), the merge sort is correct for any such order (`HalfSpaceSort`), Helly-type arguments for half planes that are sorted by direction (`HalfPlanes`, `HalfSpaceCycle`), invariants of the loops of `_normalize` (`HalfSpaceSearch`, `HalfSpaceExtend`, `HalfSpaceRedundant`, `HalfSpaceLoop`); points have coordinates in an arbitrary ordered extension of the base field; the choices of `an_element` and of `shuffle` are parameters. Marked vertices and `check=True` are not modelled |
| C81 | `__eq__` and `is_subset` of convex sets in the hyperbolic plane | descriptions without redundancies are unique (`Lemmas/HalfSpaceCanonical`): a point in the interior of an edge is on the boundary of a half space of the other description, small steps from that point show that the half spaces agree; sorted lists with the same entries up to positive multiples agree. The vertices of segments are compared as described in the comment at `ConvexSet.eqSet` |
| C82 | `convex_hull` in the hyperbolic plane (`Model/HyperbolicHull`) | vertices are sorted by slope (`sortSlope_spec`), the Graham scan keeps a list in convex position such that every half plane that contains the list contains all vertices (`Lemmas/GrahamScan`); a point to the left of all edges is in a triangle of the fan at the reference point (`Lemmas/HullEdges`); an edge is dropped only if a half space contains everything beyond it, and a half space that reaches beyond a remaining edge would cross that edge between its end points (`Lemmas/HullSets`). Partial: collinear vertices (violation), no polygons, no marked vertices |
| C83 | `HyperbolicConvexPolygon.edges` without marked vertices (`Model/HyperbolicEdges`) | each half space of a normalized polygon has a point in the disk that violates only this half space, so its boundary has a segment in the interior of all other half spaces (`side_points`); hence the half spaces form a cycle (`polygon_cyc`) and the edge lemmas of C80 apply; sorting keeps the order (`orderedSet_sorted`) |
| C84 | `HyperbolicConvexPolygon.vertices`, `HyperbolicVertices` | corners are extreme points, so three of them are never collinear (`corner_extreme`, `corner_area`) and the slopes order them strictly; an end of an edge is only shared with the next edge, otherwise the half space between them would be redundant (`polyVertices_spec`); the corners are in convex position (`corner_conv`); violated with marked vertices |
| C85 | `intersections`, `intersects`, `SegmentInPolygon` | in a strictly convex polygon a segment consists of all points of its line that are in the polygon (`onSegment_iff`), so the test of the code is right for each pair of segments in the same polygon (`crossing_iff`); the loops by induction over the pairs; a chord of a closed trajectory or saddle connection goes on in the polygon on the other side of the edge (`complete_over`), so no crossing on an edge is missed. The generator is run to its end |
| C86 | `_normalize_angles`, `angles(integral=True)`, `billiard_unfolding_angles`, `billiard_unfolding_stratum`, `billiard_unfolding_stratum_dimension` | the dictionaries of the code as multisets (`Dict.Counts`); numerators and denominators of `2x`; the holonomy group is a subgroup of `ℚ/ℤ` or `ℚ/½ℤ`, its order is the least common multiple of the denominators, the number of points is the index of the local group; the parity of the number of points (`sum_div_den_parity`) makes the genus an integer |
| C87 | `flow`, `find_separatrix` | each edge that the loop accepts is met by the ray at the returned time (`flowEdge_spec`); in a convex polygon a ray that starts in the polygon is outside after it has met an edge that is not parallel to it (`Hits.exit`), so all these times agree, and the first half plane that is left gives such an edge (`exists_hit`); for separatrices, if there was none, the height would have two strict local maxima, which is not possible in a convex polygon (`Convex.local_max`). The `RuntimeError` of `find_separatrix` is another constructor of the error type; it is never raised |
| C88 | `pole`, `perpendicular` (with a point, a geodesic, or nothing), `midpoint` of a geodesic | a right angle is stated with the Euclidean normal vectors of the two circles in the upper half plane (`MeetAtRightAngle`, `rightAngle_normals`); this is the vanishing of the Lorentz product of the coefficients (`rightAngle_iff`), which is a linear condition, so the perpendicular is unique (`orthogonal_parallel`). The two end points are taken in the order start, end |
| C89 | `midpoint` and `perpendicular` of a segment | in the hyperboloid model an ideal point of the perpendicular at `S` is a multiple of `S + ε n` with the normal vector `n` of the geodesic (`decompose`), so the lines of the construction meet the geodesic in `δ S - ε E`, which is in the segment exactly if the signs differ (`segment_line`); the intersection is the one of C80. Distances are compared with the formula for their hyperbolic cosine (`IsMidpoint`). The order of sorted end points is any order |
| C90 | `FundamentalGroup.gens` | invariant of the loop (`GInv`): the dictionary is a tree whose edges are glued edges, every edge of a visited polygon waits, is in the tree, or has been treated; a path is a telescope of paths down the tree, across an edge and up the tree (`telescope`); freeness by values that are 1 on the tree (`free_index`); the number of steps is bounded by the number of edges |
| C91 | `GL2ROrbitClosure`: `_spanning_tree`, `spanning_set`, `proj`, `boundaries`, `holonomy`, `lift` | invariant of the search (`SInv`: faces are found from faces that were found before, `Grow`) and of the reduction (`RInv`: the rows that are done vanish on the tree and satisfy the relations of their faces); the relation of the root is minus the sum of the others (`sum_rowSum`) |
| C92 | `normalized_coordinates`: choice of the corner and of the matrix, images of the polygons, relabelling by `add_polygon`, gluings; not the change to the subfield generated by the coordinates | a polygon has a corner that is not straight (`Valid.exists_corner`), `findCorner_eq`; the rest by `wp_addPolys` and `build_glue`. Violated when the first corner that is not straight is reflex |
| C93 | `j_invariant` of convex polygons and of translation surfaces, `_wedge_product`, `_tensor_product`; the number field is given by its degree and by `to_V` (`Coords`), which is assumed to be additive | the loop is the cyclic sum of `jTerm` (`jLoop_eq`), which is antisymmetric and biadditive; a flip keeps the sum over two triangles (`jTerm_flip`, with `triangleFlip_spec`), chains of flips by induction. Violated when a polygon is not convex |
| C94 | `is_veering_triangulated`, `_delaunay_edge_needs_flip_Linfinity`, `veering_triangulation` (after the triangulation), `l_infinity_delaunay_triangulation`; the order in which elements are popped from the set is a parameter; translation surfaces only, termination is proved with a limit only; not proved: that the test answers 1 exactly when a flip makes the edge shorter in the L-infinity norm (a wrong comparison there is not detected) | invariant of the work list (`Pending`: an edge is in order or one of its triangles is in the set), symmetry of the test (`linfCode_symm`); a longest edge among the triangles with a single slope asks for a flip (`no_mono`, `linfCode_two`). Every edge that asks for a flip can be flipped (`flip_of_code`), so nothing fails (`C94_errors`), and with a limit the number of visits is bounded (`C94_limit`). Violated when there are horizontal or vertical edges |

## What the code violates

Each line is a theorem in `lean/Verif/Props` with a concrete witness (evaluated by the kernel); file names are below
`flatsurf/geometry`.

| theorem | what goes wrong | where |
|---------|-----------------|-------|
| `C15_half_translate_certificate_violation`, `C15_isometric_index_violation` | certificates of `is_half_translate` / `is_isometric` are not what is documented | `categories/euclidean_polygons.py` |
| `C16_negative_index_violation` | `glue` with negative edge numbers corrupts the gluings | `surface.py` 1295-1361 |
| `C18_remove_polygon_violation`, `C18_replace_polygon_violation` | immutable surfaces can be modified | `surface.py` |
| `C21_*_crash_violation` | root bookkeeping crashes in `glue`, `unglue`, `remove_polygon` | `surface.py` |
| `C25_*_violation`, `C28_root_lost_violation` | `set_vertex_zero`, `join_polygons` forget explicit roots or crash | `surface.py` |
| `C26_cone_violation` | `triangle_flip` fails an assertion after having replaced a triangle | `surface.py` 1000-1104 |
| `C27_half_done_violation` | `subdivide_polygon` is not atomic | `surface.py` |
| `C29_untriangulated_violation` | `is_delaunay_triangulated` ignores polygons without gluings | `categories/similarity_surfaces.py` 2598-2682 |
| `C31_*` witnesses | `subdivide()` raises on disconnected surfaces, forgets roots | `categories/similarity_surfaces.py` 3344-3443 |
| `C34_*_violation` | minimal half-translation cover uses the transpose; planar cover needs convex polygons | `minimal_cover.py` |
| `C36_boundary_violation` | `GL2RImageSurface.opposite_edge` raises `TypeError` on boundary edges | `lazy.py` |
| `C38_replace_polygon_violation` | cached values become stale | `cache.py`, `surface.py` |
| `C41_product_violation` | product in the fundamental group cancels what must not be cancelled | `fundamental_group.py` 165-196 |
| `C42_*_violation` | iteration misses elements, `is_finite` is wrong, `matrix_multiplicative_order` raises | `finitely_generated_matrix_group.py` |
| `C43_*_violation` | images of endpoints of intervals | `interval_exchange_transformation.py` |
| `C44_reflection_violation` | reflected circles have negative squared radius | `circle.py` |
| `C47_*_violation` | `in` for `edges()` and `gluings()` | `surface.py` |
| `C49_other_polygon_violation` | `ramified_cover` glues copies of the wrong polygon | `categories/similarity_surfaces.py` 3339 |
| `C50_*_violation` | comparisons ignore parts of their arguments | `polygon.py`, `surface.py` 2078-2129 |
| `C52_half_space_violation` | `apply_isometry(model="klein")` on half spaces with matrices that swap the sheets | `hyperbolic.py` |
| `C53_named_identity_violation` | `IdentityMorphism` has no `_section_point` | `morphism.py` |
| `C56_*_violation` | colliding labels and roots of lazy triangulations; Delaunay cells of surfaces with rotations; self-glued edges | `lazy.py` |
| `C59_trivial_violation` | intersection with the neutral element raises `IndexError` | `fundamental_group.py` |
| `C60_*_violation` | rotations of tangent vectors at straight or reflex angles and on half-translation surfaces | `tangent_bundle.py` |
| `C65_off_center_violation` | `angle()` is a half turn on all of an edge that is glued to itself, not just at its midpoint | `categories/similarity_surfaces.py` 727-793 |
| `C66_outward_violation` | `flow_to_exit` accepts outward directions and points outside if the ray meets the polygon later | `categories/euclidean_polygons.py` 1593-1726 |
| `C67_previous_violation` | `previous()` of a segment looks at the end of the segment instead of its start | `straight_line_trajectory.py` 216-219 |
| `C68_last_side_violation` | `SaddleConnection` in the direction of the last side of the sector at the start has a wrong holonomy | `surface_objects.py` 868-875 |
| `C68_guess_violation` | the guess of `end_holonomy` compares the given direction with a rescaled one | `surface_objects.py` 813-829 |
| `C68_straight_violation` | `saddle_connections` misses some from vertices with angle π | `categories/similarity_surfaces.py` 3184-3274 |
| `C68_nonconvex_violation` | `saddle_connections` of non-convex polygons: wrong, repeated and missing ones | `categories/similarity_surfaces.py` 3184-3274 |
| `C69_repeated_violation` | `Cylinder` accepts edges that go around twice; `area()` counts both turns, `holonomy()` one | `surface_objects.py` 1276-1288, 1586-1611 |
| `C69_straight_vertex_violation` | a vertex with angle π on the boundary of a cylinder is not seen; `holonomy()` is too short | `surface_objects.py` 1290-1397 |
| `C69_self_glued_violation` | a cylinder through self-glued edges overlaps itself; `area()` exceeds the area of the surface | `surface_objects.py` 1276-1319 |
| `C70_self_glued_violation` | an edge glued to itself appears in the boundary of its polygon, so a sphere has first homology of rank 2 and no second homology | `homology.py` 682-700, 727-795 |
| `C71_self_glued_violation` | all intersections vanish on a sphere with self-glued edges, whose first homology has rank 2 by `C70_self_glued_violation` | `homology.py` 147-225, 1119-1165 |
| `C72_missed_vertex_violation` | `forward_image` gives a vertex as the right end of an interval when another vertex is in the way, so `is_forward_separatrix` and `is_saddle_connection` are false, `flow` goes through the singularity, and `is_closed` may be true | `interval_exchange_transformation.py` 140-151, 194-205; `straight_line_trajectory.py` 872-930 |
| `C72_closed_violation` | `is_closed` is true for a saddle connection from a vertex to itself, unlike for `StraightLineTrajectory` | `straight_line_trajectory.py` 872-875 |
| `C73_connected_violation` | every origami is in the category of connected surfaces, also if the permutations do not act transitively | `origami.py` 51 |
| `C73_samples_violation` | explicit inverse maps are only checked on `some_elements()`, so that an edge may be glued to an edge that is not glued back | `origami.py` 135-147 |
| `C74_up_violation` | the vertical permutation is documented as going up, but `u[i]` is glued below the rectangle `i` | `thurston_veech.py` 9-10, 180 |
| `C76_crash_violation` | `standardize_polygons()` and with it `canonicalize()` fail with an `AssertionError` ("did not find any root to eliminate") when a polygon has to be turned whose removal leaves three or more components and the root is in the last one that is glued back: `remove_polygon` leaves components without an explicit root (in other cases the explicit root is lost silently) | `surface.py` 1288-1293, 1348-1358 |
| `C77_bool_violation` | `bool()` of a homology class is computed from the chain, so a nonzero boundary is equal to zero but truthy | `homology.py` 460-476 |
| `C77_values_violation` | a cohomology class accepts values at homology classes that are not generators and ignores them: such classes agree everywhere but are not equal | `cohomology.py` |
| `C78_scale_violation` | a multiple `r * f` of a morphism of homology groups forgets the codomain of `f`: the result is an endomorphism of the domain, or `NotImplementedError` | `homology.py` 1629-1649 |
| `C78_gl2r_violation` | a matrix of negative determinant maps an edge to the edge with the same number, although the image surface numbers its edges backwards: under a reflection the horizontal edge of the square torus becomes a vertical one | `morphism.py` 3911-3926 |
| `C82_collinear_violation` | the convex hull of collinear points is the whole geodesic through these points instead of a segment, e.g., for (0, 0) and (0, 1/2) in the Klein model (the doctest with I, 2I, 3I shows this, too) | `hyperbolic.py` 2055-2094, 14555-14557 |
| `C84_marked_violation` | with a marked vertex on a left edge that is vertical in the Klein model, `vertices()` loses a vertex of the polygon: collinear vertices are compared by their x coordinates only and equal entries are merged, e.g., for the triangle (0, 0), (1/2, 1/2), (0, 3/5) in the Klein model with the marked vertex (0, 5/13) | `hyperbolic.py` 14286-14293, 13812-13814 |
| `C85_nonconvex_violation` | in a polygon that is not convex, `intersections` yields points that are on the line through a segment but not on the segment | `straight_line_trajectory.py` 510-525 |
| `C85_straight_violation` | the same in a convex polygon with an angle equal to π, for a saddle connection along an edge | `straight_line_trajectory.py` 510-525 |
| `C85_incomplete_violation` | a trajectory that starts in the middle of an edge does not intersect a saddle connection along that edge, when the edge belongs to another polygon | `straight_line_trajectory.py` 505-509 |
| `C85_singularity_violation` | with `count_singularities=True`, two saddle connections that start at the same singularity in different polygons do not intersect | `straight_line_trajectory.py` 505-509 |
| `C87_flow_violation` | `flow` along an edge that stops before the end of the edge says that the end point is in the interior of the polygon | `categories/euclidean_polygons.py` 2055-2063 |
| `C87_flow_outside_violation` | `flow` from a point outside of the polygon is not rejected if the ray meets the polygon, and the end point is said to be in the interior though it is outside | `categories/euclidean_polygons.py` 2050-2063 |
| `C87_separatrix_violation` | the number of the vertex returned by `find_separatrix` can be the number of vertices or more, because `v + 1 % n` does not reduce `v + 1` | `categories/euclidean_polygons.py` 1881 |
| `C88_perpendicular_violation` | `perpendicular` raises a `ValueError` for geodesics whose end points are not in the base ring, though there is a perpendicular geodesic over the base ring | `hyperbolic.py` 7178-7186 |
| `C89_midpoint_violation` | `midpoint` raises a `ValueError` for segments whose midpoint is in the base ring, because it goes through ideal points that are not | `hyperbolic.py` 12974-12976 |
| `C92_reflex`, `C92_violation` | `normalized_coordinates` raises an `AssertionError` when the first corner of the first polygon that is not straight is reflex | `half_translation_surfaces.py` 404-415 |
| `C93_reflex`, `C93_violation` | `j_invariant` of a translation surface raises an `AttributeError` when a polygon is not convex, since polygons have the method in the category of convex polygons only | `translation_surfaces.py` 479-504, `euclidean_polygons.py` 2222 |
| `C94_violation` | `veering_triangulation` returns a surface that is not veering: for two triangles with a single slope and horizontal (or vertical) sides, the flip of the common edge keeps the height, and the test asks for a flip only when the maximum norm becomes smaller | `dilation_surfaces.py` 420-428 |

## What is modelled and what is not

Modelled (each definition in `lean/Verif/Model` cites its lines): `similarity.py`, `euclidean.py` (exact predicates), `circle.py`,
`cache.py`, polygons (`polygon.py`, `categories/euclidean_polygons.py` except random
polygons and plotting; the angles and unfolding strata of `categories/euclidean_polygons_with_angles.py`), `surface.py` (`MutableOrientedSimilaritySurface`, its label/root/edge views), `minimal_cover.py`,
the lazy surfaces of `lazy.py` (for `LazyMutableOrientedSimilaritySurface` see C62), the methods of
`categories/similarity_surfaces.py` and `categories/polygonal_surfaces.py` named in the properties (angles, turns and strata included),
`surface_objects.py` (`SurfacePoint`, `SaddleConnection`, `Cylinder` without plots and `circumference`), `homology.py` (chains, boundary, intersection, homology groups as quotients, homology classes, morphisms, symplectic bases with Sage's normal form of alternating matrices as a parameter), `cohomology.py` (classes as dictionaries), `tangent_bundle.py`,
`straight_line_trajectory.py` (segments, `StraightLineTrajectory`, `StraightLineTrajectoryTranslation`, codings, intersections),
`fundamental_group.py` (without `gens`), `finitely_generated_matrix_group.py`, `interval_exchange_transformation.py`,
`hyperbolic.py` (points, geodesics, half spaces, isometries, segments, polygons without marked vertices, intersections, edges, vertices, convex hulls of sets that are not polygons, perpendiculars and midpoints of geodesics), `morphism.py` (composition,
sections, flips, action on homology), generators (doubles, convex billiards) and the infinite families of C35 and C55.

Not modelled: permutation cycles and eigenvectors in `thurston_veech.py`, `polyhedra.py`,
`veech_group.py`, `l_infinity_delaunay_cells.py`, the rest of `gl2r_orbit_closure.py` (intersection matrix, tangent spaces, decompositions), `subfield.py`, `pyflatsurf` conversions, graphical surfaces, and all code that
only concerns Sage (coercion, parents, categories, pickling, plotting, deprecations, numerical rings).

## Trusted base

Lean's kernel; the standard axioms `propext`, `Classical.choice`, `Quot.sound` only; our reading of
the Python code.  Nothing was executed against the Python code (no dependencies in the
sandbox).  C71 takes the contract that Sage documents for the normal form of an alternating matrix (`IsSymplecticForm`) as a
hypothesis of the theorem; kernels, images and quotients of matrices are those of Mathlib.
