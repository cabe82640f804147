{"id": "C01", "title": "Similarities form a group acting on the plane", "statement": "For similarities g, h over a field, (g*h) applied to a point is g applied to (h applied to the point); * is associative with the identity similarity as unit; ~g is a two-sided inverse whenever g is a similarity (non-zero scaling); g/h equals g*~h; and two similarities compare equal iff they move every point of the plane to the same place.", "quantifier": "all similarities (both orientations) over every ordered field, and all points", "why_tests_cant": "Unit tests multiply a handful of similarities with small rational entries; the sign bookkeeping of orientation-reversing factors has four cases in each of product, inverse and quotient and must be right for all of them at once.", "anchors": ["flatsurf/geometry/similarity.py:Similarity._mul_", "flatsurf/geometry/similarity.py:Similarity.__invert__", "flatsurf/geometry/similarity.py:Similarity._div_", "flatsurf/geometry/similarity.py:Similarity.__call__", "flatsurf/geometry/similarity.py:Similarity.__eq__"]}
{"id": "C02", "title": "The classification predicates of a similarity are exact", "statement": "is_translation() holds iff every point is moved by the same vector; is_half_translation() holds iff differences of points are all preserved or all negated; is_isometry() holds iff all distances are preserved; is_orientable()/sign() is positive iff ccw orientation of every triple is preserved; distances squared are multiplied by exactly |det|.", "quantifier": "all similarities over every ordered field, all pairs/triples of points", "why_tests_cant": "The predicate is compared with a universally quantified statement about points.", "anchors": ["flatsurf/geometry/similarity.py:Similarity.is_translation", "flatsurf/geometry/similarity.py:Similarity.is_half_translation", "flatsurf/geometry/similarity.py:Similarity.is_isometry", "flatsurf/geometry/similarity.py:Similarity.is_orientable", "flatsurf/geometry/similarity.py:Similarity.det"]}
{"id": "C03", "title": "similarity_from_vectors finds the unique rotation-scaling", "statement": "For non-zero u, similarity_from_vectors(u, v) is a rotation-scaling matrix M (no reflection) with M*u = v, and it is the only one.", "quantifier": "all pairs of vectors over every ordered field with u non-zero", "why_tests_cant": "Existence and uniqueness over every field; tests fix a few vectors.", "anchors": ["flatsurf/geometry/similarity.py:similarity_from_vectors"]}
{"id": "C04", "title": "edge_transformation realizes the gluing", "statement": "For every glued pair of edges, edge_transformation(p,e) is an orientation-preserving similarity sending the start of edge e to the end of the opposite edge and the end of e to the start of the opposite edge; the transformation of the opposite edge is its inverse; points to the left of e (the inside) are sent to the right of the opposite edge (outside).", "quantifier": "all surfaces with non-degenerate edges and all glued edges", "why_tests_cant": "Tests evaluate it on a few squares and triangles where many wrong formulas agree.", "anchors": ["flatsurf/geometry/categories/similarity_surfaces.py:edge_transformation", "flatsurf/geometry/categories/similarity_surfaces.py:edge_matrix", "flatsurf/geometry/similarity.py:SimilarityGroup._element_constructor_"]}
{"id": "C05", "title": "Parallelism predicates mean positive/negative proportionality", "statement": "For non-zero v, w: is_parallel(v,w) iff w is a positive multiple of v; is_anti_parallel(v,w) iff w is a negative multiple of v; is_parallel is an equivalence relation on non-zero vectors; ccw is antisymmetric and invariant under rotation-scalings.", "quantifier": "all non-zero vectors over every ordered field", "why_tests_cant": "Relational laws over an infinite field.", "anchors": ["flatsurf/geometry/euclidean.py:ccw", "flatsurf/geometry/euclidean.py:is_parallel", "flatsurf/geometry/euclidean.py:is_anti_parallel"]}
{"id": "C06", "title": "is_between decides membership in the open counterclockwise sector", "statement": "is_between(e0, e1, f) holds iff turning counterclockwise from the direction of e0 one meets the direction of f strictly before that of e1.", "quantifier": "all non-zero directions e0, e1, f including parallel, anti-parallel and reflex configurations", "why_tests_cant": "The sector is defined by an ordering of all directions; degenerate combinations are numerous.", "anchors": ["flatsurf/geometry/euclidean.py:is_between"]}
{"id": "C07", "title": "Segment intersection classification is exact", "statement": "is_segment_intersecting(e1, e2) returns 0 iff the closed segments have no common point, 1 iff they touch only in end points (of both segments), and 2 otherwise, in particular whenever they cross in interior points; the answer does not depend on the order of the segments or on their orientation.", "quantifier": "all pairs of non-degenerate segments over every ordered field", "why_tests_cant": "Orientation predicates with many degenerate collinear cases; correctness is a statement about infinitely many points on the segments.", "anchors": ["flatsurf/geometry/euclidean.py:is_segment_intersecting"]}
{"id": "C08", "title": "Linear solvers return exact solutions", "statement": "line_intersection returns the only common point of two non-parallel lines and None iff parallel; solve(x,u,y,v) returns the unique (a,b) with x+a*u = y+b*v; time_on_ray returns the parameter of a point on the line; ray_segment_intersection returns exactly the part of the segment met by the forward ray (None, a point, or an overlapping segment).", "quantifier": "all points and directions over every ordered field", "why_tests_cant": "Existence/uniqueness statements over a field.", "anchors": ["flatsurf/geometry/euclidean.py:line_intersection", "flatsurf/geometry/euclidean.py:solve", "flatsurf/geometry/euclidean.py:time_on_ray", "flatsurf/geometry/euclidean.py:ray_segment_intersection"]}
{"id": "C09", "title": "Polygon area is a motion invariant and scales by |det|", "statement": "area() of a polygon does not change under translation, nor when another vertex is chosen as the first one; (g*P).area() = |det g| * P.area() for every invertible matrix g, also for orientation reversing g.", "quantifier": "all vertex lists of any length and all 2x2 matrices with non-zero determinant over every ordered field", "why_tests_cant": "Arbitrary number of vertices; needs induction over the vertex list.", "anchors": ["flatsurf/geometry/categories/euclidean_polygons.py:area", "flatsurf/geometry/categories/euclidean_polygons.py:_mul_"]}
{"id": "C10", "title": "Matrices act on polygons", "statement": "(g*h)*P = g*(h*P) and 1*P = P for all invertible g, h, including orientation reversing ones; singular matrices are rejected; vertex 0 of g*P is g applied to vertex 0 of P; the result is counterclockwise and (strictly) convex when P is.", "quantifier": "all polygons and all 2x2 matrices over every ordered field", "why_tests_cant": "The reversal of the vertex order for negative determinants must compose for all lengths.", "anchors": ["flatsurf/geometry/categories/euclidean_polygons.py:_mul_"]}
{"id": "C11", "title": "Ear clipping partitions the polygon", "statement": "triangulate() of a simple polygon with n vertices returns n-2 counterclockwise triangles whose areas sum to the polygon's area, every edge of the polygon is an edge of exactly one triangle, every diagonal is shared by exactly two triangles with opposite orientation, and the returned gluings are exactly these pairs.", "quantifier": "all polygons of any size on which ear clipping terminates", "why_tests_cant": "Unbounded number of vertices and combinatorially many ear orders.", "anchors": ["flatsurf/geometry/categories/euclidean_polygons.py:triangulate", "flatsurf/geometry/categories/euclidean_polygons.py:triangulation"]}
{"id": "C12", "title": "Point position in convex polygons is exact", "statement": "For a strictly convex polygon, get_point_position says vertex iff the point is a vertex, edge interior iff it lies strictly inside one edge, inside iff it is strictly to the left of all edges and outside otherwise; exactly one of the cases holds.", "quantifier": "all convex polygons of any number of vertices, all points of the plane", "why_tests_cant": "Continuum of points, arbitrarily many edges.", "anchors": ["flatsurf/geometry/categories/euclidean_polygons.py:get_point_position", "flatsurf/geometry/polygon.py:PolygonPosition"]}
{"id": "C13", "title": "Subdividing a polygon preserves area and closes up", "statement": "subdivide() returns one triangle per edge, triangle i having edge i of the polygon as its edge 0, with consecutive triangles sharing an edge of opposite direction and areas adding up to the area of the polygon; subdivide_edges(k) keeps the area, multiplies the number of edges by k and cuts edge i into k equal consecutive pieces.", "quantifier": "all polygons of any size and all k >= 1", "why_tests_cant": "Any number of vertices and parts.", "anchors": ["flatsurf/geometry/categories/euclidean_polygons.py:subdivide", "flatsurf/geometry/categories/euclidean_polygons.py:subdivide_edges", "flatsurf/geometry/categories/euclidean_polygons.py:centroid"]}
{"id": "C14", "title": "Joining polygons along an edge adds areas", "statement": "Joining two polygons along a common edge gives a closed polygon with n+m-2 edges consisting of the remaining edges in order, and its area is the sum of both areas.", "quantifier": "all pairs of polygons (any sizes) and all matching edges", "why_tests_cant": "Any number of vertices.", "anchors": ["flatsurf/geometry/categories/euclidean_polygons.py:join", "flatsurf/geometry/categories/similarity_surfaces.py:join_polygons"]}
{"id": "C15", "title": "Isometry, translation and half-translation tests of polygons are exact", "statement": "is_translate(other) is true iff other is obtained from self by a translation and renumbering of the vertices; is_half_translate allows also rotation by pi; is_isometric(other) is true iff an orientation preserving isometry maps self onto other; the certificate returned maps self onto other.", "quantifier": "all pairs of polygons", "why_tests_cant": "Existential statement over cyclic shifts of unbounded length and over all motions.", "anchors": ["flatsurf/geometry/categories/euclidean_polygons.py:is_translate", "flatsurf/geometry/categories/euclidean_polygons.py:is_half_translate", "flatsurf/geometry/categories/euclidean_polygons.py:is_isometric"]}
{"id": "C16", "title": "Gluings always form an involution", "statement": "After every history of calls of add_polygon, remove_polygon, glue, unglue, change/refine/replace polygon etc. on a mutable surface (with edge indices in range): if opposite_edge(p,e) = (q,f) then opposite_edge(q,f) = (p,e), both polygons exist and both edge indices are in range.", "quantifier": "all finite histories of mutations starting at the empty surface, including failing calls, and all labels and edges", "why_tests_cant": "The invariant ranges over all histories.", "anchors": ["flatsurf/geometry/surface.py:MutableOrientedSimilaritySurface.glue", "flatsurf/geometry/surface.py:MutableOrientedSimilaritySurface.unglue", "flatsurf/geometry/surface.py:MutableOrientedSimilaritySurface.add_polygon", "flatsurf/geometry/surface.py:MutableOrientedSimilaritySurface.remove_polygon", "flatsurf/geometry/surface.py:MutableOrientedSimilaritySurface.opposite_edge"]}
{"id": "C17", "title": "glue and unglue change exactly what they should", "statement": "After glue(x,y) succeeded, opposite_edge(x)=y and opposite_edge(y)=x; the former partners of x and y are boundary edges; every other edge keeps its partner. After unglue(x), x and its former partner are unglued and nothing else changed. glue(x, y) and glue(y, x) have the same effect and gluing twice changes nothing more.", "quantifier": "all surface states and all edges, including self-gluings and edges already glued", "why_tests_cant": "Universal frame condition over all states.", "anchors": ["flatsurf/geometry/surface.py:MutableOrientedSimilaritySurface.glue", "flatsurf/geometry/surface.py:MutableOrientedSimilaritySurface.unglue"]}
{"id": "C18", "title": "Immutable surfaces never change", "statement": "Once set_immutable() was called, no sequence of later calls of mutating methods changes polygons, gluings or roots: every such call raises an exception and leaves the surface as it was.", "quantifier": "all surfaces, all histories of calls after set_immutable", "why_tests_cant": "All histories; a test can only try single calls.", "anchors": ["flatsurf/geometry/surface.py:MutablePolygonalSurface.set_immutable", "flatsurf/geometry/surface.py:MutableOrientedSimilaritySurface.remove_polygon", "flatsurf/geometry/surface.py:MutableOrientedSimilaritySurface.replace_polygon"]}
{"id": "C19", "title": "Automatically chosen labels are always fresh", "statement": "add_polygon(polygon) without a label never overwrites an existing polygon: the returned label was not in use, whatever labels were chosen or removed before; add_polygon with a label in use fails and changes nothing.", "quantifier": "all histories of adding and removing polygons with automatic and explicit labels", "why_tests_cant": "Depends on the history of the label counter.", "anchors": ["flatsurf/geometry/surface.py:MutablePolygonalSurface.add_polygon", "flatsurf/geometry/surface.py:MutablePolygonalSurface.remove_polygon"]}
{"id": "C20", "title": "Traversal enumerates every label exactly once", "statement": "Iterating labels() of a finite surface yields every label exactly once; labels of one component are exactly those reachable from its root across glued edges, each listed once and root first; labels of different components are disjoint.", "quantifier": "all finite surfaces with any number of components and any gluing", "why_tests_cant": "Reachability in arbitrary graphs; unbounded search depth.", "anchors": ["flatsurf/geometry/surface.py:Labels", "flatsurf/geometry/surface.py:ComponentLabels", "flatsurf/geometry/surface.py:RootedComponents_MutablePolygonalSurface", "flatsurf/geometry/categories/polygonal_surfaces.py:is_connected"]}
{"id": "C21", "title": "Explicit roots survive mutations consistently", "statement": "In every reachable state each connected component contains at most one root, roots() contains exactly one label per component, and glue/unglue/add/remove never crash because of root bookkeeping.", "quantifier": "all histories of mutations and set_root/set_roots calls", "why_tests_cant": "History dependent.", "anchors": ["flatsurf/geometry/surface.py:MutablePolygonalSurface.roots", "flatsurf/geometry/surface.py:MutablePolygonalSurface.set_root", "flatsurf/geometry/surface.py:MutablePolygonalSurface.set_roots", "flatsurf/geometry/surface.py:MutableOrientedSimilaritySurface.glue", "flatsurf/geometry/surface.py:MutableOrientedSimilaritySurface.unglue"]}
{"id": "C22", "title": "Equality of surfaces is an equivalence compatible with hash", "statement": "== on immutable finite surfaces is reflexive, symmetric and transitive, equal surfaces have equal hashes, and equality is independent of the order in which polygons were added and glued.", "quantifier": "all pairs and triples of surfaces", "why_tests_cant": "Ranges over all pairs of construction histories.", "anchors": ["flatsurf/geometry/surface.py:MutableOrientedSimilaritySurface.__eq__", "flatsurf/geometry/surface.py:MutableOrientedSimilaritySurface.__hash__", "flatsurf/geometry/surface.py:MutablePolygonalSurface.__eq__", "flatsurf/geometry/surface.py:MutablePolygonalSurface.__hash__"]}
{"id": "C23", "title": "from_surface makes a faithful independent copy", "statement": "MutableOrientedSimilaritySurface.from_surface(S) has the same labels, polygons, gluings and roots as the finite surface S.", "quantifier": "all finite surfaces S", "why_tests_cant": "All surfaces, any number of polygons; the copy is built by a loop of glue calls whose side effects interfere.", "anchors": ["flatsurf/geometry/surface.py:MutableOrientedSimilaritySurface.from_surface"]}
{"id": "C24", "title": "relabel renames without changing the surface", "statement": "relabel with a dictionary f that is injective on the labels (labels that are not in the dictionary keep their name) never fails and yields the surface in which polygon(f(l)) is the old polygon(l), the gluings are the old gluings transported along f, and labels and roots are the images of the old ones in the same order; relabeling back restores the surface; with a map that is not injective a ValueError is raised.", "quantifier": "all surfaces and relabelings", "why_tests_cant": "All bijections of unbounded label sets; the implementation moves polygons one by one.", "anchors": ["flatsurf/geometry/surface.py:MutableOrientedSimilaritySurface.relabel"]}
{"id": "C25", "title": "Choosing another vertex zero rotates polygon and gluings together", "statement": "set_vertex_zero(l, v) makes the old vertex v the vertex 0 of polygon l and rotates edge numbering so that every edge remains glued to the same geometric edge as before, including edges of l glued to other edges of l.", "quantifier": "all surfaces without boundary, all labels and vertices, including self-glued polygons", "why_tests_cant": "Self-gluing interplay for all index combinations.", "anchors": ["flatsurf/geometry/surface.py:MutableOrientedSimilaritySurface.set_vertex_zero"]}
{"id": "C26", "title": "Flipping a diagonal is sound and reversible", "statement": "triangle_flip(l, e) on a triangulated surface replaces both triangles of the quadrilateral by the triangles cut by the other diagonal: total area is preserved, outer edges keep their partners (also if outer edges are glued to each other), the new diagonal is glued, and flipping four times restores the triangulation.", "quantifier": "all triangulated surfaces and flippable edges", "why_tests_cant": "Self-gluings of the outer edges lead to many cases; geometry for all triangles.", "anchors": ["flatsurf/geometry/surface.py:MutableOrientedSimilaritySurface.triangle_flip"]}
{"id": "C27", "title": "Cutting a polygon along a diagonal on the surface is sound", "statement": "subdivide_polygon(l, v1, v2) replaces polygon l by two polygons glued along the new diagonal; all other edges keep their partners and the area is preserved.", "quantifier": "all surfaces, polygons and vertex pairs, including polygons with edges glued to each other", "why_tests_cant": "Index arithmetic for all sizes and self-gluings.", "anchors": ["flatsurf/geometry/surface.py:MutableOrientedSimilaritySurface.subdivide_polygon"]}
{"id": "C28", "title": "Joining polygons of a surface is sound", "statement": "join_polygons(l, e) removes the edge between two different polygons and renumbers the remaining edges such that each remains glued to the same partner; area is preserved.", "quantifier": "all surfaces and edges, including further gluings between the two polygons", "why_tests_cant": "Index arithmetic for all sizes and self-gluings.", "anchors": ["flatsurf/geometry/surface.py:MutableOrientedSimilaritySurface.join_polygons", "flatsurf/geometry/categories/similarity_surfaces.py:join_polygons"]}
{"id": "C29", "title": "Delaunay flip test is the empty circumcircle test", "statement": "For two glued triangles, the edge is reported to need a flip iff the vertex opposite to the edge in the second triangle lies strictly inside the circumscribed circle of the first; the answer is the same seen from the other triangle; if a flip is needed the two triangles form a strictly convex quadrilateral so that the flip succeeds; after the flip the new edge does not need a flip.", "quantifier": "all pairs of non-degenerate triangles glued by similarities, over every ordered field", "why_tests_cant": "Continuum of configurations.", "anchors": ["flatsurf/geometry/categories/similarity_surfaces.py:_delaunay_edge_needs_flip", "flatsurf/geometry/categories/similarity_surfaces.py:_delaunay_edge_needs_join", "flatsurf/geometry/surface.py:MutableOrientedSimilaritySurface.delaunay_single_flip"]}
{"id": "C30", "title": "Delaunay flipping cannot cycle", "statement": "Each flip of an edge that needs it strictly decreases a quantity depending only on the triangulated surface, so no sequence of Delaunay flips ever returns to an earlier triangulation.", "quantifier": "all triangulated translation surfaces and all flip sequences", "why_tests_cant": "Termination is about all infinite runs.", "anchors": ["flatsurf/geometry/categories/similarity_surfaces.py:delaunay_triangulation", "flatsurf/geometry/surface.py:MutableOrientedSimilaritySurface.delaunay_single_flip", "flatsurf/geometry/lazy.py:LazyDelaunayTriangulatedSurface"]}
{"id": "C31", "title": "Subdivision of a surface glues the pieces consistently", "statement": "subdivide() and subdivide_edges(k) of a surface yield surfaces whose gluings form an involution, each old gluing inducing gluings of the pieces in reversed order, with the same total area.", "quantifier": "all finite surfaces, all k", "why_tests_cant": "Any number of polygons and parts.", "anchors": ["flatsurf/geometry/categories/similarity_surfaces.py:subdivide", "flatsurf/geometry/categories/similarity_surfaces.py:subdivide_edges"]}
{"id": "C32", "title": "Euler characteristic counts cells; genus is an integer", "statement": "euler_characteristic() is #vertex classes - #edges + #polygons, does not change when subdividing, flipping or joining, and for a closed oriented surface it is even so that genus() is an integer.", "quantifier": "all finite surfaces without boundary", "why_tests_cant": "Parity of orbit counts of arbitrary permutations.", "anchors": ["flatsurf/geometry/categories/polygonal_surfaces.py:euler_characteristic", "flatsurf/geometry/categories/polygonal_surfaces.py:genus"]}
{"id": "C33", "title": "Points of a surface do not depend on the chosen representative", "statement": "Two descriptions (label, coordinates) of a point that are identified by gluings give equal points with equal hashes, and points not identified are different.", "quantifier": "all surfaces, polygons, points on vertices, edges and interiors", "why_tests_cant": "Closure under chains of gluings of any length around a vertex.", "anchors": ["flatsurf/geometry/surface_objects.py:SurfacePoint.__init__", "flatsurf/geometry/surface_objects.py:SurfacePoint.__eq__", "flatsurf/geometry/surface_objects.py:SurfacePoint.__hash__"]}
{"id": "C34", "title": "Minimal covers are surfaces of the promised kind", "statement": "opposite_edge of the minimal translation / half-translation / planar cover is an involution; glued edges of the translation cover are parallel translates with opposite direction; glued edges of the half-translation cover agree up to sign; edges glued in the planar cover coincide in the plane.", "quantifier": "all base surfaces of the applicable category, all labels and edges of the (infinite) cover", "why_tests_cant": "Covers are infinite in general.", "anchors": ["flatsurf/geometry/minimal_cover.py:MinimalTranslationCover", "flatsurf/geometry/minimal_cover.py:MinimalHalfTranslationCover", "flatsurf/geometry/minimal_cover.py:MinimalPlanarCover"]}
{"id": "C35", "title": "Infinite-type example surfaces are glued consistently", "statement": "For the Chamanara surface, the T-fractal, the E-infinity surface, the infinite staircase and origamis, opposite_edge is an involution on all edges and glued edges have matching vectors (opposite vectors for translation surfaces, matching direction for dilation surfaces); every polygon is reachable from the root.", "quantifier": "all (infinitely many) labels and edges and all parameters", "why_tests_cant": "Infinitely many polygons; tests inspect a finite window.", "anchors": ["flatsurf/geometry/chamanara.py:ChamanaraSurface.opposite_edge", "flatsurf/geometry/similarity_surface_generators.py:TFractalSurface.opposite_edge", "flatsurf/geometry/similarity_surface_generators.py:EInfinitySurface.opposite_edge", "flatsurf/geometry/similarity_surface_generators.py:_InfiniteStaircase", "flatsurf/geometry/origami.py:Origami.opposite_edge"]}
{"id": "C36", "title": "Affine images of surfaces keep the gluing pattern", "statement": "GL2RImageSurface.opposite_edge is an involution, glues the images of exactly the edges glued before - also if the matrix reverses orientation, where edges are renumbered - and translation surfaces stay translation surfaces.", "quantifier": "all surfaces, all matrices with non-zero determinant", "why_tests_cant": "All surfaces (also infinite), all numbers of edges.", "anchors": ["flatsurf/geometry/lazy.py:GL2RImageSurface.opposite_edge", "flatsurf/geometry/categories/euclidean_polygons.py:_mul_"]}
{"id": "C37", "title": "Lazy relabeling is consistent at all times", "statement": "LazyRelabeledSurface assigns labels such that translating to the reference surface and back is the identity, opposite_edge is an involution when the reference has one, and answers given earlier never change later.", "quantifier": "all access histories and reference surfaces", "why_tests_cant": "The labels are assigned on demand, depends on query order.", "anchors": ["flatsurf/geometry/lazy.py:LazyRelabeledSurface"]}
{"id": "C38", "title": "Cached methods of surfaces never return stale values", "statement": "A method decorated with cached_surface_method returns, at every moment, the value the undecorated method would return at that moment, provided immutable surfaces do not change.", "quantifier": "all interleavings of calls, mutations and set_immutable", "why_tests_cant": "All schedules of calls and mutations.", "anchors": ["flatsurf/cache.py:cached_surface_method", "flatsurf/cache.py:CachedSurfaceMethod"]}
{"id": "C39", "title": "Simplicial homology is a chain complex", "statement": "The boundary of the boundary of every chain is zero, for every surface and coefficient ring; boundary is linear.", "quantifier": "all surfaces without boundary, all chains", "why_tests_cant": "All surfaces and chains.", "anchors": ["flatsurf/geometry/homology.py:SimplicialHomologyGroup.boundary", "flatsurf/geometry/homology.py:SimplicialHomologyGroup.simplices"]}
{"id": "C40", "title": "Algebraic intersection is a well-defined antisymmetric pairing", "statement": "algebraic_intersection is bilinear and on cycles antisymmetric and depends only on the homology classes (vanishes against boundaries of polygons).", "quantifier": "all surfaces and all cycles", "why_tests_cant": "All surfaces and cycles; depends on arbitrary choices of starting edges at vertices.", "anchors": ["flatsurf/geometry/homology.py:SimplicialHomologyClass.algebraic_intersection"]}
{"id": "C41", "title": "Fundamental group paths multiply and invert correctly", "statement": "The product of two closed paths is the reduced concatenation, p * ~p is trivial, ~~p = p, multiplication is associative and every path produced is a valid path of the surface.", "quantifier": "all surfaces and all paths of any length", "why_tests_cant": "Unbounded words, cancellations of any depth.", "anchors": ["flatsurf/geometry/fundamental_group.py:Path._mul_", "flatsurf/geometry/fundamental_group.py:Path.__invert__", "flatsurf/geometry/fundamental_group.py:FundamentalGroup._element_constructor_"]}
{"id": "C42", "title": "Enumeration and finiteness of matrix groups are right", "statement": "Iterating a finitely generated matrix group yields only group elements, never the same twice, and every element eventually; is_finite() returning False implies the group is infinite and returning True that it is finite; matrix_multiplicative_order returns the order.", "quantifier": "all finite generating sets of 2x2 matrices", "why_tests_cant": "Unbounded words in generators.", "anchors": ["flatsurf/geometry/finitely_generated_matrix_group.py:FinitelyGenerated2x2MatrixGroup.__iter__", "flatsurf/geometry/finitely_generated_matrix_group.py:FinitelyGenerated2x2MatrixGroup.is_finite", "flatsurf/geometry/finitely_generated_matrix_group.py:matrix_multiplicative_order"]}
{"id": "C43", "title": "Interval exchange forward and backward images are inverse", "statement": "For FlowPolygonMap, backward_image(forward_image(p)) = p for all points of the domain and vice versa, and forward images of different intervals do not overlap.", "quantifier": "all lists of lengths and pairings, all points in range", "why_tests_cant": "Continuum of points; any number of intervals.", "anchors": ["flatsurf/geometry/interval_exchange_transformation.py:FlowPolygonMap.forward_image", "flatsurf/geometry/interval_exchange_transformation.py:FlowPolygonMap.backward_image"]}
{"id": "C44", "title": "Circle primitives are geometrically exact", "statement": "circle_from_three_points passes through its three points; point_position says inside/on/outside by comparing distances exactly; closest_point_on_line is the unique minimizer; other_intersection lies on the circle and on the line; applying a similarity to a circle gives the circle of image points.", "quantifier": "all circles, points, lines, similarities over every ordered field", "why_tests_cant": "Continuum.", "anchors": ["flatsurf/geometry/circle.py:Circle", "flatsurf/geometry/circle.py:circle_from_three_points"]}
{"id": "C45", "title": "Tangent vectors have a canonical representative", "statement": "Tangent vectors based on an edge or vertex are moved to the polygon into which they point; vectors related by gluings compare equal; invert() twice is the identity.", "quantifier": "all surfaces and tangent vectors", "why_tests_cant": "Continuum of vectors; chains of gluings around a vertex.", "anchors": ["flatsurf/geometry/tangent_bundle.py:SimilaritySurfaceTangentVector.__init__"]}
{"id": "C46", "title": "Generators of polygon doubles and billiards glue every edge correctly", "statement": "polygon_double and billiard of a convex polygon glue edge i of the polygon to its mirror image such that all edges are glued and glued edges have the same length.", "quantifier": "all convex polygons of any size", "why_tests_cant": "Any number of edges.", "anchors": ["flatsurf/geometry/similarity_surface_generators.py:SimilaritySurfaceGenerators.billiard", "flatsurf/geometry/similarity_surface_generators.py:SimilaritySurfaceGenerators.polygon_double"]}
{"id": "C47", "title": "Membership and counting of the label/edge/gluing views is exact", "statement": "x in S.labels()/S.edges()/S.gluings() holds iff iteration yields x; len agrees with iteration; S.gluings() lists each glued pair in both directions.", "quantifier": "all finite surfaces, all x", "why_tests_cant": "All surfaces and all x, including x that is not an edge.", "anchors": ["flatsurf/geometry/surface.py:Edges.__contains__", "flatsurf/geometry/surface.py:Gluings.__contains__", "flatsurf/geometry/surface.py:Labels.__contains__", "flatsurf/geometry/surface.py:Labels.__len__"]}
{"id": "C48", "title": "Surface category checks look at every gluing", "statement": "is_translation_surface() (is_dilation_surface, is_cone_surface) of a finite surface is true iff every gluing is by a translation (dilation, isometry).", "quantifier": "all finite surfaces", "why_tests_cant": "All surfaces; the check skips gluings it has seen from the other side.", "anchors": ["flatsurf/geometry/categories/translation_surfaces.py:_is_translation_surface", "flatsurf/geometry/categories/dilation_surfaces.py:_is_dilation_surface", "flatsurf/geometry/categories/cone_surfaces.py:_is_cone_surface"]}
{"id": "C49", "title": "Ramified covers are covers", "statement": "ramified_cover(d, data) is a surface with d copies of each polygon where crossing an edge lifts crossing the edge in the base and permutes sheets by the given permutation; going back undoes it.", "quantifier": "all surfaces, degrees and permutations", "why_tests_cant": "All degrees and permutations.", "anchors": ["flatsurf/geometry/categories/similarity_surfaces.py:ramified_cover"]}
{"id": "C50", "title": "Comparison of polygons and surfaces is a total order consistent with equality", "statement": "cmp(a,b)=0 iff equal, cmp(a,b) = -cmp(b,a), and cmp is transitive; for surfaces cmp distinguishes surfaces that differ.", "quantifier": "all pairs and triples", "why_tests_cant": "Relational laws over an infinite set.", "anchors": ["flatsurf/geometry/surface.py:MutableOrientedSimilaritySurface.cmp", "flatsurf/geometry/polygon.py:EuclideanPolygon.cmp"]}
{"id": "C51", "title": "Hyperbolic models agree", "statement": "Converting a point between the upper half plane and the Klein disk and back is the identity; geodesics given by an equation in one model contain exactly the converted points; half spaces likewise.", "quantifier": "all points and geodesics over every ordered field", "why_tests_cant": "Continuum.", "anchors": ["flatsurf/geometry/hyperbolic.py:HyperbolicPlane.point", "flatsurf/geometry/hyperbolic.py:HyperbolicPoint.coordinates", "flatsurf/geometry/hyperbolic.py:HyperbolicPlane.geodesic", "flatsurf/geometry/hyperbolic.py:HyperbolicGeodesic.equation", "flatsurf/geometry/hyperbolic.py:HyperbolicHalfSpace.__contains__"]}
{"id": "C52", "title": "Hyperbolic isometries act consistently", "statement": "The 3x3 matrix associated to a 2x2 matrix preserves the quadratic form up to scaling and is multiplicative; applying it to a point in the Klein model is the Moebius action on the upper half plane; applying an isometry to a geodesic or half space gives the set of images of its points.", "quantifier": "all invertible 2x2 matrices and points over every ordered field", "why_tests_cant": "Continuum.", "anchors": ["flatsurf/geometry/hyperbolic.py:HyperbolicPlane._isometry_gl2_to_sim12", "flatsurf/geometry/hyperbolic.py:HyperbolicConvexSet.apply_isometry", "flatsurf/geometry/hyperbolic.py:HyperbolicGeodesic._apply_isometry_klein"]}
{"id": "C53", "title": "Morphism composition and sections compose correctly", "statement": "The image of a point under a composed morphism is the composition of the images; section of a composition is composition of the sections in reverse order, and is a section when the factors' are; composing with identity changes nothing; nesting of compositions does not matter.", "quantifier": "all chains of composable morphisms of any length", "why_tests_cant": "Any number of factors and bracketings.", "anchors": ["flatsurf/geometry/morphism.py:CompositionMorphism", "flatsurf/geometry/morphism.py:SectionMorphism", "flatsurf/geometry/morphism.py:SurfaceMorphism._composition"]}
{"id": "C54", "title": "Flips act on homology compatibly", "statement": "The matrix used to transport chains of edges across a Delaunay flip sends boundaries to boundaries and is inverse to the matrix of the reverse flip up to boundaries, so induces an isomorphism on homology.", "quantifier": "all triangulated surfaces and flips", "why_tests_cant": "All surfaces.", "anchors": ["flatsurf/geometry/morphism.py:DelaunayTriangulationMorphism._image_homology_edge_chain_matrix_flip"]}
{"id": "C55", "title": "Mega-Wollmilchsau group obeys the group laws", "statement": "The group used to label squares of the Mega-Wollmilchsau is a group: multiplication is associative, has a unit and inverses, so opposite_edge is an involution.", "quantifier": "all group elements with unit quaternion part", "why_tests_cant": "Infinite group.", "anchors": ["flatsurf/geometry/mega_wollmilchsau.py:MegaWollmilchsauGroupElement._mul_", "flatsurf/geometry/mega_wollmilchsau.py:MegaWollmilchsauGroupElement.__invert__"]}
{"id": "C56", "title": "Lazy triangulation and Delaunay cells present the same surface", "statement": "opposite_edge of LazyTriangulatedSurface is an involution on triangle edges which across original edges is the original gluing; the walk that collects a Delaunay cell yields a closed boundary word.", "quantifier": "all surfaces without boundary, also infinite", "why_tests_cant": "Infinite surfaces; lazily evaluated.", "anchors": ["flatsurf/geometry/lazy.py:LazyTriangulatedSurface.opposite_edge", "flatsurf/geometry/lazy.py:LazyDelaunaySurface._cell"]}
{"id": "C57", "title": "slope reports the slope after an infinitesimal rotation", "statement": "slope(a, rotate=1) (rotate=-1) is +1 or -1 and equals the sign of the slope of the vector a rotated counterclockwise (clockwise) by any sufficiently small amount; the zero vector is rejected.", "quantifier": "all non-zero vectors over every ordered field and all sufficiently small rotations", "why_tests_cant": "Quantifies over all small rotations.", "anchors": ["flatsurf/geometry/euclidean.py:slope"]}
{"id": "C58", "title": "Polygon(vertices=...) accepts exactly the simple counterclockwise vertex lists", "statement": "Creating a polygon from a list of vertices succeeds exactly if there are at least three vertices, the signed area is positive, no edge is zero, no two consecutive edges point in opposite directions, and any two sides that do not share a vertex are disjoint. Acceptance does not change when the vertex list is rotated or translated.", "quantifier": "all vertex lists of any length over every ordered field", "why_tests_cant": "All lengths and all coordinates; disjointness of sides is a statement about infinitely many points.", "anchors": ["flatsurf/geometry/polygon.py:Polygon", "flatsurf/geometry/polygon.py:_Polygon_check", "flatsurf/geometry/categories/euclidean_polygons.py:EuclideanPolygons.ParentMethods.is_simple"]}
{"id": "C59", "title": "Intersection numbers of closed paths are a bilinear alternating invariant", "statement": "The intersection number of two elements of the fundamental group is antisymmetric, additive under concatenation of paths, changes sign when a path is inverted, and does not change when backtracking is inserted into or removed from a path.", "quantifier": "all pairs of closed paths of any length on every closed surface", "why_tests_cant": "All surfaces and all paths of any length.", "anchors": ["flatsurf/geometry/fundamental_group.py:Path.intersection", "flatsurf/geometry/fundamental_group.py:intersection"]}
{"id": "C60", "title": "rotation of tangent vectors finds the first parallel vector", "statement": "At a vertex of a closed translation surface whose polygons have only angles smaller than pi, clockwise_to(w) and counterclockwise_to(w) return the first tangent vector with direction w that is met when the vector is rotated, a full turn being made if the vector already points in the direction w; with code=True the edges that have been crossed are returned in order. With at most 100 sectors at the vertex clockwise_to always succeeds, and if 100 edges have been crossed in vain there is a ValueError.", "quantifier": "for all translation surfaces (finite or infinite), all vertices with any number of sectors, all tangent vectors at vertices and all nonzero directions w", "why_tests_cant": "tests rotate a few vectors on two or three surfaces; cone angles, numbers of sectors and directions are unbounded", "anchors": ["flatsurf/geometry/tangent_bundle.py:SimilaritySurfaceTangentVector.clockwise_to", "flatsurf/geometry/tangent_bundle.py:SimilaritySurfaceTangentVector.counterclockwise_to"]}
{"id": "C61", "title": "Point position in non-convex polygons agrees with the triangulation", "statement": "For every simple polygon (convex or not) and every point, get_point_position classifies the point as outside exactly if all the triangles returned by triangulate() do; triangles with different labels do not overlap; the position does not change along a segment that does not meet the boundary; and any point that a line separates from the vertices is outside.", "quantifier": "all simple polygons with any number of vertices over any ordered field, all points of the plane", "why_tests_cant": "A test samples finitely many points of finitely many polygons; that the crossing number is 0 or 1 at every point and that it is 1 exactly on the union of the triangles is a statement about all points of all simple polygons (a polygonal Jordan curve theorem).", "anchors": ["flatsurf/geometry/categories/euclidean_polygons.py:get_point_position", "flatsurf/geometry/categories/euclidean_polygons.py:triangulate"]}
{"id": "C62", "title": "Lazy Delaunay triangulations are consistent", "statement": "Once the lazy Delaunay triangulation of a closed triangulated surface has returned a triangle or a gluing, every later access returns the same triangle or gluing, whatever has been accessed in between, including accesses that raised; opposite_edge is an involution; the circumscribed circle of every triangle that was returned, developed across the surface, has no vertex inside, so once all triangles have been returned is_delaunay_triangulated() is True; the recorded flips, replayed on the original surface, give the triangulation; no assertion of the implementation ever fails; and the answers do not depend on the order of the accesses.", "quantifier": "all closed triangulated oriented similarity surfaces with finitely many triangles over any ordered field, all sequences of accesses to polygons and gluings, all choices that set.pop() makes (the same choices for the independence of the order)", "why_tests_cant": "Tests access some triangles of some surfaces in one order; flips that are made for one access change the surface underneath the triangles that have already been handed out, so whether these stay correct is a statement about all interleavings of accesses and flips.", "anchors": ["flatsurf/geometry/lazy.py:LazyDelaunayTriangulatedSurface.polygon", "flatsurf/geometry/lazy.py:LazyDelaunayTriangulatedSurface.opposite_edge", "flatsurf/geometry/lazy.py:LazyDelaunayTriangulatedSurface._certify", "flatsurf/geometry/lazy.py:LazyDelaunayTriangulatedSurface._certify_walk"]}
{"id": "C63", "title": "Vertex angles and turns are measured by the corners around the vertex", "statement": "angle() of a polygon at a vertex is the number of turns from the edge leaving it counterclockwise to the reversed edge entering it, strictly between 0 and 1; edges_ccw() at a vertex lists each corner exactly once in counterclockwise order starting at the requested edge (or at the boundary); the angle at a vertex of a surface, computed from turns(), is the sum of the angles of the corners at that vertex; it is a positive integer on translation surfaces and a positive multiple of 1/2 on half-translation surfaces; a start edge that is not the first edge on the boundary raises a ValueError.", "quantifier": "all oriented similarity surfaces with or without boundary over any ordered field embedded in the reals, all vertices with any finite number of corners", "why_tests_cant": "Tests compare angles of a handful of surfaces; that counting sign changes of vectors transported around the vertex gives the sum of the corner angles is a statement about every cone angle, every number of corners and every holonomy.", "anchors": ["flatsurf/geometry/categories/similarity_surfaces.py:SurfacePoint.turns", "flatsurf/geometry/categories/similarity_surfaces.py:edges_ccw", "flatsurf/geometry/categories/similarity_surfaces.py:_angle_vertex", "flatsurf/geometry/euclidean.py:angle", "flatsurf/geometry/categories/euclidean_polygons.py:angle"]}
{"id": "C64", "title": "Angles satisfy the formula of Gauss and Bonnet and strata have the right total degree", "statement": "The angles of a simple polygon with n vertices sum up to n/2 - 1 turns; for every surface, the Euler characteristic returned by the surface is the sum of 1 - a over the returned angles a, plus 1/2 for each edge glued to itself, minus 1/2 for each edge on the boundary; stratum() of a closed translation surface consists of nonnegative integers whose sum is 2g - 2 where g is the returned genus; stratum() of a closed half-translation surface consists of integers at least -1 whose sum is 4g - 4, or raises NotImplementedError exactly if all angles are integers and no edge is glued to itself.", "quantifier": "all simple polygons with any number of vertices and all finite surfaces over any ordered field embedded in the reals", "why_tests_cant": "Relates independent computations (angles, genus, strata) on all surfaces of all genera and any number of polygons.", "anchors": ["flatsurf/geometry/categories/euclidean_polygons.py:angles", "flatsurf/geometry/categories/similarity_surfaces.py:angles", "flatsurf/geometry/categories/translation_surfaces.py:stratum", "flatsurf/geometry/categories/half_translation_surfaces.py:stratum", "flatsurf/geometry/categories/polygonal_surfaces.py:genus"]}
{"id": "C65", "title": "The angle at a point is the sum of the angles of the polygons there", "statement": "point.angle() is the sum over all representatives of the point of the angle that the polygon has there: a full turn in the interior, a half turn on an edge, the angle between the edges at a vertex.", "quantifier": "all surfaces with or without boundary, all points of all polygons", "why_tests_cant": "All points of all surfaces, including the special positions on boundary edges and on edges glued to themselves.", "anchors": ["flatsurf/geometry/categories/similarity_surfaces.py:SurfacePoint.angle", "flatsurf/geometry/surface_objects.py:SurfacePoint"]}
{"id": "C66", "title": "Flowing a point to the boundary of a polygon", "statement": "flow_to_exit(point, direction), for a point of the closed polygon and a direction that does not leave the polygon right away, returns the first point in which the ray meets the boundary again together with its position; on the way the ray runs in the interior, or along one edge to an end of that edge; after that point the ray leaves the polygon, unless the point is a vertex. A zero direction, a direction that leads out of the polygon right away and a point outside of the polygon raise ValueError.", "quantifier": "all simple polygons, convex or not, with any number of vertices over any ordered field, all points and directions", "why_tests_cant": "Depends on the position of the ray relative to all edges, including rays through vertices, along edges, and from reflex vertices; tests cover a few rays.", "anchors": ["flatsurf/geometry/categories/euclidean_polygons.py:flow_to_exit", "flatsurf/geometry/euclidean.py:ray_segment_intersection", "flatsurf/geometry/euclidean.py:time_on_ray"]}
{"id": "C67", "title": "Straight line trajectories", "statement": "On a surface without boundary, the trajectory of every tangent vector can be flowed forwards and backwards any number of times without an error. Its segments are maximal segments in polygons (through the interior from boundary to boundary, or along an edge); the segment of the tangent vector is one of them; each segment starts with the inverse of the end of the segment before; the opposite of the edge on which a segment ends is the edge on which the next one starts. No segment is repeated, not even up to scaling. flow(m) followed by flow(n) is flow(m+n). Fewer segments than asked for are added only when a vertex is reached or the trajectory is closed. is_closed() holds exactly if the last segment is followed by the first one up to scaling (exactly by the first one, if gluings preserve lengths), is_saddle_connection() exactly if both ends are vertices. coding() lists the edge of the start, the edges crossed and the edge of the end; cylinder() of a closed trajectory is created from the edges over which its segments leave their polygons. next() and previous() are inverse to each other.", "quantifier": "all surfaces without boundary, finite or infinite, with simple polygons over any ordered field, all tangent vectors, all sequences of flow steps", "why_tests_cant": "Trajectories can be arbitrarily long and pass through reflex vertices, along edges, or over self-glued edges; tests run a few trajectories.", "anchors": ["flatsurf/geometry/straight_line_trajectory.py:SegmentInPolygon", "flatsurf/geometry/straight_line_trajectory.py:StraightLineTrajectory", "flatsurf/geometry/straight_line_trajectory.py:AbstractStraightLineTrajectory.coding", "flatsurf/geometry/straight_line_trajectory.py:AbstractStraightLineTrajectory.cylinder", "flatsurf/geometry/tangent_bundle.py:SimilaritySurfaceTangentVector.forward_to_polygon_boundary"]}
{"id": "C68", "title": "Saddle connections are straight segments between vertices, found completely", "statement": "A saddle connection built from a start vertex and a direction is the straight segment that leaves the vertex in that direction and ends at the first vertex it meets, whatever positive multiple of the direction is given; there is at most one such segment. With check=True exactly the saddle connections are accepted. The inverse of a saddle connection is a saddle connection and inverting twice gives back the original. saddle_connections(squared_length_bound) of a compact surface whose polygons are strictly convex returns after finitely many steps, and its result consists of exactly the saddle connections with holonomy within the bound, each once; with each of them it contains its inverse.", "quantifier": "all surfaces of isometrically glued polygons with finitely many labels, all start vertices and directions, all bounds", "why_tests_cant": "there are infinitely many surfaces and bounds; that nothing is missing from the list, and that the search returns at all, is not visible in any run", "anchors": ["flatsurf/geometry/surface_objects.py:SaddleConnection.__init__", "flatsurf/geometry/surface_objects.py:SaddleConnection.invert", "flatsurf/geometry/surface_objects.py:SaddleConnection.__eq__", "flatsurf/geometry/categories/similarity_surfaces.py:saddle_connections"]}
{"id": "C69", "title": "A cylinder is the union of the closed straight lines through its edges", "statement": "If Cylinder(surface, label, edges) can be created then there is a closed straight line that starts in the polygon with this label and crosses these edges; conversely the cylinder around a closed straight line can be created. The parts of polygons of the cylinder consist of exactly the points on the closed straight lines that cross the same edges. They do not overlap if the line goes around only once. The area of the cylinder is its circumference times its width, its boundary consists of saddle connections in the direction of the line (on the right) and in the opposite direction (on the left), and its holonomy is the holonomy of the line. The cylinder of a closed trajectory is the cylinder around it.", "quantifier": "all surfaces with polygons glued along all of their edges, all labels and lists of edges, all closed straight lines", "why_tests_cant": "surfaces and lists of edges are infinite in number; whether all the closed lines are seen, and whether the parts overlap, is not visible in any of the outputs", "anchors": ["flatsurf/geometry/surface_objects.py:Cylinder.__init__", "flatsurf/geometry/surface_objects.py:Cylinder.area", "flatsurf/geometry/surface_objects.py:Cylinder.holonomy", "flatsurf/geometry/surface_objects.py:Cylinder.boundary", "flatsurf/geometry/straight_line_trajectory.py:cylinder"]}
{"id": "C70", "title": "Homology groups have the ranks of a closed surface", "statement": "For a connected closed surface, genus() is a natural number g. SimplicialHomology(surface, k) is a free module over the coefficients: of rank 1, 2g and 1 for k = 0, 1 and 2. Relative to n > 0 vertices, the rank for k = 1 is 2g + n - 1 and the homology for k = 0 is zero. In particular there is no torsion, for any coefficients in a principal ideal domain.", "quantifier": "all connected closed surfaces with finitely many polygons of any shape, all sets of vertices, all principal ideal domains as coefficients", "why_tests_cant": "the ranks hold for infinitely many combinatorial types; that integer homology has no torsion and that the rank agrees with the genus computed from angles of gluings is a theorem of topology for the whole family and cannot be sampled", "anchors": ["flatsurf/geometry/homology.py:SimplicialHomologyGroup._homology", "flatsurf/geometry/homology.py:SimplicialHomologyGroup._chain_complex", "flatsurf/geometry/homology.py:SimplicialHomologyGroup.simplices", "flatsurf/geometry/homology.py:SimplicialHomologyGroup.boundary", "flatsurf/geometry/categories/polygonal_surfaces.py:genus"]}
{"id": "C71", "title": "The intersection form on homology is unimodular and has symplectic bases", "statement": "On a closed connected surface without edges that are glued to themselves, algebraic_intersection is an alternating form on the first homology, and a perfect pairing: every linear form on homology is the intersection with exactly one class, so a class that does not intersect any class is zero. Therefore symplectic_basis() never raises NotImplementedError, over the integers and over fields, and returns a basis of homology of 2g classes with e_i.e_j = f_i.f_j = 0 and e_i.f_j = 1 if i = j and 0 otherwise.", "quantifier": "all closed connected surfaces of any number of polygons without self-glued edges, all orders in which vertices are visited, all bases of homology, all principal ideal domains", "why_tests_cant": "Tests compute symplectic bases of a few surfaces. That the matrix of intersections is always invertible over the integers is Poincare duality for the surfaces that the code describes, and has to be proved.", "anchors": ["flatsurf/geometry/homology.py: SimplicialHomologyGroup.symplectic_basis", "flatsurf/geometry/homology.py: SimplicialHomologyClass.algebraic_intersection"]}
{"id": "C72", "title": "Trajectories through interval maps are the straight-line trajectories", "statement": "For every convex polygon and every nonzero direction, flow_map(direction) exists, and forward_image maps the point at which a line enters to the point at which it leaves (backward_image maps it back). A StraightLineTrajectoryTranslation on a translation surface built from convex polygons has the same segments as the StraightLineTrajectory from the same tangent vector, after any sequence of calls of flow(), forward and backward; is_closed, is_forward_separatrix, is_backward_separatrix and is_saddle_connection agree.", "quantifier": "all translation surfaces built from convex polygons (finite or infinite), all tangent vectors, all sequences of steps", "why_tests_cant": "the two classes agree on the few surfaces and directions of the doctests; whether a vertex is recognised depends on how many vertices of the polygon the line passes, so that wrong answers only show up for special polygons and directions", "anchors": ["flatsurf/geometry/categories/euclidean_polygons.py: flow_map", "flatsurf/geometry/interval_exchange_transformation.py: FlowPolygonMap", "flatsurf/geometry/straight_line_trajectory.py: StraightLineTrajectoryTranslation"]}
{"id": "C73", "title": "Origamis are the square-tiled surfaces of their permutations", "statement": "An origami of two permutations r and u is a translation surface without boundary: r(a) is to the right of the square a and u(a) is above it. It is connected if and only if the permutations act transitively. Its vertices are the cycles of the commutator of r and u; the angle at a vertex is the length of the cycle, and the stratum consists of these lengths minus one, with sum 2g - 2. When the inverse maps are given explicitly then the constructor refuses maps that are not inverse to each other.", "quantifier": "all sets of squares, finite or infinite, all permutations of them, all maps given as inverses", "why_tests_cant": "the permutations of a set of any size cannot be enumerated, and an infinite origami cannot be checked square by square; the constructor only looks at some elements", "anchors": ["flatsurf/geometry/origami.py:AbstractOrigami", "flatsurf/geometry/origami.py:Origami"]}
{"id": "C74", "title": "Thurston-Veech surfaces have multitwists with the given multiplicities", "statement": "ThurstonVeech(hp, vp)(hmult, vmult) with positive multiplicities returns an immutable translation surface without boundary that is built from one rectangle for each square, glued as the permutations say. There are numbers c and d such that the multiplicity times the circumference of each horizontal cylinder is c times its height and the multiplicity times the circumference of each vertical cylinder is d times its width; c d is the eigenvalue. The surface is connected if and only if the permutations act transitively, and its stratum is the one of the origami, whatever the multiplicities are. Lists of multiplicities of wrong lengths are refused.", "quantifier": "all permutations of any number of squares, all positive multiplicities, all ordered fields that contain the eigenvalue", "why_tests_cant": "the moduli of the cylinders come from an eigenvector of a matrix that depends on all of the input; tests look at the base ring of a few surfaces only", "anchors": ["flatsurf/geometry/thurston_veech.py:ThurstonVeech.__init__", "flatsurf/geometry/thurston_veech.py:ThurstonVeech.__call__", "flatsurf/geometry/thurston_veech.py:ThurstonVeech.stratum"]}
{"id": "C75", "title": "`triangulation()` cuts every polygon into triangles along chords", "statement": "For every polygon with n vertices that can be created, convex or not, `triangulation()` returns n - 3 pairs of indices of vertices, no assertion fails. The segments between the vertices of a pair are inside of the polygon (except for the end points), no two of them meet except at end points, and together with the sides of the polygon they bound n - 2 triangles with counterclockwise vertices: every segment is a side of exactly two of them, every side of the polygon of exactly one. The triangles cover exactly the polygon and do not overlap. With fewer than three vertices, `ValueError` is raised.", "quantifier": "all polygons that pass the checks of `Polygon()`, over every ordered field, including polygons with straight and reflex angles", "why_tests_cant": "The search cuts along the first acceptable chord and trusts that both parts are polygons with the same orientation, created without checks; that there is always an acceptable chord (the function ends with `assert False`), that cutting along it is right, and that indices are translated back correctly for all sequences of cuts is not covered by examples.", "anchors": ["flatsurf/geometry/categories/euclidean_polygons.py:EuclideanPolygons.Simple.ParentMethods.triangulation", "flatsurf/geometry/euclidean.py:is_between", "flatsurf/geometry/euclidean.py:is_segment_intersecting"]}
{"id": "C76", "title": "`canonicalize()` decides whether surfaces are the same up to translation", "statement": "For a connected translation surface without boundary, `canonicalize()` returns an immutable surface that differs from the Delaunay decomposition only by the labels, the first vertices and the positions of the polygons. The labels are 0, 1, 2, ... in the order of `labels()`, the root is 0, and every polygon has its lowest vertex (the leftmost one of these) as vertex 0 at the origin. The results for two surfaces are equal, and have equal hashes, if and only if their Delaunay decompositions differ only by labels, first vertices and positions of polygons. No exception is raised.", "quantifier": "all connected surfaces without boundary built from any number of polygons with any number of edges, over all ordered fields, with any labels and roots", "why_tests_cant": "that two descriptions of the same surface lead to the same result depends on a comparison of all possible roots; tests compare a few surfaces with themselves after moving a polygon; that different surfaces are never identified cannot be tested", "anchors": ["flatsurf/geometry/categories/translation_surfaces.py:TranslationSurfaces.FiniteType.WithoutBoundary.ParentMethods.canonicalize", "flatsurf/geometry/surface.py:MutableOrientedSimilaritySurface.standardize_polygons", "flatsurf/geometry/categories/similarity_surfaces.py:SimilaritySurfaces.Oriented.ParentMethods.standardize_polygons"]}
{"id": "C77", "title": "Homology and cohomology classes are what their coefficients say", "statement": "Two cycles are equal as homology classes if and only if they differ by the boundary of a combination of polygons; equal classes have equal hashes. A class is the combination of `gens()` with its `coefficients()` and with no other coefficients; coefficients are additive, and asking for the coefficients of a chain that is not a cycle raises `ValueError`. `coefficient(gen)` accepts exactly the classes equal to a generator. A cohomology class is a homomorphism: its value only depends on the homology class, it is additive in the homology class and in the cohomology class, and `gens()` of the cohomology is dual to `gens()` of the homology. `bool()` of a class is false exactly if the class equals zero.", "quantifier": "all homology groups of surfaces without self-glued edges, all choices of generators, all chains, all coefficient rings that are principal ideal domains", "why_tests_cant": "equality is modulo boundaries of all combinations of polygons, of which there are infinitely many; tests compare a few hand-written chains, and never a nonzero boundary", "anchors": ["flatsurf/geometry/homology.py:SimplicialHomologyClass", "flatsurf/geometry/homology.py:SimplicialHomologyGroup", "flatsurf/geometry/cohomology.py:SimplicialCohomologyClass", "flatsurf/geometry/cohomology.py:SimplicialCohomologyGroup"]}
{"id": "C78", "title": "Morphisms act on homology as homomorphisms", "statement": "A morphism of homology groups built from a matrix with `hom()` has this matrix, maps the generators to the classes given by its columns and rejects matrices of the wrong shape. `f(x)` multiplies coefficients with the matrix, depends only on the class of `x` and is additive; sums, negatives, multiples, compositions and the identity of morphisms are what they say, and `bool()` tells whether some class has a nonzero image. The identity of a surface, `matrix * surface`, `subdivide_edges()` and `triangulate()` act on homology: every class has an image, without an error, and the image of a cycle is the class of the cycle that consists of the images of its edges.", "quantifier": "all homology groups, matrices and classes; all closed surfaces without self-glued edges with any number of polygons and edges, all choices of generators, all rings of coefficients", "why_tests_cant": "that the image of a class does not depend on the cycle that represents it, and that images of boundaries are boundaries, is a statement about all chains on all surfaces; tests evaluate a few generators of a torus", "anchors": ["flatsurf/geometry/homology.py:SimplicialHomologyGroup.hom", "flatsurf/geometry/homology.py:SimplicialHomologyMorphism_base", "flatsurf/geometry/morphism.py:SurfaceMorphism._image_homology", "flatsurf/geometry/morphism.py:SurfaceMorphism._image_homology_matrix", "flatsurf/geometry/morphism.py:GL2RMorphism._image_homology_edge", "flatsurf/geometry/morphism.py:SubdivideEdgesMorphism._image_homology_edge"]}
{"id": "C79", "title": "The homology class of a saddle connection has the right boundary and the right holonomy", "statement": "For a saddle connection of a closed surface, `H(saddle_connection)` is a chain of edges whose boundary is the end point minus the start point of the saddle connection (so it is a cycle exactly if the two points agree); on a translation surface the vectors of the edges, with the coefficients of the chain, add up to the holonomy of the saddle connection; and the classes of a saddle connection and of the same saddle connection traversed in the other direction add up to a boundary.", "quantifier": "for all closed surfaces over all ordered fields, all rings of coefficients and all saddle connections, whatever number of polygons they cross", "why_tests_cant": "a test follows a few short saddle connections on a few surfaces; the path of edges depends on the corners of every polygon that is crossed, and long saddle connections cross arbitrarily many", "anchors": ["flatsurf/geometry/surface_objects.py:SaddleConnection._homology_", "flatsurf/geometry/homology.py:SimplicialHomologyGroup", "flatsurf/geometry/straight_line_trajectory.py:StraightLineTrajectory"]}
{"id": "C80", "title": "Intersections of hyperbolic half spaces and convex sets are correct", "statement": "HyperbolicPlane.polygon() and HyperbolicPlane.intersection() never fail on a non-empty sequence of half spaces or convex sets, whatever random choices are made: the returned set contains exactly the finite and ideal points that are in all of the given sets, it is of the right kind (empty, point, segment, geodesic, half space, polygon) and the half spaces of a returned polygon are sorted and irredundant. half_spaces() of a set are half spaces whose intersection is that set, the order of half spaces is a strict total order, and `in` decides membership.", "quantifier": "for all ordered base fields, all lists of half spaces of any length in any order, all random choices, all points over all ordered extension fields", "why_tests_cant": "tests intersect a handful of half spaces with few random choices; degenerate configurations (parallel, concurrent, touching at ideal points) are too many to enumerate", "anchors": ["flatsurf/geometry/hyperbolic.py:HyperbolicPlane.polygon", "flatsurf/geometry/hyperbolic.py:HyperbolicPlane.intersection", "flatsurf/geometry/hyperbolic.py:HyperbolicConvexPolygon._normalize", "flatsurf/geometry/hyperbolic.py:HyperbolicHalfSpaces._lt_", "flatsurf/geometry/hyperbolic.py:HyperbolicConvexSet.__contains__"]}
{"id": "C81", "title": "Equality and inclusion of hyperbolic convex sets are decided correctly", "statement": "Convex sets in the hyperbolic plane that are returned by polygon() or intersection() compare as equal iff they contain the same points. In particular, polygon() returns the same set for all descriptions of a set by half spaces, whatever the order, redundant half spaces or random choices. is_subset() never fails, returns True only if all points of the set (even those not defined over the base ring) are in the other set and returns False only if some point defined over the base ring is not in the other set. dimension() is monotone.", "quantifier": "for all ordered base fields, all convex sets with any number of edges, all random choices", "why_tests_cant": "equality relies on a canonical form for all descriptions of a set; tests compare a few examples", "anchors": ["flatsurf/geometry/hyperbolic.py:HyperbolicConvexSet.is_subset", "flatsurf/geometry/hyperbolic.py:HyperbolicConvexPolygon.__eq__", "flatsurf/geometry/hyperbolic.py:HyperbolicSegment.__eq__", "flatsurf/geometry/hyperbolic.py:OrderedSet.__eq__"]}
{"id": "C82", "title": "Convex hulls in the hyperbolic plane are correct", "statement": "HyperbolicPlane.convex_hull() of points, segments, geodesics and half spaces returns a convex set in normal form that contains exactly the finite and ideal points of the convex hull, i.e., of the smallest convex set that contains all the given sets.", "quantifier": "for all ordered base fields, all lists of sets of any length in any order, all random choices, all points over all ordered extension fields", "why_tests_cant": "tests compute the hull of a handful of sets; the scan has to be right for all configurations of vertices, including collinear ones and half spaces that swallow edges", "anchors": ["flatsurf/geometry/hyperbolic.py:HyperbolicPlane.convex_hull", "flatsurf/geometry/hyperbolic.py:HyperbolicHalfSpaces.convex_hull"]}
{"id": "C83", "title": "Edges of a hyperbolic polygon", "statement": "For every convex polygon P of the hyperbolic plane that is the intersection of finitely many half spaces, P.edges() has exactly one edge per half space in P.half_spaces(), in the same counterclockwise order; the edge consists of exactly those points of P that lie on the boundary of the half space, has more than one point, and ends where the next edge starts unless that end is ideal.", "quantifier": "all polygons in normal form with two or more half spaces over any ordered field, all points with coordinates in any ordered extension field", "why_tests_cant": "The edges are computed from the configurations of neighbouring boundaries only; that this is enough for ideal and missing corners and any number of half spaces is a statement about all arrangements of lines in the disk.", "anchors": ["flatsurf/geometry/hyperbolic.py:HyperbolicConvexPolygon.edges", "flatsurf/geometry/hyperbolic.py:HyperbolicEdges._lt_"]}
{"id": "C84", "title": "Vertices of a hyperbolic polygon", "statement": "For every convex polygon P of the hyperbolic plane, P.vertices() contains each corner of P exactly once and in counterclockwise order, where the corners are the points of P on two of its bounding geodesics and the ideal points of P on one of them, together with the marked vertices; a ValueError is raised only if an ideal corner has no coordinates in the base field.", "quantifier": "all polygons in normal form over any ordered field, with and without marked vertices on their edges", "why_tests_cant": "The order compares slopes as seen from the leftmost vertex in the Klein model and merges entries that compare as equal; whether this loses a vertex depends on collinearities that random examples do not have.", "anchors": ["flatsurf/geometry/hyperbolic.py:HyperbolicConvexPolygon.vertices", "flatsurf/geometry/hyperbolic.py:HyperbolicVertices", "flatsurf/geometry/hyperbolic.py:OrderedSet._merge"]}
{"id": "C85", "title": "Intersections of trajectories are the points at which they cross", "statement": "On a surface made of strictly convex polygons, `a.intersections(b)` yields every point once, and it yields exactly the points in which a segment of a and a segment of b, in the same polygon and not parallel to each other, meet (vertices only with `count_singularities=True`). `intersects` tells whether there is such a point. With `include_segments=True` the same points come in the same order, each with the set of the segments of a that meet b in it and the set of the segments of b that meet a in it. If a and b are closed or saddle connections, then away from the vertices these are exactly the points of the surface at which a and b cross, no matter in which polygons the point is described.", "quantifier": "all surfaces made of strictly convex polygons, all pairs of trajectories with any number of segments", "why_tests_cant": "The code intersects the lines through the segments and only looks whether the point is in the polygon; that this is the intersection of the segments, that no crossing on an edge is missed because the segments are in different polygons, and that points on edges are not reported twice are statements about all trajectories on all surfaces, which examples on tori do not settle.", "anchors": ["flatsurf/geometry/straight_line_trajectory.py:AbstractStraightLineTrajectory.intersections", "flatsurf/geometry/straight_line_trajectory.py:AbstractStraightLineTrajectory.intersects", "flatsurf/geometry/straight_line_trajectory.py:SegmentInPolygon"]}
{"id": "C86", "title": "Angles and strata of unfolded billiards are right", "statement": "For a family of polygons with prescribed angles: the normalized angles are proportional to the given ones and have the angle sum of a polygon, and exactly the lists that make sense are accepted; the integral angles are proportional to the angles and have no common divisor; billiard_unfolding_angles returns for each cover type the cone angles of the cover of the pillowcase that belongs to the holonomy group (one point per coset of the local rotation, with the cone angle times the order of the local rotation); the degrees in billiard_unfolding_stratum add up to 2g-2 (Abelian) or 4g-4 (quadratic) for an integer g, and billiard_unfolding_stratum_dimension is the dimension of that stratum.", "quantifier": "all lists of positive rational angles, all cover types, with and without marked points", "why_tests_cant": "The answer is given by arithmetic with numerators, denominators and parities; each test checks one list of angles.", "anchors": ["flatsurf/geometry/categories/euclidean_polygons_with_angles.py:EuclideanPolygonsWithAngles.SubcategoryMethods.billiard_unfolding_angles", "flatsurf/geometry/categories/euclidean_polygons_with_angles.py:EuclideanPolygonsWithAngles.SubcategoryMethods.billiard_unfolding_stratum", "flatsurf/geometry/categories/euclidean_polygons_with_angles.py:EuclideanPolygonsWithAngles.SubcategoryMethods.billiard_unfolding_stratum_dimension", "flatsurf/geometry/categories/euclidean_polygons_with_angles.py:EuclideanPolygonsWithAngles._normalize_angles"]}
{"id": "C87", "title": "Flowing a point along a vector inside of a convex polygon stops at the right place", "statement": "For a convex polygon, a point of the polygon and a vector that does not leave the polygon at once, flow(point, holonomy) returns the end point and a zero vector when the segment does not reach the boundary, and otherwise the point where the ray leaves the polygon, the rest of the vector and the position (edge or vertex) of that point; the point stays in the polygon up to there and is outside afterwards. A vector that leaves the polygon at once raises a ValueError. A translation moves the polygon. find_separatrix(direction, start_vertex) always finds the first vertex from which the direction or its opposite runs into the polygon, and says which one.", "quantifier": "all convex polygons (including those with angles equal to pi), all points, vectors, translations, directions and start vertices, over all ordered fields", "why_tests_cant": "Which edge is hit depends on the geometry of the polygon, the special cases are vertices and rays along edges; a test checks finitely many rays.", "anchors": ["flatsurf/geometry/categories/euclidean_polygons.py:EuclideanPolygons.Simple.Convex.ParentMethods.flow", "flatsurf/geometry/categories/euclidean_polygons.py:EuclideanPolygons.Simple.Convex.ParentMethods.find_separatrix"]}
{"id": "C88", "title": "Perpendicular geodesics in the hyperbolic plane are perpendicular", "statement": "geodesic.perpendicular(point) returns the only geodesic through the point that meets the given geodesic at a right angle (in the upper half plane model), and raises a ValueError exactly when the point is an ideal end point of the geodesic, where there is none; perpendicular(other) returns the only common perpendicular of two different geodesics, and raises a ValueError exactly when they have a finite or ideal point in common, where there is none; the pole of a geodesic is the point through which exactly the perpendicular geodesics go; the midpoint of a geodesic is the point on it that the order two isometry exchanging the end points fixes.", "quantifier": "all geodesics and points over all ordered fields, finite, ideal, with and without coordinates in the base ring", "why_tests_cant": "The construction has special cases for diameters of the Klein disk and needs square roots; each test checks one pair.", "anchors": ["flatsurf/geometry/hyperbolic.py:HyperbolicGeodesic.perpendicular", "flatsurf/geometry/hyperbolic.py:HyperbolicGeodesic.pole", "flatsurf/geometry/hyperbolic.py:HyperbolicGeodesic.midpoint"]}
{"id": "C89", "title": "Midpoints and perpendicular bisectors of hyperbolic segments are right", "statement": "segment.midpoint() of a segment with finite end points is the only point of the segment that is at the same hyperbolic distance from both end points; the internal assertion that the construction finds a point never fails. segment.perpendicular() is the perpendicular bisector: it meets the geodesic of the segment at a right angle and a point of the plane is on it exactly if it is at the same distance from both end points. segment.perpendicular(point) is perpendicular at the point and raises a ValueError exactly for points that are not in the segment.", "quantifier": "all segments over all ordered fields, all orders in which end points are listed and all random choices made when intersecting sets", "why_tests_cant": "The construction intersects lines through ideal points of two perpendiculars and relies on one of two choices working; each test checks one segment.", "anchors": ["flatsurf/geometry/hyperbolic.py:HyperbolicSegment.midpoint", "flatsurf/geometry/hyperbolic.py:HyperbolicSegment.perpendicular"]}
{"id": "C90", "title": "The generators of the fundamental group generate it freely", "statement": "For a closed surface with finitely many polygons, gens() of its fundamental group returns; the generators are reduced closed paths at the base polygon, every closed path at the base polygon is homotopic in the complement of the vertices to a product of generators and their inverses, and if no edge is glued to itself, the generators are different and satisfy no relation: any choice of elements of a group for the generators extends to a homomorphism.", "quantifier": "all closed surfaces with any number of polygons, all base polygons, all closed paths, all groups", "why_tests_cant": "whether a set of paths generates is a statement about all closed paths, and a test can only count the generators", "anchors": ["flatsurf/geometry/fundamental_group.py:FundamentalGroup.gens"]}
{"id": "C91", "title": "The spanning set of an orbit closure is a basis of homology", "statement": "For every connected triangulation, GL2ROrbitClosure finds a spanning set of a third of the edges and one more, and no assertion fails. Modulo the boundaries of the faces every edge is the combination of edges in the spanning set that the matrix proj gives, no combination of the edges in the spanning set other than zero is a boundary, proj sends every entry of boundaries() to zero, and holonomy(proj * e) is the holonomy of the edge e; the same holds for every function that is opposite on opposite half-edges and has sum zero around each face. lift(v) returns the only vector that has the values v on the spanning set and sum zero around each face.", "quantifier": "all connected triangulations of closed surfaces with any number of triangles, all additive functions with values in any abelian group", "why_tests_cant": "the docstrings check this for a few triangulations, and the order in which faces are found and reduced matters", "anchors": ["flatsurf/geometry/gl2r_orbit_closure.py:GL2ROrbitClosure.__init__", "flatsurf/geometry/gl2r_orbit_closure.py:GL2ROrbitClosure._spanning_tree", "flatsurf/geometry/gl2r_orbit_closure.py:GL2ROrbitClosure.boundaries", "flatsurf/geometry/gl2r_orbit_closure.py:GL2ROrbitClosure.holonomy", "flatsurf/geometry/gl2r_orbit_closure.py:GL2ROrbitClosure.lift"]}
{"id": "C92", "title": "Normalized coordinates describe the same surface", "statement": "normalized_coordinates() of a half-translation surface returns a surface and a matrix M of positive determinant such that the k-th polygon of the new surface is the image under M of the k-th polygon of the old surface (moved to the origin), glued in the same way, and such that M maps two adjacent edges of the first polygon to the standard basis. It returns for every surface.", "quantifier": "all surfaces made from simple polygons with any number of polygons and gluings, over every ordered field", "why_tests_cant": "The tests normalize a few surfaces made from convex polygons; whether the corner that is picked is always suitable depends on all shapes of polygons.", "anchors": ["flatsurf/geometry/categories/half_translation_surfaces.py:normalized_coordinates"]}
{"id": "C93", "title": "The J-invariant does not depend on the presentation of the surface", "statement": "j_invariant() of a polygon does not change when the polygon is translated or its vertices are listed from another vertex, and adds up when the polygon is cut along a diagonal; it determines the area. j_invariant() of a triangulated translation surface does not change when edges are flipped, any number of times.", "quantifier": "for all ordered number fields with additive coordinates, all polygons, all reachable triangulated translation surfaces, and all sequences of successful triangle_flip calls", "why_tests_cant": "Doctests compare the invariants of a few surfaces with known values; the independence of the triangulation concerns all sequences of flips of all surfaces.", "anchors": ["flatsurf/geometry/categories/translation_surfaces.py:j_invariant", "flatsurf/geometry/categories/euclidean_polygons.py:j_invariant"]}
{"id": "C94", "title": "veering_triangulation() returns a veering triangulation of the same surface", "statement": "On a triangulated translation surface the flip test of veering_triangulation() and l_infinity_delaunay_triangulation() never fails and gives the same answer from both sides of an edge. The surface that is returned is a triangulated translation surface obtained by flips; without a limit no edge of it asks for another flip, and is_veering_triangulated() is True for it.", "quantifier": "for all reachable triangulated translation surfaces over ordered fields, all limits, and all orders in which triangles are taken from the set", "why_tests_cant": "Doctests run a few surfaces with one order of the set; they do not reach the configurations with horizontal edges in which the result is not veering.", "anchors": ["flatsurf/geometry/categories/dilation_surfaces.py:veering_triangulation", "flatsurf/geometry/categories/dilation_surfaces.py:is_veering_triangulated", "flatsurf/geometry/categories/dilation_surfaces.py:_delaunay_edge_needs_flip_Linfinity"]}
