{
 "claims": [
  {
   "property": "C01",
   "status": "proved",
   "theorems": [
    "Flat.Similarity.C01_div_eq",
    "Flat.Similarity.C01_eq_iff",
    "Flat.Similarity.C01_inv_mul",
    "Flat.Similarity.C01_inv_wf",
    "Flat.Similarity.C01_mul_assoc",
    "Flat.Similarity.C01_mul_call",
    "Flat.Similarity.C01_mul_inv",
    "Flat.Similarity.C01_mul_one",
    "Flat.Similarity.C01_mul_wf",
    "Flat.Similarity.C01_one_call",
    "Flat.Similarity.C01_one_mul"
   ],
   "note": "group laws, action, faithfulness for all well-formed similarities over ordered fields (algebraic laws over every field)"
  },
  {
   "property": "C02",
   "status": "proved",
   "theorems": [
    "Flat.Similarity.C02_det",
    "Flat.Similarity.C02_distance_scaling",
    "Flat.Similarity.C02_isHalfTranslation_iff",
    "Flat.Similarity.C02_isIsometry_iff",
    "Flat.Similarity.C02_isOrientable_iff",
    "Flat.Similarity.C02_isRotation_iff",
    "Flat.Similarity.C02_isTranslation_iff"
   ],
   "note": "each predicate is equivalent to its quantified meaning"
  },
  {
   "property": "C03",
   "status": "proved",
   "theorems": [
    "Flat.C03_similarityFromVectors"
   ],
   "note": "existence and uniqueness"
  },
  {
   "property": "C04",
   "status": "proved",
   "theorems": [
    "Flat.MSurf.C04_boundary",
    "Flat.MSurf.C04_edge_transformation",
    "Flat.MSurf.C04_unique"
   ],
   "note": ""
  },
  {
   "property": "C05",
   "status": "proved",
   "theorems": [
    "Flat.C05_ccw_antisymm",
    "Flat.C05_ccw_rotScale",
    "Flat.C05_isAntiParallel_iff",
    "Flat.C05_isParallel_iff",
    "Flat.C05_isParallel_refl",
    "Flat.C05_isParallel_symm",
    "Flat.C05_isParallel_trans",
    "Flat.C05_not_both"
   ],
   "note": ""
  },
  {
   "property": "C06",
   "status": "proved",
   "theorems": [
    "Flat.C06_isBetween_iff",
    "Flat.C06_isBetween_real"
   ],
   "note": "specification with real angles; K any field with an order embedding into the reals"
  },
  {
   "property": "C07",
   "status": "proved",
   "theorems": [
    "Flat.C07_isSegmentIntersecting_spec",
    "Flat.C07_one_iff",
    "Flat.C07_reverse",
    "Flat.C07_symm",
    "Flat.C07_zero_iff"
   ],
   "note": "intersection of point sets over every ordered field; also symmetry and reversal"
  },
  {
   "property": "C08",
   "status": "proved",
   "theorems": [
    "Flat.C08_lineIntersection",
    "Flat.C08_raySegmentIntersection",
    "Flat.C08_raySegment_ordered",
    "Flat.C08_solve",
    "Flat.C08_timeOnRay"
   ],
   "note": ""
  },
  {
   "property": "C09",
   "status": "proved",
   "theorems": [
    "Flat.Poly.C09_area_mul",
    "Flat.Poly.C09_area_rotate",
    "Flat.Poly.C09_area_translate",
    "Flat.Poly.C09_area_triangle_rectangle"
   ],
   "note": ""
  },
  {
   "property": "C10",
   "status": "proved",
   "theorems": [
    "Flat.Poly.C10_mul_valid",
    "Flat.Poly.C10_convex",
    "Flat.Poly.C10_counterclockwise",
    "Flat.Poly.C10_mul_defined",
    "Flat.Poly.C10_mul_mul",
    "Flat.Poly.C10_mul_one",
    "Flat.Poly.C10_vertices"
   ],
   "note": ""
  },
  {
   "property": "C11",
   "status": "proved",
   "theorems": [
    "Flat.MSurf.C11_short",
    "Flat.MSurf.C11_triangulate"
   ],
   "note": "For every polygon that can be created (simple, positive area, not necessarily convex) triangulate() succeeds and returns a triangulation: the ear clipping loop always finds an ear, proved through the existence of triangulations of simple polygons."
  },
  {
   "property": "C12",
   "status": "proved",
   "theorems": [
    "Flat.Poly.C12_edge",
    "Flat.Poly.C12_interior",
    "Flat.Poly.C12_vertex"
   ],
   "note": "for convex polygons, straight angles allowed; vertices and edges for every valid polygon."
  },
  {
   "property": "C13",
   "status": "proved",
   "theorems": [
    "Flat.Poly.C13_centroid_interior",
    "Flat.Poly.C13_subdivide_total",
    "Flat.Poly.C13_centroid_translate",
    "Flat.Poly.C13_subdivide",
    "Flat.Poly.C13_subdivide_edges",
    "Flat.Poly.C13_subdivide_edges_total"
   ],
   "note": ""
  },
  {
   "property": "C14",
   "status": "proved",
   "theorems": [
    "Flat.Poly.C14_join"
   ],
   "note": ""
  },
  {
   "property": "C15",
   "status": "partial",
   "theorems": [
    "Flat.Poly.C15_half_translate_certificate_partial",
    "Flat.Poly.C15_half_translate_certificate_violation",
    "Flat.Poly.C15_is_half_translate_iff",
    "Flat.Poly.C15_is_isometric_certificate",
    "Flat.Poly.C15_is_isometric_iff",
    "Flat.Poly.C15_is_translate_certificate",
    "Flat.Poly.C15_is_translate_iff",
    "Flat.Poly.C15_isometric_asserts",
    "Flat.Poly.C15_isometric_index_violation"
   ],
   "note": "the truth value of each test is characterised exactly; the certificate of is_half_translate for translations and the documented index of is_isometric contradict the documentation (witnesses proved)"
  },
  {
   "property": "C16",
   "status": "proved",
   "theorems": [
    "Flat.MSurf.C16_gluings_involutive",
    "Flat.MSurf.C16_negative_index_violation",
    "Flat.MSurf.C16_opposite_edge_total"
   ],
   "note": "invariant of every state reachable through the mutating API with non-negative edge indices; negative indices break it (witness)"
  },
  {
   "property": "C17",
   "status": "proved",
   "theorems": [
    "Flat.MSurf.C17_glue_effect",
    "Flat.MSurf.C17_glue_failure",
    "Flat.MSurf.C17_glue_idempotent",
    "Flat.MSurf.C17_glue_not_atomic",
    "Flat.MSurf.C17_glue_symmetric",
    "Flat.MSurf.C17_unglue_effect"
   ],
   "note": ""
  },
  {
   "property": "C18",
   "status": "partial",
   "theorems": [
    "Flat.MSurf.C18_immutable_raises_partial",
    "Flat.MSurf.C18_immutable_unchanged_partial",
    "Flat.MSurf.C18_remove_polygon_violation",
    "Flat.MSurf.C18_replace_polygon_violation",
    "Flat.MSurf.C18_set_immutable"
   ],
   "note": "holds for every mutator that checks mutability; remove_polygon and replace_polygon violate it (witnesses proved)"
  },
  {
   "property": "C19",
   "status": "proved",
   "theorems": [
    "Flat.MSurf.C19_explicit_label",
    "Flat.MSurf.C19_fresh_label"
   ],
   "note": ""
  },
  {
   "property": "C20",
   "status": "proved",
   "theorems": [
    "Flat.MSurf.C20_component_labels",
    "Flat.MSurf.C20_components_partition",
    "Flat.MSurf.C20_labels_once"
   ],
   "note": ""
  },
  {
   "property": "C21",
   "status": "partial",
   "theorems": [
    "Flat.MSurf.C21_bookkeeping_partial",
    "Flat.MSurf.C21_explicit_roots_distinct",
    "Flat.MSurf.C21_glue_crash_violation",
    "Flat.MSurf.C21_glue_forgets_root",
    "Flat.MSurf.C21_one_root_per_component",
    "Flat.MSurf.C21_remove_crash_violation",
    "Flat.MSurf.C21_unglue_crash_violation",
    "Flat.MSurf.C21_set_immutable_succeeds",
    "Flat.MSurf.C21_set_roots_iff"
   ],
   "note": "one root per component in every reachable state is proved; the no-crash part holds when no component lacks an explicit root, and is violated otherwise (witnesses proved)"
  },
  {
   "property": "C22",
   "status": "proved",
   "theorems": [
    "Flat.MSurf.C22_eq_equivalence",
    "Flat.MSurf.C22_eq_iff",
    "Flat.MSurf.C22_hash",
    "Flat.MSurf.C22_iteration",
    "Flat.MSurf.C22_mutable_unhashable",
    "Flat.MSurf.C22_order_independent"
   ],
   "note": ""
  },
  {
   "property": "C23",
   "status": "proved",
   "theorems": [
    "Flat.MSurf.C23_from_surface",
    "Flat.MSurf.C23_from_surface_labels"
   ],
   "note": ""
  },
  {
   "property": "C24",
   "status": "proved",
   "theorems": [
    "Flat.MSurf.C24_relabel",
    "Flat.MSurf.C24_relabel_data_loss",
    "Flat.MSurf.C24_relabel_inverse",
    "Flat.MSurf.C24_relabel_not_injective"
   ],
   "note": "the error for maps that are not injective comes after polygons were removed (C24_relabel_data_loss)"
  },
  {
   "property": "C25",
   "status": "proved",
   "theorems": [
    "Flat.MSurf.C25_crash_violation",
    "Flat.MSurf.C25_root_lost_violation",
    "Flat.MSurf.C25_set_vertex_zero",
    "Flat.MSurf.C25_set_vertex_zero_succeeds"
   ],
   "note": "success needs that no other polygon is an explicit root; the explicit root itself is forgotten (C25_root_lost_violation); with explicit roots in several components it can crash (C25_crash_violation)"
  },
  {
   "property": "C26",
   "status": "proved",
   "theorems": [
    "Flat.MSurf.C26_cone_violation",
    "Flat.MSurf.C26_four_flips",
    "Flat.MSurf.C26_triangle_flip",
    "Flat.MSurf.C26_triangle_flip_succeeds"
   ],
   "note": "every successful flip, the success criterion, and four flips; for a triangle with two different edges glued to each other the code fails an assertion after replacing the triangle (C26_cone_violation)."
  },
  {
   "property": "C27",
   "status": "proved",
   "theorems": [
    "Flat.MSurf.C27_half_done_violation",
    "Flat.MSurf.C27_subdivide_polygon",
    "Flat.MSurf.C27_subdivide_polygon_succeeds"
   ],
   "note": "subdivide_polygon: parts, areas, gluings, labels; success criterion; the violation theorem shows the call is not atomic."
  },
  {
   "property": "C28",
   "status": "proved",
   "theorems": [
    "Flat.MSurf.C28_join_polygons",
    "Flat.MSurf.C28_join_polygons_succeeds",
    "Flat.MSurf.C28_root_lost_violation"
   ],
   "note": "success needs that the explicit roots are among the two polygons and the surface is connected; an explicit root is forgotten (C28_root_lost_violation); in_place=False is a misspelt call in the code and not modelled"
  },
  {
   "property": "C29",
   "status": "proved",
   "theorems": [
    "Flat.MSurf.C29_after_flip",
    "Flat.MSurf.C29_flip_iff_in_circle",
    "Flat.MSurf.C29_flip_succeeds",
    "Flat.MSurf.C29_flippable",
    "Flat.MSurf.C29_is_delaunay_triangulated",
    "Flat.MSurf.C29_is_delaunay_triangulated_sound",
    "Flat.MSurf.C29_single_flip",
    "Flat.MSurf.C29_symmetric",
    "Flat.MSurf.C29_untriangulated_violation"
   ],
   "note": "flip and join tests, symmetry, convexity, success, effect, is_delaunay_triangulated and delaunay_single_flip; polygons without glued edges are ignored by is_delaunay_triangulated (C29_untriangulated_violation)."
  },
  {
   "property": "C30",
   "status": "proved",
   "theorems": [
    "Flat.MSurf.C30_flip_decreases_energy",
    "Flat.MSurf.C30_never_returns",
    "Flat.MSurf.C30_no_cycle",
    "Flat.MSurf.C30_single_flip"
   ],
   "note": "for all similarity surfaces; polygons are compared up to similarity and permutation of the labels. Termination itself (finiteness of flip sequences) is not claimed."
  },
  {
   "property": "C31",
   "status": "partial",
   "theorems": [
    "Flat.MSurf.C31_root_forgotten",
    "Flat.MSurf.C31_subdivide_disconnected_fails",
    "Flat.MSurf.C31_subdivide_edges_partial",
    "Flat.MSurf.C31_subdivide_partial"
   ],
   "note": "connected surfaces: subdivide() and subdivide_edges(k) succeed, gluings of the pieces are the reversed gluings, area is kept; on disconnected surfaces subdivide() raises AssertionError and explicit roots are forgotten (witnesses proved)"
  },
  {
   "property": "C32",
   "status": "proved",
   "theorems": [
    "Flat.RSurf.C32_euler_characteristic",
    "Flat.RSurf.C32_even",
    "Flat.MSurf.C32_join_polygons",
    "Flat.MSurf.C32_subdivide_polygon",
    "Flat.MSurf.C32_triangle_flip"
   ],
   "note": "the value is #vertices - #edges + #polygons (self-glued edges count with their midpoint), it is even on closed surfaces and joining, subdividing and flipping do not change it (finite surfaces, possibly with boundary; the labels are given by any list without repetitions)"
  },
  {
   "property": "C33",
   "status": "proved",
   "theorems": [
    "Flat.RSurf.C33_defined",
    "Flat.RSurf.C33_eq_iff",
    "Flat.RSurf.C33_representatives"
   ],
   "note": "representatives = class of the description under identifications across glued edges, for all surfaces (boundary, self-glued edges, infinitely many polygons); defined on every surface with finitely many edges."
  },
  {
   "property": "C34",
   "status": "proved",
   "theorems": [
    "Flat.RSurf.C34_half_translation_cover",
    "Flat.RSurf.C34_half_translation_glued",
    "Flat.RSurf.C34_half_translation_glued_iff",
    "Flat.RSurf.C34_half_translation_violation",
    "Flat.RSurf.C34_planar_cover",
    "Flat.RSurf.C34_planar_nonconvex_violation",
    "Flat.RSurf.C34_translation_cover"
   ],
   "note": "the half-translation cover is glued by half-translations exactly when the gluings are isometric (C34_half_translation_violation); the planar cover needs convex polygons (C34_planar_nonconvex_violation)."
  },
  {
   "property": "C35",
   "status": "proved",
   "theorems": [
    "Flat.Surf.C35_abstract_origami",
    "Flat.Surf.C35_chamanara",
    "Flat.Surf.C35_e_infinity",
    "Flat.Surf.C35_origami",
    "Flat.Surf.C35_staircase",
    "Flat.Surf.C35_t_fractal"
   ],
   "note": "Chamanara for 0 < alpha < 1, T-fractal for positive parameters, E-infinity for the default parameter and larger ones, origamis, the staircase."
  },
  {
   "property": "C36",
   "status": "proved",
   "theorems": [
    "Flat.RSurf.C36_action",
    "Flat.RSurf.C36_boundary_violation",
    "Flat.RSurf.C36_closed",
    "Flat.RSurf.C36_gluedBy",
    "Flat.RSurf.C36_opposite_edge",
    "Flat.RSurf.C36_polygon",
    "Flat.RSurf.C36_translation"
   ],
   "note": "for closed surfaces; boundary edges raise (C36_boundary_violation)."
  },
  {
   "property": "C37",
   "status": "proved",
   "theorems": [
    "Flat.LabelSeq.C37_from_missing",
    "Flat.LabelSeq.C37_from_to",
    "Flat.LabelSeq.C37_to_from",
    "Flat.RSurf.C37_involution",
    "Flat.RSurf.C37_relabeled"
   ],
   "note": ""
  },
  {
   "property": "C38",
   "status": "proved",
   "theorems": [
    "Flat.CachedMethod.C38_cached",
    "Flat.CachedMethod.C38_not_stale",
    "Flat.MSurf.C38_checked",
    "Flat.MSurf.C38_replace_polygon_violation"
   ],
   "note": "for all schedules of mutations and calls in which no mutation happens after the surface has become immutable (which the methods with a mutability check guarantee, C18); the one method without the check makes a cached result stale, which is proved as a violation"
  },
  {
   "property": "C39",
   "status": "proved",
   "theorems": [
    "Flat.RSurf.C39_boundary_boundary",
    "Flat.RSurf.C39_boundary_edge",
    "Flat.RSurf.C39_boundary_linear"
   ],
   "note": "all closed finite surfaces, any coefficient ring, also relative to sets of vertices"
  },
  {
   "property": "C40",
   "status": "proved",
   "theorems": [
    "Flat.RSurf.C40_antisymmetric",
    "Flat.RSurf.C40_boundary",
    "Flat.RSurf.C40_choice",
    "Flat.RSurf.C40_defined",
    "Flat.RSurf.C40_homology",
    "Flat.RSurf.C40_left",
    "Flat.RSurf.C40_right"
   ],
   "note": "bilinear, antisymmetric, zero on boundaries, independent of the edges at which the rotations start; defined exactly on closed chains"
  },
  {
   "property": "C41",
   "status": "partial",
   "theorems": [
    "Flat.FPath.C41_associative_partial",
    "Flat.FPath.C41_constructor",
    "Flat.FPath.C41_eq",
    "Flat.FPath.C41_inverse",
    "Flat.FPath.C41_inverse_product",
    "Flat.FPath.C41_product_partial",
    "Flat.FPath.C41_product_violation",
    "Flat.FPath.C41_reduced_unique"
   ],
   "note": "The product is proved to be right for surfaces in which no polygon is glued to two different polygons along edges of the same number; C41_product_violation shows that it is wrong otherwise. Inverses, equality and the constructor are proved for all closed surfaces. gens() is C90."
  },
  {
   "property": "C42",
   "status": "partial",
   "theorems": [
    "Flat.MatGroup.C42_is_finite_false",
    "Flat.MatGroup.C42_is_finite_form_partial",
    "Flat.MatGroup.C42_is_finite_integral_partial",
    "Flat.MatGroup.C42_is_finite_rotation_violation",
    "Flat.MatGroup.C42_is_finite_violation",
    "Flat.MatGroup.C42_order_partial",
    "Flat.MatGroup.C42_order_violation",
    "Flat.MatGroup.C42_is_abelian",
    "Flat.MatGroup.C42_iter_complete_partial",
    "Flat.MatGroup.C42_iter_finite",
    "Flat.MatGroup.C42_iter_nodup",
    "Flat.MatGroup.C42_iter_sound",
    "Flat.MatGroup.C42_iter_violation"
   ],
   "note": "Iteration: no repetitions, only group elements, every element if there are two distinct generators or the group is finite (then it terminates with exactly the elements); a single generator of infinite order never yields its inverse (violation). is_finite() False implies infinite; True is right for integral generators whose orientation reversing generators are involutions, and in general means that a definite form is preserved; it is wrong for two families of generators (violations). matrix_multiplicative_order is right when it returns, but fails with a TypeError for most matrices (violation)."
  },
  {
   "property": "C43",
   "status": "partial",
   "theorems": [
    "Flat.C43_backward",
    "Flat.C43_backward_forward_partial",
    "Flat.C43_backward_forward_position",
    "Flat.C43_constructor",
    "Flat.C43_endpoint_violation",
    "Flat.C43_errors",
    "Flat.C43_forward",
    "Flat.C43_forward_backward_partial",
    "Flat.C43_injective",
    "Flat.C43_right_end",
    "Flat.C43_right_end_violation"
   ],
   "note": "proved for all points in the interior of intervals, and up to the choice of the name of an endpoint for all points but the right endpoint of the whole interval; that the literal statement fails for endpoints of intervals is proved with witnesses"
  },
  {
   "property": "C44",
   "status": "proved",
   "theorems": [
    "Flat.Circle.C44_circumscribed_circle",
    "Flat.Circle.C44_closest_point_on_line",
    "Flat.Circle.C44_line_position",
    "Flat.Circle.C44_line_segment_position",
    "Flat.Circle.C44_other_intersection",
    "Flat.Circle.C44_point_position",
    "Flat.Circle.C44_reflection_violation",
    "Flat.Circle.C44_similarity_image",
    "Flat.Circle.C44_tangent_vector",
    "Flat.Circle.C44_three_points",
    "Flat.Circle.C44_three_points_ok_iff"
   ],
   "note": "orientation-reversing similarities give a negative squared radius (C44_reflection_violation)."
  },
  {
   "property": "C45",
   "status": "proved",
   "theorems": [
    "Flat.RSurf.C45_defined",
    "Flat.RSurf.C45_enters",
    "Flat.RSurf.C45_eq_iff",
    "Flat.RSurf.C45_fixed",
    "Flat.RSurf.C45_glued",
    "Flat.RSurf.C45_invert",
    "Flat.RSurf.C45_kept_iff",
    "Flat.RSurf.C45_moved",
    "Flat.RSurf.C45_enters_all",
    "Flat.RSurf.C45_kept_iff_all"
   ],
   "note": "For all surfaces with or without boundary, polygons of any shape, convex or not (C45_enters_all and C45_kept_iff_all need no convexity). invert() is defined, as in the code, away from vertices."
  },
  {
   "property": "C46",
   "status": "proved",
   "theorems": [
    "Flat.MSurf.C46_billiard",
    "Flat.MSurf.C46_polygon_double"
   ],
   "note": "polygon_double of every polygon and billiard of every convex polygon; the branch of billiard that cuts a non-convex polygon is not modelled"
  },
  {
   "property": "C47",
   "status": "partial",
   "theorems": [
    "Flat.MSurf.C47_edges",
    "Flat.MSurf.C47_edges_contains_violation",
    "Flat.MSurf.C47_edges_contains_violation_spurious",
    "Flat.MSurf.C47_gluings",
    "Flat.MSurf.C47_gluings_contains_violation",
    "Flat.MSurf.C47_labels",
    "Flat.MSurf.C47_polygons"
   ],
   "note": "iteration and lengths are exact; membership tests of edges() and gluings() are wrong on every surface (proved)"
  },
  {
   "property": "C48",
   "status": "proved",
   "theorems": [
    "Flat.RSurf.C48_is_cone_surface",
    "Flat.RSurf.C48_is_dilation_surface",
    "Flat.RSurf.C48_is_half_translation_surface",
    "Flat.RSurf.C48_is_positive_dilation_surface",
    "Flat.RSurf.C48_is_translation_surface",
    "Flat.RSurf.C48_refined_category"
   ],
   "note": "for all surfaces, with or without boundary, with valid polygons; the check for rational angles is not modelled"
  },
  {
   "property": "C49",
   "status": "partial",
   "theorems": [
    "Flat.RSurf.C49_checks",
    "Flat.RSurf.C49_other_polygon_violation",
    "Flat.RSurf.C49_ramified_cover_partial"
   ],
   "note": "Proved for surfaces all of whose gluings join edges of the same polygon; C49_other_polygon_violation shows that the code glues wrongly otherwise (line 3339 uses the label of the wrong polygon). C49_checks holds for all surfaces."
  },
  {
   "property": "C50",
   "status": "partial",
   "theorems": [
    "Flat.MSurf.C50_surface_cmp_keyError_violation",
    "Flat.MSurf.C50_surface_cmp_violation",
    "Flat.MSurf.C50_surface_cmp_zero_partial",
    "Flat.Poly.C50_polygon_cmp_antisymm",
    "Flat.Poly.C50_polygon_cmp_eq_partial",
    "Flat.Poly.C50_polygon_cmp_trans",
    "Flat.Poly.C50_polygon_cmp_values",
    "Flat.Poly.C50_polygon_cmp_violation",
    "Flat.Poly.C50_polygon_cmp_zero_iff"
   ],
   "note": "the comparison of polygons is a total preorder that ignores the first vertex; the comparison of surfaces ignores the polygons of the second surface (witnesses proved)"
  },
  {
   "property": "C51",
   "status": "proved",
   "theorems": [
    "Flat.Hyp.C51_contains",
    "Flat.Hyp.C51_coordinates",
    "Flat.Hyp.C51_equation",
    "Flat.Hyp.C51_geodesic_eq",
    "Flat.Hyp.C51_half_circle",
    "Flat.Hyp.C51_half_plane",
    "Flat.Hyp.C51_half_space",
    "Flat.Hyp.C51_point",
    "Flat.Hyp.C51_point_eq",
    "Flat.Hyp.C51_roundtrip",
    "Flat.Hyp.C51_start",
    "Flat.Hyp.C51_through",
    "Flat.Hyp.C51_through_exists",
    "Flat.Hyp.C51_vertical"
   ],
   "note": "Over any ordered field, for points with and without coordinates in the base ring: positions are taken in any ordered field that contains the base ring."
  },
  {
   "property": "C52",
   "status": "partial",
   "theorems": [
    "Flat.Hyp.C52_accepted",
    "Flat.Hyp.C52_accepted_half_plane",
    "Flat.Hyp.C52_compose",
    "Flat.Hyp.C52_form",
    "Flat.Hyp.C52_geodesic",
    "Flat.Hyp.C52_gl2",
    "Flat.Hyp.C52_gl2_roundtrip",
    "Flat.Hyp.C52_gl2_unique",
    "Flat.Hyp.C52_half_space_gl2",
    "Flat.Hyp.C52_half_space_partial",
    "Flat.Hyp.C52_half_space_violation",
    "Flat.Hyp.C52_identity",
    "Flat.Hyp.C52_moebius",
    "Flat.Hyp.C52_mul",
    "Flat.Hyp.C52_on_right",
    "Flat.Hyp.C52_point",
    "Flat.Hyp.C52_point_position",
    "Flat.Hyp.C52_sheet"
   ],
   "note": "Points, geodesics and the half plane action are proved for all isometries. Half spaces are proved for all 2x2 matrices and for the 3x3 matrices that do not swap the sheets of the hyperboloid; for the others, which the code accepts, the claim is false (C52_half_space_violation)."
  },
  {
   "property": "C53",
   "status": "proved",
   "theorems": [
    "Flat.MorphSys.C53_associative",
    "Flat.MorphSys.C53_call",
    "Flat.MorphSys.C53_chain",
    "Flat.MorphSys.C53_composition_defined",
    "Flat.MorphSys.C53_homology_matrix",
    "Flat.MorphSys.C53_identity",
    "Flat.MorphSys.C53_image",
    "Flat.MorphSys.C53_named_identity_violation",
    "Flat.MorphSys.C53_section",
    "Flat.MorphSys.C53_section_composition",
    "Flat.MorphSys.C53_section_of_composition"
   ],
   "note": "for all morphisms that can be built from elementary morphisms with identities, sections, compositions and factorizations; the missing section of a factorization through the identity is proved as a violation"
  },
  {
   "property": "C54",
   "status": "proved",
   "theorems": [
    "Flat.MSurf.C54_four_flips",
    "Flat.MSurf.C54_homology_isomorphism"
   ],
   "note": "For surfaces without boundary and without edges glued to themselves, any sequence of flips that succeeds. The walk of the Delaunay iteration that chooses the edges is not part of this claim."
  },
  {
   "property": "C55",
   "status": "proved",
   "theorems": [
    "Flat.MegaElt.C55_gluings",
    "Flat.MegaElt.C55_group",
    "Flat.MegaElt.C55_infinite",
    "Flat.MegaElt.C55_relations"
   ],
   "note": "the group laws, the gluings, the relations listed in the documentation and that the group is infinite."
  },
  {
   "property": "C56",
   "status": "partial",
   "theorems": [
    "Flat.RSurf.C56_cell",
    "Flat.RSurf.C56_cell_label",
    "Flat.RSurf.C56_cells_closed_partial",
    "Flat.RSurf.C56_cells_folded_violation",
    "Flat.RSurf.C56_cells_gluing",
    "Flat.RSurf.C56_cells_polygon_partial",
    "Flat.RSurf.C56_cells_reject",
    "Flat.RSurf.C56_cells_violation",
    "Flat.RSurf.C56_closed",
    "Flat.RSurf.C56_collision_violation",
    "Flat.RSurf.C56_cover",
    "Flat.RSurf.C56_gluing",
    "Flat.RSurf.C56_labels",
    "Flat.RSurf.C56_root_violation"
   ],
   "note": "Lazy triangulations: everything proved, also for infinite surfaces (labels, gluings, closedness, cover by triangles), with violations for colliding reference labels and for the root label. Delaunay cells of finite surfaces: the walk terminates and finds every triangle of the cell and every uncrossed edge exactly once, gluings of cells form an involution; for translation surfaces the boundary word is closed and bounds a convex inscribed polygon with the right area. Violated for gluings with rotation (C56_cells_violation) and for self-glued edges opposite a right angle."
  },
  {
   "property": "C57",
   "status": "proved",
   "theorems": [
    "Flat.C57_slope",
    "Flat.C57_slope_zero"
   ],
   "note": ""
  },
  {
   "property": "C58",
   "status": "proved",
   "theorems": [
    "Flat.Poly.C58_accepted_iff"
   ],
   "note": ""
  },
  {
   "property": "C59",
   "status": "proved",
   "theorems": [
    "Flat.FPath.C59_antisymmetric",
    "Flat.FPath.C59_concatenation",
    "Flat.FPath.C59_homotopy",
    "Flat.FPath.C59_inverse",
    "Flat.FPath.C59_trivial_violation"
   ],
   "note": "For non-trivial paths; C59_trivial_violation: the neutral element raises IndexError."
  },
  {
   "property": "C60",
   "status": "partial",
   "theorems": [
    "Flat.RSurf.C60_clockwise",
    "Flat.RSurf.C60_clockwise_defined",
    "Flat.RSurf.C60_counterclockwise",
    "Flat.RSurf.C60_half_translation_violation",
    "Flat.RSurf.C60_reached",
    "Flat.RSurf.C60_reflex_violation",
    "Flat.RSurf.C60_straight_violation"
   ],
   "note": "Proved for translation surfaces with angles smaller than pi, including success for at most 100 sectors (clockwise_to). The code accepts other surfaces, where the claim is false: straight angles (C60_straight_violation), reflex angles (C60_reflex_violation), other gluings (C60_half_translation_violation)."
  },
  {
   "property": "C61",
   "status": "proved",
   "theorems": [
    "Flat.MSurf.C61_triangulate",
    "Flat.Poly.C61_hull",
    "Flat.Poly.C61_path",
    "Flat.Poly.C61_winding",
    "Flat.Poly.C61_edge_sides",
    "Flat.Poly.C61_linear",
    "Flat.Poly.C61_translate",
    "Flat.Poly.C61_vertex_sectors"
   ],
   "note": "For all valid polygons over an ordered field: winding numbers are 0 or 1, outside iff outside of all the triangles of triangulate(), triangles do not overlap, position constant along segments off the boundary, outside when separated by a line, inside to the left of edges and outside to the right, sectors at vertices, invariance under translations and orientation preserving matrices."
  },
  {
   "property": "C62",
   "status": "proved",
   "theorems": [
    "Flat.DTri.C62_all",
    "Flat.DTri.C62_delaunay",
    "Flat.DTri.C62_flips",
    "Flat.DTri.C62_no_assertion",
    "Flat.DTri.C62_opposite_edge_final",
    "Flat.DTri.C62_opposite_edge_order",
    "Flat.DTri.C62_polygon_final",
    "Flat.DTri.C62_polygon_order"
   ],
   "note": "Proved for references with finitely many triangles; the overlay that copies the reference on demand is modelled as a full copy. Termination of the flips is not claimed: the loops have a bound after which the model raises outOfFuel, and the theorems are about accesses with any bound, including those that run out of it."
  },
  {
   "property": "C63",
   "status": "proved",
   "theorems": [
    "Flat.C63_angle",
    "Flat.RSurf.C63_edges_ccw",
    "Flat.RSurf.C63_half_translation",
    "Flat.RSurf.C63_start_edge",
    "Flat.RSurf.C63_translation",
    "Flat.RSurf.C63_turns",
    "Flat.RSurf.C63_vertex_angle"
   ],
   "note": "The code computes angles with floats and may then guess a nearby rational number; the model has the exact real numbers instead, so rounding and that guess are not covered."
  },
  {
   "property": "C64",
   "status": "proved",
   "theorems": [
    "Flat.C64_polygon",
    "Flat.RSurf.C64_abelian_stratum",
    "Flat.RSurf.C64_gauss_bonnet",
    "Flat.RSurf.C64_genus",
    "Flat.RSurf.C64_quadratic_stratum"
   ],
   "note": "As for C63, angles are exact real numbers in the model. The vertices are given by one edge each (hypothesis IsStarts); their order does not matter."
  },
  {
   "property": "C65",
   "status": "partial",
   "theorems": [
    "Flat.RSurf.C65_off_center",
    "Flat.RSurf.C65_off_center_violation",
    "Flat.RSurf.C65_point_angle_partial"
   ],
   "note": "Proved for all points of all surfaces except the points other than the midpoint on an edge glued to itself, where the returned angle is a half turn but the polygons contribute a full turn (C65_off_center, C65_off_center_violation)."
  },
  {
   "property": "C66",
   "status": "partial",
   "theorems": [
    "Flat.Poly.C66_flow_to_exit",
    "Flat.Poly.C66_outward_violation",
    "Flat.Poly.C66_rejected_partial",
    "Flat.Poly.C66_staysIn_iff",
    "Flat.Poly.C66_zero"
   ],
   "note": "The returned point, its position, the way there and the exit for all simple polygons (C66_flow_to_exit with C66_staysIn_iff). That outward directions are rejected is proved for convex polygons and points in the polygon; in general it is false (C66_outward_violation)."
  },
  {
   "property": "C67",
   "status": "partial",
   "theorems": [
    "Flat.RSurf.C67_is_edge",
    "Flat.RSurf.C67_closed",
    "Flat.RSurf.C67_distinct",
    "Flat.RSurf.C67_ends",
    "Flat.RSurf.C67_flow",
    "Flat.RSurf.C67_flow_add",
    "Flat.RSurf.C67_flow_backward",
    "Flat.RSurf.C67_flow_forward",
    "Flat.RSurf.C67_next",
    "Flat.RSurf.C67_previous_partial",
    "Flat.RSurf.C67_reverse",
    "Flat.RSurf.C67_saddle_connection",
    "Flat.RSurf.C67_segment",
    "Flat.RSurf.C67_trajectory",
    "Flat.RSurf.C67_closed_isometric",
    "Flat.RSurf.C67_coding",
    "Flat.RSurf.C67_crosses",
    "Flat.RSurf.C67_cylinder",
    "Flat.RSurf.C67_previous_violation"
   ],
   "note": "All parts for closed surfaces with simple polygons. previous() undoes next() only if the segment does not end at a vertex (C67_previous_partial); that it fails otherwise is proved (C67_previous_violation)."
  },
  {
   "property": "C68",
   "status": "partial",
   "theorems": [
    "Flat.RSurf.C68_direction",
    "Flat.RSurf.C68_symm",
    "Flat.C68_unitMax_iff",
    "Flat.RSurf.C68_check",
    "Flat.RSurf.C68_constructor",
    "Flat.RSurf.C68_constructor_sound_partial",
    "Flat.RSurf.C68_invert",
    "Flat.RSurf.C68_opposite",
    "Flat.RSurf.C68_translation",
    "Flat.RSurf.C68_unique",
    "Flat.RSurf.C68_guess_violation",
    "Flat.RSurf.C68_last_side_violation",
    "Flat.RSurf.C68_nonconvex_violation",
    "Flat.RSurf.C68_straight_violation",
    "Flat.RSurf.C68_length",
    "Flat.RSurf.C68_list_invert_partial",
    "Flat.RSurf.C68_list_partial",
    "Flat.RSurf.C68_search_partial",
    "Flat.RSurf.C68_terminates",
    "Flat.RSurf.C68_terminates_at"
   ],
   "note": "Missing: polygons that are not strictly convex and directions along the last side of the sector at the start vertex, where the claim is false (C68_straight_violation, C68_nonconvex_violation, C68_last_side_violation), and guessed end holonomies (C68_guess_violation). For strictly convex polygons C68_terminates is the full statement about saddle_connections."
  },
  {
   "property": "C69",
   "status": "partial",
   "theorems": [
    "Flat.RSurf.C69_area",
    "Flat.RSurf.C69_constructor",
    "Flat.RSurf.C69_core",
    "Flat.RSurf.C69_embedded",
    "Flat.RSurf.C69_holonomy",
    "Flat.RSurf.C69_polygons",
    "Flat.RSurf.C69_trajectory",
    "Flat.RSurf.C69_repeated_violation",
    "Flat.RSurf.C69_self_glued_violation",
    "Flat.RSurf.C69_straight_vertex_violation"
   ],
   "note": "Missing: lists of edges that go around more than once, polygons with a vertex of angle π and edges glued to themselves, where the claim is false (C69_repeated_violation, C69_straight_vertex_violation, C69_self_glued_violation), and lines that cross more than 1001 edges, for which the search for the boundary gives up. C69_core needs only convex polygons; the other theorems are for strictly convex polygons. C69_holonomy and C69_embedded are for translation surfaces."
  },
  {
   "property": "C70",
   "status": "partial",
   "theorems": [
    "Flat.RSurf.C70_genus",
    "Flat.RSurf.C70_homology_partial",
    "Flat.RSurf.C70_ranks",
    "Flat.RSurf.C70_self_glued_violation"
   ],
   "note": "Missing: surfaces with edges that are glued to themselves, where the claim about homology is false (C70_self_glued_violation); C70_ranks has the ranks that are computed for them. C70_genus (the genus is a natural number) is for all connected closed surfaces. The linear algebra of Sage (kernels, images, quotients) is that of Mathlib."
  },
  {
   "property": "C71",
   "status": "partial",
   "theorems": [
    "Flat.RSurf.C71_perfect_partial",
    "Flat.RSurf.C71_symplectic_partial",
    "Flat.RSurf.C71_self_glued_violation"
   ],
   "note": "Proved for surfaces without edges that are glued to themselves, relative to the documented behaviour of the functions of Sage that bring an alternating matrix into normal form; false with such edges, see C71_self_glued_violation."
  },
  {
   "property": "C72",
   "status": "partial",
   "theorems": [
    "Flat.C72_flow_map",
    "Flat.RSurf.C72_backward_separatrix",
    "Flat.RSurf.C72_closed_partial",
    "Flat.RSurf.C72_flow_partial",
    "Flat.RSurf.C72_forward_separatrix",
    "Flat.RSurf.C72_new",
    "Flat.RSurf.C72_saddle_connection_partial",
    "Flat.RSurf.C72_segment",
    "Flat.RSurf.C72_segments",
    "Flat.RSurf.C72_triangles",
    "Flat.RSurf.C72_closed_violation",
    "Flat.RSurf.C72_missed_vertex_violation"
   ],
   "note": "flow_map is correct on convex polygons (C72_flow_map). StraightLineTrajectoryTranslation follows StraightLineTrajectory step by step unless a vertex is missed (C72_flow_partial); C72_forward_separatrix says exactly when a vertex is recognised; on surfaces built from triangles everything agrees (C72_triangles), except is_closed for trajectories that end at a vertex. In general the property is false: C72_missed_vertex_violation, C72_closed_violation."
  },
  {
   "property": "C73",
   "status": "partial",
   "theorems": [
    "Flat.RSurf.C73_angle",
    "Flat.RSurf.C73_closed_iff",
    "Flat.RSurf.C73_connected",
    "Flat.RSurf.C73_connected_violation",
    "Flat.RSurf.C73_constructor",
    "Flat.RSurf.C73_constructor_partial",
    "Flat.RSurf.C73_edges",
    "Flat.RSurf.C73_samples_violation",
    "Flat.RSurf.C73_stratum",
    "Flat.RSurf.C73_translation_surface",
    "Flat.RSurf.C73_vertices"
   ],
   "note": "Everything but the checks of the constructor is proved for all origamis of permutations, finite or infinite. The constructor checks inverse maps on some elements only (C73_constructor_partial, C73_samples_violation), and every origami is put into the category of connected surfaces (C73_connected_violation)."
  },
  {
   "property": "C74",
   "status": "partial",
   "theorems": [
    "Flat.MSurf.C74_connected",
    "Flat.MSurf.C74_lengths",
    "Flat.MSurf.C74_multitwists",
    "Flat.MSurf.C74_stratum",
    "Flat.MSurf.C74_surface",
    "Flat.MSurf.C74_up_violation"
   ],
   "note": "Proved for all permutations and positive multiplicities, given the largest eigenvalue and its positive eigenvector, which come from Sage. The vertical permutation describes going down rather than up (C74_up_violation)."
  },
  {
   "property": "C75",
   "status": "proved",
   "theorems": [
    "Flat.Poly.C75_small",
    "Flat.Poly.C75_triangulation"
   ],
   "note": "Proved for all polygons that can be created (C75_triangulation), and for lists of fewer than three vertices (C75_small)."
  },
  {
   "property": "C76",
   "status": "partial",
   "theorems": [
    "Flat.MSurf.C76_canonicalize_canonical",
    "Flat.MSurf.C76_canonicalize_decides",
    "Flat.MSurf.C76_canonicalize_iso",
    "Flat.MSurf.C76_canonicalize_succeeds_partial",
    "Flat.MSurf.C76_crash_violation"
   ],
   "note": "Proved for all connected closed surfaces as a function of the Delaunay decomposition: C76_canonicalize_iso, C76_canonicalize_canonical, C76_canonicalize_decides. That isomorphic surfaces have isomorphic Delaunay decompositions is not covered. canonicalize() can fail with an AssertionError (C76_crash_violation); that it does not fail is proved when only the polygon of the root has to be changed."
  },
  {
   "property": "C77",
   "status": "partial",
   "theorems": [
    "Flat.Cochain.C77_cohomology_equality_partial",
    "Flat.Cochain.C77_cohomology_gens",
    "Flat.Cochain.C77_dual",
    "Flat.Cochain.C77_evaluate_add",
    "Flat.Cochain.C77_evaluate_linear",
    "Flat.Cochain.C77_values_violation",
    "Flat.HGroup.C77_bool_violation",
    "Flat.HGroup.C77_coefficient_accepts",
    "Flat.HGroup.C77_coefficient_error",
    "Flat.HGroup.C77_coefficients_linear",
    "Flat.HGroup.C77_equality",
    "Flat.HGroup.C77_expansion",
    "Flat.HGroup.C77_hash",
    "Flat.RSurf.C77_surface_partial"
   ],
   "note": "Proved for all choices of generators and lifts: C77_equality, C77_hash, C77_coefficients_linear, C77_expansion, C77_coefficient_accepts, and for cohomology C77_evaluate_linear, C77_evaluate_add, C77_dual. bool() looks at the chain instead of the class (C77_bool_violation), and equality of cohomology classes holds only when values are given on generators (C77_values_violation). Surfaces with self-glued edges are excluded in C77_surface_partial."
  },
  {
   "property": "C78",
   "status": "partial",
   "theorems": [
    "Flat.RSurf.C78_gl2r_partial",
    "Flat.RSurf.C78_gl2r_violation",
    "Flat.RSurf.C78_identity_morphism",
    "Flat.RSurf.C78_subdivide_edges_partial",
    "Flat.RSurf.C78_triangulate",
    "Flat.RSurf.C78_homology_exists",
    "Flat.RSurf.C78_path_map",
    "Flat.HGroup.C78_add",
    "Flat.HGroup.C78_bool",
    "Flat.HGroup.C78_call_linear",
    "Flat.HGroup.C78_call_matrix",
    "Flat.HGroup.C78_composition",
    "Flat.HGroup.C78_hom_matrix",
    "Flat.HGroup.C78_identity",
    "Flat.HGroup.C78_induced",
    "Flat.HGroup.C78_neg",
    "Flat.HGroup.C78_scale_partial",
    "Flat.HGroup.C78_scale_violation"
   ],
   "note": "Morphisms of groups: C78_hom_matrix, C78_call_matrix, C78_call_linear, C78_add, C78_neg, C78_composition, C78_identity, C78_bool; a multiple of a morphism is right for endomorphisms only (C78_scale_partial, C78_scale_violation). Morphisms of surfaces: C78_path_map for every map of edges to paths that respects gluings, vertices and polygons, and from it C78_identity_morphism, C78_triangulate, C78_subdivide_edges_partial (connected surfaces) and C78_gl2r_partial (positive determinant; wrong for negative determinant, C78_gl2r_violation). Missing: surfaces with self-glued edges."
  },
  {
   "property": "C79",
   "status": "proved",
   "theorems": [
    "Flat.RSurf.C79_boundary",
    "Flat.RSurf.C79_cycle",
    "Flat.RSurf.C79_holonomy",
    "Flat.RSurf.C79_invert"
   ],
   "note": "SaddleConnection._homology_: the chain is computed for every saddle connection; boundary is end minus start, holonomy on translation surfaces, opposite direction gives the negative class. The unbounded flow is a flow of enough steps."
  },
  {
   "property": "C80",
   "status": "proved",
   "theorems": [
    "Flat.Hyp.Props.C80_contains",
    "Flat.Hyp.Props.C80_half_spaces",
    "Flat.Hyp.Props.C80_intersection",
    "Flat.Hyp.Props.C80_order_irrefl",
    "Flat.Hyp.Props.C80_order_total",
    "Flat.Hyp.Props.C80_order_trans",
    "Flat.Hyp.Props.C80_polygon",
    "Flat.Hyp.Props.C80_polygon_nil"
   ],
   "note": "marked vertices and check=True are not modelled; an_element and shuffle are parameters"
  },
  {
   "property": "C81",
   "status": "proved",
   "theorems": [
    "Flat.Hyp.Props.C81_canonical",
    "Flat.Hyp.Props.C81_dimension",
    "Flat.Hyp.Props.C81_equal",
    "Flat.Hyp.Props.C81_equal_extension",
    "Flat.Hyp.Props.C81_subset"
   ],
   "note": "for sets without orientation and marked vertices; comparison of the vertices of segments is simplified"
  },
  {
   "property": "C82",
   "status": "partial",
   "theorems": [
    "Flat.Hyp.Props.C82_collinear_violation",
    "Flat.Hyp.Props.C82_hull_partial"
   ],
   "note": "violated when all the vertices are on a line and not both extreme ones are ideal (C82_collinear_violation); polygons and marked vertices are not modelled; vertices have to be defined over the base field"
  },
  {
   "property": "C83",
   "status": "proved",
   "theorems": [
    "Flat.Hyp.Props.C83_edges"
   ],
   "note": "For polygons in normal form, without marked vertices, of any number of half spaces."
  },
  {
   "property": "C84",
   "status": "partial",
   "theorems": [
    "Flat.Hyp.Props.C84_marked_violation",
    "Flat.Hyp.Props.C84_vertices_partial"
   ],
   "note": "Vertices of polygons without marked vertices. With marked vertices a corner can get lost (C84_marked_violation)."
  },
  {
   "property": "C85",
   "status": "partial",
   "theorems": [
    "Flat.RSurf.C85_incomplete_violation",
    "Flat.RSurf.C85_nonconvex_violation",
    "Flat.RSurf.C85_singularity_violation",
    "Flat.RSurf.C85_straight_violation",
    "Flat.RSurf.C85_complete_partial",
    "Flat.RSurf.C85_defined",
    "Flat.RSurf.C85_intersections",
    "Flat.RSurf.C85_segments"
   ],
   "note": "Strictly convex polygons; crossings of closed trajectories and saddle connections away from vertices. Violated for polygons that are not convex, polygons with an angle equal to π, trajectories that end on an edge, and at singularities (C85_..._violation)."
  },
  {
   "property": "C86",
   "status": "proved",
   "theorems": [
    "Flat.C86_half_translation",
    "Flat.C86_integral",
    "Flat.C86_normalize",
    "Flat.C86_rational",
    "Flat.C86_stratum",
    "Flat.C86_translation"
   ],
   "note": "For all lists of positive rationals. That the smallest cover is the one of the holonomy group is the definition used in the statement; the theorem is not about the surface built by minimal_cover. Non-negativity of the genus is proved for Abelian strata only."
  },
  {
   "property": "C87",
   "status": "partial",
   "theorems": [
    "Flat.Poly.C87_enters",
    "Flat.Poly.C87_flow_error",
    "Flat.Poly.C87_flow_outside_violation",
    "Flat.Poly.C87_flow_partial",
    "Flat.Poly.C87_flow_translation",
    "Flat.Poly.C87_flow_violation",
    "Flat.Poly.C87_flow_zero",
    "Flat.Poly.C87_separatrix_partial",
    "Flat.Poly.C87_separatrix_violation"
   ],
   "note": "Proved for convex polygons; violated parts are proved as such: the position reported when the vector runs along an edge and stops on it is wrong (C87_flow_violation), points outside of the polygon are not rejected (C87_flow_outside_violation), the vertex number of find_separatrix is not reduced (C87_separatrix_violation)."
  },
  {
   "property": "C88",
   "status": "partial",
   "theorems": [
    "Flat.Hyp.C88_common_perpendicular",
    "Flat.Hyp.C88_common_perpendicular_exists",
    "Flat.Hyp.C88_midpoint",
    "Flat.Hyp.C88_midpoint_exists",
    "Flat.Hyp.C88_perpendicular",
    "Flat.Hyp.C88_perpendicular_default",
    "Flat.Hyp.C88_perpendicular_exists",
    "Flat.Hyp.C88_perpendicular_violation",
    "Flat.Hyp.C88_pole"
   ],
   "note": "Correctness of all results is proved without restriction. Existence is proved when the end points of the geodesic have coordinates in the base ring; otherwise it fails (C88_perpendicular_violation)."
  },
  {
   "property": "C89",
   "status": "partial",
   "theorems": [
    "Flat.Hyp.C89_bisector",
    "Flat.Hyp.C89_midpoint",
    "Flat.Hyp.C89_midpoint_exists",
    "Flat.Hyp.C89_midpoint_unbounded",
    "Flat.Hyp.C89_midpoint_violation",
    "Flat.Hyp.C89_perpendicular_point"
   ],
   "note": "Correctness of all results is proved without restriction. That the construction succeeds is proved when the ideal points of the perpendiculars at the end points have coordinates in the base ring; otherwise it fails (C89_midpoint_violation). A segment with one ideal end point has no midpoint (C89_midpoint_unbounded)."
  },
  {
   "property": "C90",
   "status": "proved",
   "theorems": [
    "Flat.FPath.C90_closed",
    "Flat.FPath.C90_free",
    "Flat.FPath.C90_generate",
    "Flat.FPath.C90_hol_homotopic",
    "Flat.FPath.C90_terminates"
   ],
   "note": "For all closed surfaces (termination for finitely many polygons). Homomorphisms to a group are given by values of the edges that are inverse for opposite edges; C90_hol_homotopic shows that they only depend on the homotopy class. The order of the sorted list is any order. For surfaces with boundary opposite_edge returns None and gens() raises a TypeError; this is not part of the property."
  },
  {
   "property": "C91",
   "status": "proved",
   "theorems": [
    "Flat.FlatTri.C91_basis",
    "Flat.FlatTri.C91_boundary",
    "Flat.FlatTri.C91_holonomy",
    "Flat.FlatTri.C91_lift",
    "Flat.FlatTri.C91_lift_length",
    "Flat.FlatTri.C91_returns"
   ],
   "note": "The triangulation of libflatsurf is given by its number of edges and nextInFace; half-edges are their indices. The assertions about the names of the faces in libflatsurf and about the rank of the matrix are not modelled (the rank follows from C91_basis). C91_lift takes a solver of linear equations as a parameter (solve_right of Sage). C91_boundary and C91_lift are for faces no two sides of which are glued to each other, which is the case on every translation surface."
  },
  {
   "property": "C92",
   "status": "partial",
   "theorems": [
    "Flat.MSurf.C92_convex_partial",
    "Flat.MSurf.C92_reflex",
    "Flat.MSurf.C92_returns_partial",
    "Flat.MSurf.C92_violation"
   ],
   "note": "Proved when the first corner of the first polygon that is not straight is convex, in particular when that polygon is convex. Violated otherwise (C92_reflex, C92_violation: AssertionError). The change to the subfield generated by the coordinates is not modelled."
  },
  {
   "property": "C93",
   "status": "partial",
   "theorems": [
    "Flat.MSurf.C93_flip",
    "Flat.MSurf.C93_flips",
    "Flat.MSurf.C93_reflex",
    "Flat.MSurf.C93_violation",
    "Flat.Poly.C93_area",
    "Flat.Poly.C93_cut",
    "Flat.Poly.C93_entries",
    "Flat.Poly.C93_rotate",
    "Flat.Poly.C93_translate"
   ],
   "note": "proved for polygons and for flips of triangulated translation surfaces; surfaces with a polygon that is not convex raise an AttributeError (C93_reflex, C93_violation); over QQ the method is not implemented"
  },
  {
   "property": "C94",
   "status": "partial",
   "theorems": [
    "Flat.MSurf.C94_errors",
    "Flat.MSurf.C94_finished",
    "Flat.MSurf.C94_flips",
    "Flat.MSurf.C94_limit",
    "Flat.MSurf.C94_test",
    "Flat.MSurf.C94_veering_partial",
    "Flat.MSurf.C94_violation"
   ],
   "note": "the test, the flips and the absence of edges that ask for a flip are proved; that the result is veering is proved when it has no horizontal and no vertical edges and is false in general (C94_violation); nothing fails; termination is proved with a limit only; not proved: that the test answers 1 exactly when a flip makes the edge shorter in the L-infinity norm (a wrong comparison there is not detected)"
  }
 ]
}