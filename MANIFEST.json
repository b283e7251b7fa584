{
 "claims": [
  {
   "property": "C01",
   "status": "proved",
   "theorems": [
    "Curvo.Props.C01_span_brackets",
    "Curvo.Props.C01_span_unique",
    "Curvo.Props.C01_left_of_domain",
    "Curvo.Props.C01_right_of_domain",
    "Curvo.Props.C01_linear_agrees"
   ],
   "note": "Scalars are any linearly ordered field; exact arithmetic."
  },
  {
   "property": "C02",
   "status": "proved",
   "theorems": [
    "Curvo.Props.C02_basis_is_cox_de_boor",
    "Curvo.Props.C02_other_basis_vanish",
    "Curvo.Props.C02_degenerate_span_nonfinite"
   ],
   "note": "Scalars are any linearly ordered field; exact arithmetic. The tolerance of the span search is explicit."
  },
  {
   "property": "C03",
   "status": "proved",
   "theorems": [
    "Curvo.Props.C03_partition_of_unity",
    "Curvo.Props.C03_nonneg"
   ],
   "note": "Scalars are any linearly ordered field; exact arithmetic."
  },
  {
   "property": "C04",
   "status": "proved",
   "theorems": [
    "Curvo.Props.C04_derivative_table",
    "Curvo.Props.C04_first_row",
    "Curvo.Props.C04_high_orders",
    "Curvo.Props.C04_real_derivative",
    "Curvo.Props.C04_real_derivative_interior"
   ],
   "note": "C04_derivative_table gives the table for every order and degree as values of the iterated formal derivative of the polynomial that agrees with the Cox-de Boor function on the span, over any ordered field; C04_real_derivative states it with Mathlib's iteratedDerivWithin over the reals."
  },
  {
   "property": "C05",
   "status": "proved",
   "theorems": [
    "Curvo.Props.C05_add_knot"
   ],
   "note": "Scalars are any linearly ordered field; the tolerance is explicit."
  },
  {
   "property": "C06",
   "status": "proved",
   "theorems": [
    "Curvo.Props.C06_sum_is_length",
    "Curvo.Props.C06_multiplicity_runs",
    "Curvo.Props.C06_multiplicity_counts",
    "Curvo.Props.C06_is_clamped",
    "Curvo.Props.C06_empty_panics"
   ],
   "note": "Scalars are any linearly ordered field; the tolerance is explicit."
  },
  {
   "property": "C07",
   "status": "proved",
   "theorems": [
    "Curvo.Props.C07_invert_mirror",
    "Curvo.Props.C07_invert_index",
    "Curvo.Props.C07_invert_keeps_ends",
    "Curvo.Props.C07_invert_involutive",
    "Curvo.Props.C07_invert_sorted",
    "Curvo.Props.C07_invert_domain"
   ],
   "note": "Scalars are any linearly ordered field; the tolerance is explicit."
  },
  {
   "property": "C08",
   "status": "proved",
   "theorems": [
    "Curvo.Props.C08_try_new_iff",
    "Curvo.Props.C08_try_new_result"
   ],
   "note": "Scalars are any linearly ordered field; the tolerance is explicit."
  },
  {
   "property": "C09",
   "status": "proved",
   "theorems": [
    "Curvo.Props.C09_point_is_bspline_sum",
    "Curvo.Props.C09_point_at",
    "Curvo.Props.C09_point_at_positive_weights"
   ],
   "note": "Well formed (Curve.Good): sorted knots, matching sizes, first and last span longer than the tolerance. C99 bounds the rounding errors."
  },
  {
   "property": "C10",
   "status": "proved",
   "theorems": [
    "Curvo.Props.C10_half_space",
    "Curvo.Props.C10_in_bounding_box",
    "Curvo.Props.C10_surface_half_space",
    "Curvo.Props.C10_surface_in_bounding_box"
   ],
   "note": "Positive weights; the half space theorem implies the convex hull property for all closed half spaces."
  },
  {
   "property": "C11",
   "status": "proved",
   "theorems": [
    "Curvo.Props.C11_clamped_start",
    "Curvo.Props.C11_clamped_end"
   ],
   "note": "Exact arithmetic; clamped means that the first (last) degree + 1 knots coincide."
  },
  {
   "property": "C12",
   "status": "proved",
   "theorems": [
    "Curvo.Props.C12_local_control"
   ],
   "note": "The interval is half open; at the end of the domain the last span counts as closed."
  },
  {
   "property": "C13",
   "status": "proved",
   "theorems": [
    "Curvo.Props.C13_invert_reverses",
    "Curvo.Props.C13_invert_involutive"
   ],
   "note": "The mirrored parametrisation needs interior multiplicities of at most the degree (at a break the two one sided values change places); the involution holds for every curve."
  },
  {
   "property": "C14",
   "status": "proved",
   "theorems": [
    "Curvo.Props.C14_normalize",
    "Curvo.Props.C14_degenerate_domain"
   ],
   "note": "The first and last span must stay longer than the tolerance after rescaling."
  },
  {
   "property": "C15",
   "status": "proved",
   "theorems": [
    "Curvo.Props.C15_transform_affine",
    "Curvo.Props.C15_projective_false",
    "Curvo.Props.C15_matrix_linear",
    "Curvo.Props.C15_control_points",
    "Curvo.Props.C15_surface_transform"
   ],
   "note": "Proved for every affine matrix; C15_projective_false shows the claim fails for projective matrices."
  },
  {
   "property": "C16",
   "status": "proved",
   "theorems": [
    "Curvo.Props.C16_elevate_dimension"
   ],
   "note": "Every curve, well formed or not; failures are carried over, too."
  },
  {
   "property": "C17",
   "status": "proved",
   "theorems": [
    "Curvo.Props.C17_normalized_segments",
    "Curvo.Props.C17_polyline",
    "Curvo.Props.C17_polyline_normalized",
    "Curvo.Props.C17_degenerate"
   ],
   "note": "The distance is a parameter (positive between consecutive points); C17_degenerate states the failures."
  },
  {
   "property": "C18",
   "status": "proved",
   "theorems": [
    "Curvo.Props.C18_periodic_iff",
    "Curvo.Props.C18_periodic_closed"
   ],
   "note": "Smoothness at the seam is C94_periodic_seam."
  },
  {
   "property": "C19",
   "status": "proved",
   "theorems": [
    "Curvo.Props.C19_refine_keeps_curve",
    "Curvo.Props.C19_refine_same_points",
    "Curvo.Props.C19_end_knot_breaks_evaluation"
   ],
   "note": "Same denotation for all domain knots; same evaluated points for knots strictly inside; C19_end_knot_breaks_evaluation shows the end of the domain is a genuine exception."
  },
  {
   "property": "C20",
   "status": "proved",
   "theorems": [
    "Curvo.Props.C20_add_knot",
    "Curvo.Props.C20_add_knot_in_domain",
    "Curvo.Props.C20_add_knot_same_points",
    "Curvo.Props.C20_rejects_out_of_range",
    "Curvo.Props.C20_rational_curve_moves"
   ],
   "note": "For constant weights; C20_rational_curve_moves shows the code changes a curve with different weights."
  },
  {
   "property": "C21",
   "status": "proved",
   "theorems": [
    "Curvo.Props.C21_split_domains",
    "Curvo.Props.C21_split_clamps",
    "Curvo.Props.C21_right_piece",
    "Curvo.Props.C21_left_piece",
    "Curvo.Props.C21_left_piece_at_knot"
   ],
   "note": "C21_left_piece_at_knot shows the exception: splitting at an existing knot leaves a left piece that divides by zero at its end."
  },
  {
   "property": "C22",
   "status": "proved",
   "theorems": [
    "Curvo.Props.C22_trim_inside",
    "Curvo.Props.C22_trim_outside",
    "Curvo.Props.C22_trim_to_knot_breaks"
   ],
   "note": "C22_trim_to_knot_breaks shows the exception at existing knots."
  },
  {
   "property": "C23",
   "status": "proved",
   "theorems": [
    "Curvo.Props.C23_segments",
    "Curvo.Props.C23_segments_hull",
    "Curvo.Props.C23_segments_closed",
    "Curvo.Props.C23_unclamped_covers_more"
   ],
   "note": "For clamped curves; C23_unclamped_covers_more shows that an unclamped curve's segments cover more than its domain."
  },
  {
   "property": "C24",
   "status": "proved",
   "theorems": [
    "Curvo.Props.C24_quadratic",
    "Curvo.Props.C24_unchanged",
    "Curvo.Props.C24_two_or_more_panics",
    "Curvo.Props.C24_counts",
    "Curvo.Props.C24_four_segments",
    "Curvo.Props.C24_fewer_segments",
    "Curvo.Props.C24_more_segments",
    "Curvo.Props.C24_cubic_simple_knots"
   ],
   "note": "C24_four_segments and C24_quadratic are the positive claims; C24_two_or_more_panics, C24_counts, C24_fewer_segments, C24_more_segments and C24_cubic_simple_knots record the violations."
  },
  {
   "property": "C25",
   "status": "proved",
   "theorems": [
    "Curvo.Props.C25_bookkeeping",
    "Curvo.Props.C25_errors",
    "Curvo.Props.C25_simple_knot",
    "Curvo.Props.C25_simple_knot_bound",
    "Curvo.Props.C25_within_tolerance",
    "Curvo.Props.C25_exact",
    "Curvo.Props.C25_undoes_add_knot",
    "Curvo.Props.C25_even_degree_exceeds_tolerance",
    "Curvo.Props.C25_double_knot_not_removed",
    "Curvo.Props.C25_double_knot_moves_curve",
    "Curvo.Props.C25_double_knot_panics",
    "Curvo.Props.C25_only_one_copy_goes",
    "Curvo.Props.C25_double_knot_answer",
    "Curvo.Props.C25_double_knot_loses_another"
   ],
   "note": "bookkeeping for all calls; geometry for simple interior knots whose distinct knots differ by more than the knot tolerance. remFactor is 1 for odd degrees. Negations: even degree exceeds tolerance; double knots not removed, moved, or panicking; of several removals only one takes a copy of the knot (C25_only_one_copy_goes, C25_double_knot_answer)."
  },
  {
   "property": "C26",
   "status": "proved",
   "theorems": [
    "Curvo.Props.C26_leibniz",
    "Curvo.Props.C26_homogeneous_derivatives",
    "Curvo.Props.C26_rational_derivatives",
    "Curvo.Props.C26_tangent"
   ],
   "note": "C26_rational_derivatives states it with iteratedDerivWithin over the reals for all orders and any normed space of points; C26_leibniz is the algebraic form over every ordered field, with uniqueness. Derivatives are one sided at knots, where the curve need not be smooth."
  },
  {
   "property": "C27",
   "status": "proved",
   "theorems": [
    "Curvo.Props.C27_leibniz",
    "Curvo.Props.C27_zero_weight",
    "Curvo.Props.C27_homogeneous_derivatives",
    "Curvo.Props.C27_rational_derivatives",
    "Curvo.Props.C27_normal",
    "Curvo.Props.C27_regular_sample_derivatives",
    "Curvo.Props.C27_regular_sample_rational",
    "Curvo.Props.C27_regular_sample_panics"
   ],
   "note": "Table characterised over any ordered field (C27_leibniz, C27_zero_weight) and identified with mixed iteratedDerivWithin derivatives over the reals (C27_homogeneous_derivatives, C27_rational_derivatives, C27_normal); shared-basis sampling agrees with pointwise evaluation for orders up to both degrees (C27_regular_sample_*), and C27_regular_sample_panics shows the out-of-range index beyond that. cross product is a parameter."
  },
  {
   "property": "C28",
   "status": "proved",
   "theorems": [
    "Curvo.Props.C28_point",
    "Curvo.Props.C28_point_at",
    "Curvo.Props.C28_regular_samples"
   ],
   "note": "Exact arithmetic; C99_surface bounds the rounding errors."
  },
  {
   "property": "C29",
   "status": "proved",
   "theorems": [
    "Curvo.Props.C29_flip_u",
    "Curvo.Props.C29_flip_v",
    "Curvo.Props.C29_flip_uv",
    "Curvo.Props.C29_invert",
    "Curvo.Props.C29_involution"
   ],
   "note": "The mirrored parametrisation needs no break in the flipped direction; the involution holds for every surface."
  },
  {
   "property": "C30",
   "status": "proved",
   "theorems": [
    "Curvo.Props.C30_extrude"
   ],
   "note": "Failures of the profile are carried over, too."
  },
  {
   "property": "C31",
   "status": "proved",
   "theorems": [
    "Curvo.Props.C31_plane",
    "Curvo.Props.C31_domain"
   ],
   "note": "Every centre and axes, no orthogonality needed."
  },
  {
   "property": "C32",
   "status": "proved",
   "theorems": [
    "Curvo.Props.C32_isocurve_u",
    "Curvo.Props.C32_isocurve_v",
    "Curvo.Props.C32_boundary_curves",
    "Curvo.Props.C32_double_knot_wrong"
   ],
   "note": "at interior knots of multiplicity two or more the code reads the wrong row: C32_double_knot_wrong"
  },
  {
   "property": "C33",
   "status": "proved",
   "theorems": [
    "Curvo.Props.C33_refine_u",
    "Curvo.Props.C33_refine_v",
    "Curvo.Props.C33_split_u",
    "Curvo.Props.C33_split_v"
   ],
   "note": "Knots inserted at an end of the domain keep the B-spline sum but not the evaluation there, as for curves (C19)."
  },
  {
   "property": "C34",
   "status": "proved",
   "theorems": [
    "Curvo.Props.C34_zero_divisions_v",
    "Curvo.Props.C34_normals",
    "Curvo.Props.C34_vertices",
    "Curvo.Props.C34_zero_divisions",
    "Curvo.Props.C34_faces",
    "Curvo.Props.C34_cover",
    "Curvo.Props.C34_disjoint",
    "Curvo.Props.C34_orientation",
    "Curvo.Props.C34_nodup"
   ],
   "note": "cross product and normalisation are parameters; divs >= 1 and degrees >= 1 for the vertex data, C34_zero_divisions shows what happens for zero divisions. Cover / disjointness / orientation are stated in grid coordinates with barycentric weights."
  },
  {
   "property": "C35",
   "status": "proved",
   "theorems": [
    "Curvo.Props.C35_too_few",
    "Curvo.Props.C35_coinciding",
    "Curvo.Props.C35_passes_through",
    "Curvo.Props.C35_only_solver_can_fail",
    "Curvo.Props.C35_degree_one"
   ],
   "note": "The LU solver is a parameter assumed to answer only with solutions of the square system. passes_through has no other hypothesis; only_solver_can_fail covers data whose consecutive points are apart; coinciding data give non finite parameters."
  },
  {
   "property": "C36",
   "status": "proved",
   "theorems": [
    "Curvo.Props.C36_intersects_iff",
    "Curvo.Props.C36_intersects_symm",
    "Curvo.Props.C36_common_point",
    "Curvo.Props.C36_new",
    "Curvo.Props.C36_points_box",
    "Curvo.Props.C36_empty_box",
    "Curvo.Props.C36_corners",
    "Curvo.Props.C36_lines"
   ],
   "note": "Boxes of any dimension; `big` stands for T::max_value()."
  },
  {
   "property": "C37",
   "status": "proved",
   "theorems": [
    "Curvo.Props.C37_surface_default_tolerance",
    "Curvo.Props.C37_no_miss",
    "Curvo.Props.C37_sound",
    "Curvo.Props.C37_terminates",
    "Curvo.Props.C37_curve_covers",
    "Curvo.Props.C37_curve_curve",
    "Curvo.Props.C37_default_tolerance",
    "Curvo.Props.C37_curve_curve_params",
    "Curvo.Props.C37_surface_covers",
    "Curvo.Props.C37_surface_curve"
   ],
   "note": "Generic traversal theorems for any pair of trees, and instances for curve-curve and surface-curve under the hypothesis that no split lands within eps of a knot (generic_of_ends, surf_generic_of_ends: automatic for Bezier curves and patches); default tolerance of curve trees included"
  },
  {
   "property": "C38",
   "status": "proved",
   "theorems": [
    "Curvo.Props.C38_no_crossing",
    "Curvo.Props.C38_both_contained_errors",
    "Curvo.Props.C38_select",
    "Curvo.Props.C38_largest_angle"
   ],
   "note": "Containment tests, degeneracy classification are parameters. Truthfulness of the tests is a hypothesis. Error for mutually contained curves is C38_both_contained_errors."
  },
  {
   "property": "C39",
   "status": "proved",
   "theorems": [
    "Curvo.Props.C39_walk",
    "Curvo.Props.C39_succeeds",
    "Curvo.Props.C39_no_holes",
    "Curvo.Props.C39_equal_parameters"
   ],
   "note": "Trimming and curve construction are parameters; that sides alternate at crossings is the definition of insideAt (crossing parity). Equal parameters: C39_equal_parameters."
  },
  {
   "property": "C40",
   "status": "proved",
   "theorems": [
    "Curvo.Props.C40_dealt",
    "Curvo.Props.C40_permutation",
    "Curvo.Props.C40_first_region",
    "Curvo.Props.C40_succeeds"
   ],
   "note": "Containment test is a parameter."
  },
  {
   "property": "C41",
   "status": "proved",
   "theorems": [
    "Curvo.Props.C41_distribute_sets",
    "Curvo.Props.C41_region_minus_curve",
    "Curvo.Props.C41_region_union_curve",
    "Curvo.Props.C41_region_region",
    "Curvo.Props.C41_right_iff",
    "Curvo.Props.C41_difference_ignores_holes",
    "Curvo.Props.C41_union_cuts_first",
    "Curvo.Props.C41_union_drops_disjoint",
    "Curvo.Props.C41_union_drops_island"
   ],
   "note": "The curve operation is a parameter assumed sound; region intersection with a curve is used as a hypothesis in C41_region_region and shown for the ideal set operation. Defects: C41_difference_ignores_holes, C41_union_cuts_first, C41_union_drops_disjoint, C41_union_drops_island."
  },
  {
   "property": "C42",
   "status": "proved",
   "theorems": [
    "Curvo.Props.C42_chain",
    "Curvo.Props.C42_loop",
    "Curvo.Props.C42_leftovers",
    "Curvo.Props.C42_knots_consecutive",
    "Curvo.Props.C42_empty",
    "Curvo.Props.C42_middle_first_drops",
    "Curvo.Props.C42_branch_dropped",
    "Curvo.Props.C42_branch_torn",
    "Curvo.Props.C42_unclamped_gap"
   ],
   "note": "For chains/loops in general position (no three spans meet, no short span), clamped spans; the property's statement names the exceptions, each shown by a counterexample theorem. Distance is any symmetric function; tolerance 1e-4 is a parameter."
  },
  {
   "property": "C43",
   "status": "proved",
   "theorems": [
    "Curvo.Props.C43_invert",
    "Curvo.Props.C43_involutive",
    "Curvo.Props.C43_joined",
    "Curvo.Props.C43_realigned_reverses",
    "Curvo.Props.C43_domains_not_realigned"
   ],
   "note": "The parametrisation claim holds only after realigning; C43_domains_not_realigned refutes it for invert alone."
  },
  {
   "property": "C44",
   "status": "proved",
   "theorems": [
    "Curvo.Props.C44_increasing",
    "Curvo.Props.C44_end_points",
    "Curvo.Props.C44_degree_one",
    "Curvo.Props.C44_lipschitz",
    "Curvo.Props.C44_end_lost"
   ],
   "note": "Tessellation of every curve with positive weights terminates for every random stream and yields curve points at strictly increasing parameters; with the small-piece hypothesis (implied by a Lipschitz bound in the plane) it starts and ends at the end points and every chord passed the flatness test. C44_end_lost shows the end point is lost on a domain shorter than the floor."
  },
  {
   "property": "C45",
   "status": "proved",
   "theorems": [
    "Curvo.Props.C45_mesh_valid",
    "Curvo.Props.C45_leaf"
   ],
   "note": "For every surface with positive weights whose knots are good, degree >= 2 or degree 1 with simple inner knots, with or without options and with non empty strictly increasing constraints."
  },
  {
   "property": "C46",
   "status": "proved",
   "theorems": [
    "Curvo.Props.C46_depth"
   ],
   "note": "Termination for every fuel above max(min_depth, max_depth) with a result independent of the fuel; depth in terms of halvings of grid cells."
  },
  {
   "property": "C47",
   "status": "proved",
   "theorems": [
    "Curvo.Props.C47_neighbours",
    "Curvo.Props.C47_north_south",
    "Curvo.Props.C47_east_west",
    "Curvo.Props.C47_west_first_row",
    "Curvo.Props.C47_west_first_column"
   ],
   "note": "north/south/east are right; west is right outside row 0 and column 0; negation theorems for the first row and column."
  },
  {
   "property": "C48",
   "status": "proved",
   "theorems": [
    "Curvo.Props.C48_merge",
    "Curvo.Props.C48_merge_strict",
    "Curvo.Props.C48_no_tolerance",
    "Curvo.Props.C48_both_sides",
    "Curvo.Props.C48_one_side_unsorted"
   ],
   "note": "Exact comparison, no tolerance: C48_no_tolerance; a single constrained side is not sorted: C48_one_side_unsorted."
  },
  {
   "property": "C49",
   "status": "proved",
   "theorems": [
    "Curvo.Props.C49_union",
    "Curvo.Props.C49_difference",
    "Curvo.Props.C49_difference_not_contained",
    "Curvo.Props.C49_unify",
    "Curvo.Props.C49_unify_degrees"
   ],
   "note": "Proved for curves of one degree whose knots start and end at the ends of their domain and whose transformed knots are equal or at least eps apart. C49_unify_degrees: curves of different degrees run into the defect of C24. C49_difference_not_contained: the difference needs containment."
  },
  {
   "property": "C50",
   "status": "proved",
   "theorems": [
    "Curvo.Props.C50_area_measure",
    "Curvo.Props.C50_area_placed",
    "Curvo.Props.C50_area_gram",
    "Curvo.Props.C50_triangles_iff_valid",
    "Curvo.Props.C50_add_triangles",
    "Curvo.Props.C50_sum_triangles",
    "Curvo.Props.C50_area_additive"
   ],
   "note": "Real arithmetic; mesh faces as triples of indices; area via an abstract triangle area plus the 2D formula."
  },
  {
   "property": "C51",
   "status": "proved",
   "theorems": [
    "Curvo.Props.C51_memoised",
    "Curvo.Props.C51_memo_entries",
    "Curvo.Props.C51_closed_form"
   ],
   "note": "u64 overflow and float rounding not modelled."
  },
  {
   "property": "C52",
   "status": "proved",
   "theorems": [
    "Curvo.Props.C52_closest",
    "Curvo.Props.C52_degenerate"
   ],
   "note": "Over R in any real inner product space."
  },
  {
   "property": "C53",
   "status": "proved",
   "theorems": [
    "Curvo.Props.C53_orthogonal",
    "Curvo.Props.C53_closest_pair",
    "Curvo.Props.C53_none_iff",
    "Curvo.Props.C53_parallel_none"
   ],
   "note": "Over R in any real inner product space; 'parallel' means the code's own threshold on the Gram determinant."
  },
  {
   "property": "C54",
   "status": "proved",
   "theorems": [
    "Curvo.Props.C54_segment_parameter",
    "Curvo.Props.C54_accuracy",
    "Curvo.Props.C54_parameter_monotone",
    "Curvo.Props.C54_search_ends",
    "Curvo.Props.C54_zero_tolerance_never_ends",
    "Curvo.Props.C54_length",
    "Curvo.Props.C54_divide",
    "Curvo.Props.C54_divide_errors",
    "Curvo.Props.C54_divide_by_count",
    "Curvo.Props.C54_parameter_at_length",
    "Curvo.Props.C54_unclamped_start_outside",
    "Curvo.Props.C54_speed",
    "Curvo.Props.C54_quadrature",
    "Curvo.Props.C54_exact_rule",
    "Curvo.Props.C54_search_ends_real",
    "Curvo.Props.C54_divide_ends"
   ],
   "note": "Clamped curves with knot multiplicities up to degree + 1; the quadrature rule is a parameter (nodes in [-1,1], non-negative weights summing to 2 where needed). Exceptions proved: tolerance 0 never ends, one part is an error, unclamped start lies outside the domain."
  },
  {
   "property": "C55",
   "status": "proved",
   "theorems": [
    "Curvo.Props.C55_open_constrain",
    "Curvo.Props.C55_closed_constrain",
    "Curvo.Props.C55_open_stays_inside",
    "Curvo.Props.C55_fixed_point_stationary",
    "Curvo.Props.C55_closed_surface_constrain",
    "Curvo.Props.C55_surface_no_worse",
    "Curvo.Props.C55_surface_open_stays_inside",
    "Curvo.Props.C55_guess_nearest",
    "Curvo.Props.C55_objective",
    "Curvo.Props.C55_closed_leaves_domain",
    "Curvo.Props.C55_may_return_farthest",
    "Curvo.Props.C55_line",
    "Curvo.Props.C55_steps",
    "Curvo.Props.C55_plane"
   ],
   "note": "The executor of the crate argmin is modelled from its documentation. C55_line: exact answer on straight curves of constant speed. Exceptions proved: closed curves leave the domain (C55_closed_constrain, C55_closed_leaves_domain), the result on an open curve can be its farthest point (C55_may_return_farthest)."
  },
  {
   "property": "C56",
   "status": "proved",
   "theorems": [
    "Curvo.Props.C56_curve_accepts",
    "Curvo.Props.C56_curve_order",
    "Curvo.Props.C56_curve_round_trip",
    "Curvo.Props.C56_curve_rejects",
    "Curvo.Props.C56_positional_rejected",
    "Curvo.Props.C56_surface_accepts",
    "Curvo.Props.C56_surface_order",
    "Curvo.Props.C56_surface_round_trip",
    "Curvo.Props.C56_compound_accepts",
    "Curvo.Props.C56_compound_round_trip",
    "Curvo.Props.C56_region_accepts",
    "Curvo.Props.C56_region_round_trip",
    "Curvo.Props.C56_trimmed_accepts",
    "Curvo.Props.C56_trimmed_round_trip",
    "Curvo.Props.C56_trimmed_drops_exterior",
    "Curvo.Props.C56_trimmed_missing_exterior",
    "Curvo.Props.C56_no_validation",
    "Curvo.Props.C56_region_positional",
    "Curvo.Props.C56_region_kinds"
   ],
   "note": "Acceptance of documents characterised exactly; round trips for curve, surface, compound curve, region, trimmed surface; defects stated as theorems: constructor checks skipped, positional documents rejected, malformed or missing exterior of a trimmed surface silently dropped. Documents are trees, a parser left inside a failed value is not modelled."
  },
  {
   "property": "C57",
   "status": "proved",
   "theorems": [
    "Curvo.Props.C57_rotation",
    "Curvo.Props.C57_translate",
    "Curvo.Props.C57_outside_box",
    "Curvo.Props.C57_inside_convex",
    "Curvo.Props.C57_outside_hull",
    "Curvo.Props.C57_outside_convex",
    "Curvo.Props.C57_reverse",
    "Curvo.Props.C57_constant",
    "Curvo.Props.C57_crossing"
   ],
   "note": "Exact arithmetic orientation predicate (the robust crate is exact in sign)."
  },
  {
   "property": "C58",
   "status": "proved",
   "theorems": [
    "Curvo.Props.C58_intersects_iff",
    "Curvo.Props.C58_collinear_false",
    "Curvo.Props.C58_collinear_overlap_missed",
    "Curvo.Props.C58_symmetric"
   ],
   "note": "Collinear overlapping segments are reported as not intersecting (C58_collinear_overlap_missed)."
  },
  {
   "property": "C59",
   "status": "proved",
   "theorems": [
    "Curvo.Props.C59_arc",
    "Curvo.Props.C59_circle",
    "Curvo.Props.C59_ellipse_quarters",
    "Curvo.Props.C59_ellipse",
    "Curvo.Props.C59_angles",
    "Curvo.Props.C59_degenerate",
    "Curvo.Props.C59_ellipse_arc_wrong"
   ],
   "note": "Arcs, circles, full ellipses and quarters; other elliptic arcs are refuted (C59_ellipse_arc_wrong). Orthogonal axes. Real numbers and exact trigonometric functions."
  },
  {
   "property": "C60",
   "status": "proved",
   "theorems": [
    "Curvo.Props.C60_weights_up_to_scale",
    "Curvo.Props.C60_equal_weights"
   ],
   "note": "Every curve, well formed or not."
  },
  {
   "property": "C61",
   "status": "proved",
   "theorems": [
    "Curvo.Props.C61_samples",
    "Curvo.Props.C61_degenerate",
    "Curvo.Props.C61_samples_succeed",
    "Curvo.Props.C61_with_parameter"
   ],
   "note": "One sample faults as 0/0; zero samples give nothing."
  },
  {
   "property": "C62",
   "status": "proved",
   "theorems": [
    "Curvo.Props.C62_grouped",
    "Curvo.Props.C62_curve_curve",
    "Curvo.Props.C62_no_miss",
    "Curvo.Props.C62_surface_curve",
    "Curvo.Props.C62_double_point_lost"
   ],
   "note": "The quasi-Newton solver is an arbitrary function of the two pieces. Includes the theorem that a double point of the first curve is reported only once (code defect)."
  },
  {
   "property": "C63",
   "status": "proved",
   "theorems": [
    "Curvo.Props.C63_leaves_tile"
   ],
   "note": "Tiling of the domain by the initial grid and by the leaves of the final tree; corner points are surface points."
  },
  {
   "property": "C64",
   "status": "proved",
   "theorems": [
    "Curvo.Props.C64_transpose",
    "Curvo.Props.C64_transpose_involutive",
    "Curvo.Props.C64_empty_panics",
    "Curvo.Props.C64_longer_row_panics"
   ],
   "note": "Rectangular nets of any size."
  },
  {
   "property": "C65",
   "status": "proved",
   "theorems": [
    "Curvo.Props.C65_uniform_values",
    "Curvo.Props.C65_uniform_empty",
    "Curvo.Props.C65_uniform_good"
   ],
   "note": "Exact arithmetic."
  },
  {
   "property": "C66",
   "status": "proved",
   "theorems": [
    "Curvo.Props.C66_regularly_spaced",
    "Curvo.Props.C66_ends"
   ],
   "note": "At least one division; zero divisions fault."
  },
  {
   "property": "C67",
   "status": "proved",
   "theorems": [
    "Curvo.Props.C67_constrain",
    "Curvo.Props.C67_end_points",
    "Curvo.Props.C67_end_points_clamped",
    "Curvo.Props.C67_is_closed"
   ],
   "note": "The distance of the closedness test is a parameter; knots equal or further than the tolerance apart."
  },
  {
   "property": "C68",
   "status": "proved",
   "theorems": [
    "Curvo.Props.C68_no_t_junction",
    "Curvo.Props.C68_crack"
   ],
   "note": "C68_no_t_junction outside the exception; C68_crack shows that the exception occurs."
  },
  {
   "property": "C69",
   "status": "proved",
   "theorems": [
    "Curvo.Props.C69_leaf",
    "Curvo.Props.C69_orientation_and_area",
    "Curvo.Props.C69_cover"
   ],
   "note": "Same scope as C45 without boundary constraints (with constraints the vertices are snapped)."
  },
  {
   "property": "C70",
   "status": "proved",
   "theorems": [
    "Curvo.Props.C70_passes_through",
    "Curvo.Props.C70_closed",
    "Curvo.Props.C70_rejects"
   ],
   "note": "The LU solver is a parameter assumed to answer only with solutions. Closing up needs the first and last segment longer than the tolerance. Degree zero panics (stated in C70_rejects)."
  },
  {
   "property": "C71",
   "status": "proved",
   "theorems": [
    "Curvo.Props.C71_evaluates",
    "Curvo.Props.C71_domain",
    "Curvo.Props.C71_joints"
   ],
   "note": "Spans with consecutive domains (as set up by the constructor), each well formed with positive weights."
  },
  {
   "property": "C72",
   "status": "proved",
   "theorems": [
    "Curvo.Props.C72_trim_inside",
    "Curvo.Props.C72_trim_outside",
    "Curvo.Props.C72_parts_tile",
    "Curvo.Props.C72_joint_end_wrong"
   ],
   "note": "Cut parameters at distance at least eps from the knots of the cut span; C72_joint_end_wrong shows the defect for an upper parameter at a joint."
  },
  {
   "property": "C73",
   "status": "proved",
   "theorems": [
    "Curvo.Props.C73_revolve",
    "Curvo.Props.C73_sphere",
    "Curvo.Props.C73_sphere_points",
    "Curvo.Props.C73_sphere_axis",
    "Curvo.Props.C73_sphere_space"
   ],
   "note": "Cross product abstract (Turn), instance for space (cross3_turn). Axes that are not unit vectors refuted (C73_sphere_axis)."
  },
  {
   "property": "C74",
   "status": "proved",
   "theorems": [
    "Curvo.Props.C74_cull",
    "Curvo.Props.C74_compound",
    "Curvo.Props.C74_compound_compound",
    "Curvo.Props.C74_open_end_lost"
   ],
   "note": "Includes the theorem that an open compound curve loses a hit at its end when there is one at its start (code defect). The span references in the returned records are left out of the model."
  },
  {
   "property": "C75",
   "status": "proved",
   "theorems": [
    "Curvo.Props.C75_frames_orthonormal",
    "Curvo.Props.C75_frames_carried",
    "Curvo.Props.C75_frames_exist",
    "Curvo.Props.C75_no_parameters",
    "Curvo.Props.C75_frames_of_curve",
    "Curvo.Props.C75_matrix",
    "Curvo.Props.C75_matrix_isometry"
   ],
   "note": "For eps < 1. Norm and trigonometric functions are exact; two nalgebra functions are modelled from their documentation."
  },
  {
   "property": "C76",
   "status": "proved",
   "theorems": [
    "Curvo.Props.C76_shape",
    "Curvo.Props.C76_end_sections",
    "Curvo.Props.C76_equal_spacing",
    "Curvo.Props.C76_ruled",
    "Curvo.Props.C76_only_solver_can_fail",
    "Curvo.Props.C76_degree_one",
    "Curvo.Props.C76_loft",
    "Curvo.Props.C76_shared_start",
    "Curvo.Props.C76_intermediate_missed",
    "Curvo.Props.C76_different_degrees"
   ],
   "note": "the linear solver and the distance of homogeneous points are parameters; soundness (and for existence completeness) of the solver is assumed"
  },
  {
   "property": "C77",
   "status": "proved",
   "theorems": [
    "Curvo.Props.C77_degree_one",
    "Curvo.Props.C77_sweep",
    "Curvo.Props.C77_straight"
   ],
   "note": "over the reals; the linear solver is a parameter; the straight case uses the code's distance of dehomogenised points"
  },
  {
   "property": "C78",
   "status": "proved",
   "theorems": [
    "Curvo.Props.C78_ray",
    "Curvo.Props.C78_even_odd",
    "Curvo.Props.C78_compound",
    "Curvo.Props.C78_open",
    "Curvo.Props.C78_outside_box",
    "Curvo.Props.C78_on_boundary",
    "Curvo.Props.C78_hits_sound",
    "Curvo.Props.C78_undivided",
    "Curvo.Props.C78_bulge_missed",
    "Curvo.Props.C78_failed_search",
    "Curvo.Props.C78_failed_search_compound",
    "Curvo.Props.C78_even_odd_search",
    "Curvo.Props.C78_polygon",
    "Curvo.Props.C78_agree"
   ],
   "note": "general position is stated in RayGeneral; C78_undivided and C78_bulge_missed show where the code departs from the even-odd rule"
  },
  {
   "property": "C79",
   "status": "proved",
   "theorems": [
    "Curvo.Props.C79_transform",
    "Curvo.Props.C79_length",
    "Curvo.Props.C79_length_append",
    "Curvo.Props.C79_length_perm",
    "Curvo.Props.C79_closest",
    "Curvo.Props.C79_closest_exists",
    "Curvo.Props.C79_closest_on_curve"
   ],
   "note": "Spans of any shape."
  },
  {
   "property": "C80",
   "status": "proved",
   "theorems": [
    "Curvo.Props.C80_vertices",
    "Curvo.Props.C80_tessellation",
    "Curvo.Props.C80_empty"
   ],
   "note": "The random generator is an arbitrary stream."
  },
  {
   "property": "C81",
   "status": "proved",
   "theorems": [
    "Curvo.Props.C81_secant",
    "Curvo.Props.C81_symmetric",
    "Curvo.Props.C81_positive",
    "Curvo.Props.C81_descent_direction",
    "Curvo.Props.C81_step",
    "Curvo.Props.C81_gradient",
    "Curvo.Props.C81_gradient_surface",
    "Curvo.Props.C81_refused_taken"
   ],
   "note": "Over the reals; costs and gradients are those of the code for curve-curve and surface-curve problems."
  },
  {
   "property": "C82",
   "status": "proved",
   "theorems": [
    "Curvo.Props.C82_best",
    "Curvo.Props.C82_exact_start",
    "Curvo.Props.C82_terminates",
    "Curvo.Props.C82_curves_total",
    "Curvo.Props.C82_surface_total",
    "Curvo.Props.C82_curves",
    "Curvo.Props.C82_common_start",
    "Curvo.Props.C82_surface",
    "Curvo.Props.C82_may_miss"
   ],
   "note": "Over the reals; the iteration limit is explicit."
  },
  {
   "property": "C83",
   "status": "proved",
   "theorems": [
    "Curvo.Props.C83_increasing",
    "Curvo.Props.C83_ends",
    "Curvo.Props.C83_refused",
    "Curvo.Props.C83_parabola_cut"
   ],
   "note": "The exceptions of the statement are proved as C83_refused and C83_parabola_cut."
  },
  {
   "property": "C84",
   "status": "proved",
   "theorems": [
    "Curvo.Props.C84_trimmed",
    "Curvo.Props.C84_mismatch",
    "Curvo.Props.C84_region"
   ],
   "note": "The constrained Delaunay triangulation of the crate spade is an arbitrary function whose faces refer to its own vertices, which are among the inserted ones."
  },
  {
   "property": "C85",
   "status": "proved",
   "theorems": [
    "Curvo.Props.C85_closest_point",
    "Curvo.Props.C85_search_failure",
    "Curvo.Props.C85_no_curves",
    "Curvo.Props.C85_plane",
    "Curvo.Props.C85_end_points",
    "Curvo.Props.C85_projection_point",
    "Curvo.Props.C85_projection",
    "Curvo.Props.C85_ray_reaches",
    "Curvo.Props.C85_ray_too_short",
    "Curvo.Props.C85_transform",
    "Curvo.Props.C85_invert_mirrors",
    "Curvo.Props.C85_invert_moves_trim",
    "Curvo.Props.C85_control_points_only"
   ],
   "note": "The closest point search and the surface-curve intersection are arbitrary functions; exceptions are proved as C85_control_points_only, C85_ray_too_short, C85_invert_moves_trim."
  },
  {
   "property": "C86",
   "status": "proved",
   "theorems": [
    "Curvo.Props.C86_classify",
    "Curvo.Props.C86_lines",
    "Curvo.Props.C86_touch",
    "Curvo.Props.C86_depends_on_scale",
    "Curvo.Props.C86_tangent_crossing"
   ],
   "note": "Norm is a parameter specified as the euclidean length; the two exceptions are proved as counterexamples."
  },
  {
   "property": "C87",
   "status": "proved",
   "theorems": [
    "Curvo.Props.C87_boundary",
    "Curvo.Props.C87_start_point"
   ],
   "note": "Proper crossings well apart from each other, from joints and from knots. The intersection list and the inside/outside relation of the two curves are hypotheses (the queries that produce them are C62 and C74); classification and pairing of the list are the modelled ones. Curves that do not cross are C38_no_crossing."
  },
  {
   "property": "C88",
   "status": "proved",
   "theorems": [
    "Curvo.Props.C88_region"
   ],
   "note": "Regions are arbitrary sets whose membership changes along the path and along the curves exactly at the modelled places (a Jordan type assumption, shown for two overlapping squares)."
  },
  {
   "property": "C89",
   "status": "proved",
   "theorems": [
    "Curvo.Props.C89_variation_diminishing",
    "Curvo.Props.C89_at_most",
    "Curvo.Props.C89_monotone"
   ],
   "note": "weights positive, positive degree; alternations are counted with strict signs"
  },
  {
   "property": "C90",
   "status": "proved",
   "theorems": [
    "Curvo.Props.C90_exists_unique",
    "Curvo.Props.C90_loft",
    "Curvo.Props.C90_sweep"
   ],
   "note": "exact arithmetic; the LU solver is any function that returns solutions and answers regular systems; the first and last chord are at least the tolerance, as in C35"
  },
  {
   "property": "C91",
   "status": "proved",
   "theorems": [
    "Curvo.Props.C91_oriented",
    "Curvo.Props.C91_convex",
    "Curvo.Props.C91_winding",
    "Curvo.Props.C91_two_crossings",
    "Curvo.Props.C91_tessellation"
   ],
   "note": "weights positive; tessellation with any metric and random stream"
  },
  {
   "property": "C92",
   "status": "proved",
   "theorems": [
    "Curvo.Props.C92_quadratic_piece",
    "Curvo.Props.C92_quadratic",
    "Curvo.Props.C92_bump_missed"
   ],
   "note": "bound for Bezier quadratics (area and distance form); C92_bump_missed: with inner knots no tolerance bounds the deviation"
  },
  {
   "property": "C93",
   "status": "proved",
   "theorems": [
    "Curvo.Props.C93_odd",
    "Curvo.Props.C93_even_fails"
   ],
   "note": "C93_odd over the reals; C93_even_fails over every ordered field (defect: even degree with an even number of equally spaced points is singular)"
  },
  {
   "property": "C94",
   "status": "proved",
   "theorems": [
    "Curvo.Props.C94_smooth",
    "Curvo.Props.C94_points",
    "Curvo.Props.C94_tangent",
    "Curvo.Props.C94_periodic_seam",
    "Curvo.Props.C94_interpolation_seam",
    "Curvo.Props.C94_corner",
    "Curvo.Props.C94_surface_smooth",
    "Curvo.Props.C94_surface_points",
    "Curvo.Props.C94_normal",
    "Curvo.Props.C94_surface_derivatives"
   ],
   "note": "Differentiability over the closed domain is one-sided at its two ends only. C94_corner shows that the bound is sharp for polylines. The seam theorem for periodic interpolation assumes that all parameter segments are positive and the first and last are not below the knot tolerance."
  },
  {
   "property": "C95",
   "status": "proved",
   "theorems": [
    "Curvo.Props.C95_legs",
    "Curvo.Props.C95_monotone",
    "Curvo.Props.C95_length",
    "Curvo.Props.C95_tessellation",
    "Curvo.Props.C95_refine",
    "Curvo.Props.C95_add_knot",
    "Curvo.Props.C95_arc_length"
   ],
   "note": "Norms are any function with the triangle inequality and non-negative homogeneity; arc length is Mathlib's total variation. Knots inserted exactly at the end of the domain are excluded from the polygon statement."
  },
  {
   "property": "C96",
   "status": "proved",
   "theorems": [
    "Curvo.Props.C96_v_min",
    "Curvo.Props.C96_u_min",
    "Curvo.Props.C96_complete",
    "Curvo.Props.C96_v_max",
    "Curvo.Props.C96_u_max",
    "Curvo.Props.C96_collapse",
    "Curvo.Props.C96_normals_not_unit",
    "Curvo.Props.C96_min_depth"
   ],
   "note": "C96_v_min, C96_u_min, C96_complete are the claim; C96_min_depth, C96_v_max, C96_u_max, C96_collapse and C96_normals_not_unit are the exceptions of the code."
  },
  {
   "property": "C97",
   "status": "proved",
   "theorems": [
    "Curvo.Props.C97_refinement",
    "Curvo.Props.C97_flat",
    "Curvo.Props.C97_normals",
    "Curvo.Props.C97_pole"
   ],
   "note": "C97_pole records the violation: grid points without a normal are neither marked nor corrected."
  },
  {
   "property": "C98",
   "status": "proved",
   "theorems": [
    "Curvo.Props.C98_handed_over",
    "Curvo.Props.C98_squares"
   ],
   "note": "The search for intersections of two curves is a parameter, constrained to find a symmetric relation exactly."
  },
  {
   "property": "C99",
   "status": "proved",
   "theorems": [
    "Curvo.Props.C99_exact",
    "Curvo.Props.C99_span",
    "Curvo.Props.C99_basis",
    "Curvo.Props.C99_curve",
    "Curvo.Props.C99_surface",
    "Curvo.Props.C99_nearest",
    "Curvo.Props.C99_double"
   ],
   "note": "A rounding is any monotone function with relative error at most mu (no overflow or underflow); C99_nearest shows that round to nearest with 53 bits is one. Knots and parameter are stored numbers."
  },
  {
   "property": "C100",
   "status": "proved",
   "theorems": [
    "Curvo.Props.C100_refine",
    "Curvo.Props.C100_split",
    "Curvo.Props.C100_points",
    "Curvo.Props.C100_exact",
    "Curvo.Props.C100_double"
   ],
   "note": "As C99; bounds per control point coordinate, C100_points for evaluated points."
  },
  {
   "property": "C101",
   "status": "proved",
   "theorems": [
    "Curvo.Props.C101_equal_weights",
    "Curvo.Props.C101_linear",
    "Curvo.Props.C101_finite",
    "Curvo.Props.C101_sweep",
    "Curvo.Props.C101_pole"
   ],
   "note": "The linear solver is a parameter required to be sound."
  },
  {
   "property": "C102",
   "status": "proved",
   "theorems": [
    "Curvo.Props.C102_similarity",
    "Curvo.Props.C102_reverse",
    "Curvo.Props.C102_planar",
    "Curvo.Props.C102_loft_sections",
    "Curvo.Props.C102_loft",
    "Curvo.Props.C102_loft_similarity",
    "Curvo.Props.C102_loft_translation"
   ],
   "note": "The linear solvers are parameters; singular systems are excluded."
  },
  {
   "property": "C103",
   "status": "proved",
   "theorems": [
    "Curvo.Props.C103_linear",
    "Curvo.Props.C103_linear_surface",
    "Curvo.Props.C103_transform",
    "Curvo.Props.C103_transform_surface",
    "Curvo.Props.C103_positive",
    "Curvo.Props.C103_add_knot"
   ],
   "note": "Equalities of results including failures, where stated for every curve."
  },
  {
   "property": "C104",
   "status": "proved",
   "theorems": [
    "Curvo.Props.C104_refine",
    "Curvo.Props.C104_split",
    "Curvo.Props.C104_segments",
    "Curvo.Props.C104_split_boxes",
    "Curvo.Props.C104_tree",
    "Curvo.Props.C104_surface_refine",
    "Curvo.Props.C104_surface_split",
    "Curvo.Props.C104_surface_tree"
   ],
   "note": "Positive weights; the random generator is an arbitrary stream."
  },
  {
   "property": "C105",
   "status": "proved",
   "theorems": [
    "Curvo.Props.C105_derivatives",
    "Curvo.Props.C105_length",
    "Curvo.Props.C105_parameter",
    "Curvo.Props.C105_divide",
    "Curvo.Props.C105_closest_parameter",
    "Curvo.Props.C105_closest_point",
    "Curvo.Props.C105_tessellate",
    "Curvo.Props.C105_similarity",
    "Curvo.Props.C105_isometry"
   ],
   "note": "The norm, the quadrature rule and the random stream are parameters."
  },
  {
   "property": "C106",
   "status": "proved",
   "theorems": [
    "Curvo.Props.C106_derivatives",
    "Curvo.Props.C106_mirrored",
    "Curvo.Props.C106_tessellate",
    "Curvo.Props.C106_closest_parameter",
    "Curvo.Props.C106_closest_point",
    "Curvo.Props.C106_regular",
    "Curvo.Props.C106_extrude",
    "Curvo.Props.C106_plane",
    "Curvo.Props.C106_transform"
   ],
   "note": "The metric is a parameter; isometries of it."
  },
  {
   "property": "C107",
   "status": "proved",
   "theorems": [
    "Curvo.Props.C107_determined",
    "Curvo.Props.C107_refine_any_order",
    "Curvo.Props.C107_add_knot_is_refinement",
    "Curvo.Props.C107_split_any_order",
    "Curvo.Props.C107_split_refined",
    "Curvo.Props.C107_influence_needed",
    "Curvo.Props.C107_surface_determined",
    "Curvo.Props.C107_surface_refine_commutes"
   ],
   "note": "Linear independence of the B-splines on the domain is proved, not assumed."
  },
  {
   "property": "C108",
   "status": "proved",
   "theorems": [
    "Curvo.Props.C108_refine_reversed",
    "Curvo.Props.C108_split_reversed"
   ],
   "note": "Knots in the domain, inner multiplicities at most the degree."
  },
  {
   "property": "C109",
   "status": "proved",
   "theorems": [
    "Curvo.Props.C109_interpolate_degree_one",
    "Curvo.Props.C109_unify_compatible",
    "Curvo.Props.C109_loft_is_extrusion",
    "Curvo.Props.C109_plane_is_extrusion"
   ],
   "note": "The linear solver is a parameter required to be sound and complete."
  },
  {
   "property": "C110",
   "status": "proved",
   "theorems": [
    "Curvo.Props.C110_shared_out",
    "Curvo.Props.C110_divided",
    "Curvo.Props.C110_commutative",
    "Curvo.Props.C110_classify",
    "Curvo.Props.C110_exchange",
    "Curvo.Props.C110_differences"
   ],
   "note": "Operands cross properly away from their joints; containment tests as in C87 to C89."
  },
  {
   "property": "C111",
   "status": "proved",
   "theorems": [
    "Curvo.Props.C111_trim_trim",
    "Curvo.Props.C111_inside_outside",
    "Curvo.Props.C111_trim_reversed",
    "Curvo.Props.C111_four_patches"
   ],
   "note": "Cuts are clear of the knots by the tolerance."
  },
  {
   "property": "C112",
   "status": "proved",
   "theorems": [
    "Curvo.Props.C112_same_pieces",
    "Curvo.Props.C112_same_measures",
    "Curvo.Props.C112_more_copies",
    "Curvo.Props.C112_pieces_reversed",
    "Curvo.Props.C112_length_reversed"
   ],
   "note": "Clamped curves with separated knots."
  },
  {
   "property": "C113",
   "status": "proved",
   "theorems": [
    "Curvo.Props.C113_move",
    "Curvo.Props.C113_weight",
    "Curvo.Props.C113_close",
    "Curvo.Props.C113_surface_close"
   ],
   "note": "Positive weights."
  },
  {
   "property": "C114",
   "status": "proved",
   "theorems": [
    "Curvo.Props.C114_averages",
    "Curvo.Props.C114_lipschitz",
    "Curvo.Props.C114_samples",
    "Curvo.Props.C114_converges",
    "Curvo.Props.C114_mesh_converges"
   ],
   "note": "Positive weights; the bounds are explicit in the size of the control net and the number of samples."
  },
  {
   "property": "C115",
   "status": "proved",
   "theorems": [
    "Curvo.Props.C115_curves",
    "Curvo.Props.C115_compound",
    "Curvo.Props.C115_contains",
    "Curvo.Props.C115_contains_compound",
    "Curvo.Props.C115_surface_curve"
   ],
   "note": "Shifts (and axis aligned maps where boxes are used); same stream of random numbers on both sides."
  },
  {
   "property": "C116",
   "status": "proved",
   "theorems": [
    "Curvo.Props.C116_curves",
    "Curvo.Props.C116_compound_curve",
    "Curvo.Props.C116_curve_compound",
    "Curvo.Props.C116_compounds",
    "Curvo.Props.C116_library",
    "Curvo.Props.C116_region_curve",
    "Curvo.Props.C116_region_region",
    "Curvo.Props.C116_regions"
   ],
   "note": "As C115."
  },
  {
   "property": "C117",
   "status": "proved",
   "theorems": [
    "Curvo.Props.C117_refine_any_order",
    "Curvo.Props.C117_isocurve_refined",
    "Curvo.Props.C117_isocurve_across",
    "Curvo.Props.C117_isocurve_refined_v",
    "Curvo.Props.C117_isocurve_across_v",
    "Curvo.Props.C117_isocurve_split",
    "Curvo.Props.C117_isocurve_split_v"
   ],
   "note": "Isocurve parameter not a repeated inner knot (see C32)."
  },
  {
   "property": "C118",
   "status": "proved",
   "theorems": [
    "Curvo.Props.C118_exact",
    "Curvo.Props.C118_box",
    "Curvo.Props.C118_overlap",
    "Curvo.Props.C118_meeting_curves",
    "Curvo.Props.C118_invert",
    "Curvo.Props.C118_samples",
    "Curvo.Props.C118_last_sample",
    "Curvo.Props.C118_invert_merges"
   ],
   "note": "As C99; C118_last_sample and C118_invert_merges are exceptions shown for every rounding to the nearest double."
  },
  {
   "property": "C119",
   "status": "proved",
   "theorems": [
    "Curvo.Props.C119_exact",
    "Curvo.Props.C119_any_rounding",
    "Curvo.Props.C119_plane",
    "Curvo.Props.C119_space",
    "Curvo.Props.C119_zero_tolerance"
   ],
   "note": "As C99; the recursion is shown to end for round to nearest with 53 bits and positive tolerances, C119_zero_tolerance shows that it need not for tolerance zero. Overflow and underflow are not modelled."
  },
  {
   "property": "C120",
   "status": "proved",
   "theorems": [
    "Curvo.Props.C120_exact",
    "Curvo.Props.C120_result",
    "Curvo.Props.C120_never_ends",
    "Curvo.Props.C120_ends",
    "Curvo.Props.C120_single"
   ],
   "note": "Binary floating point numbers of any precision, round to nearest; the length function is a parameter. C120_never_ends and C120_single show when the search does not end. Overflow and underflow are not modelled."
  },
  {
   "property": "C121",
   "status": "proved",
   "theorems": [
    "Curvo.Props.C121_exact",
    "Curvo.Props.C121_polyline",
    "Curvo.Props.C121_interpolate",
    "Curvo.Props.C121_accuracy",
    "Curvo.Props.C121_periodic",
    "Curvo.Props.C121_normalize",
    "Curvo.Props.C121_double",
    "Curvo.Props.C121_vanishing_segment"
   ],
   "note": "Rounding as in C99 (no overflow or underflow); the computed distances are a parameter. C121_vanishing_segment is the exception, C121_double the instance for 53 bits."
  },
  {
   "property": "C122",
   "status": "proved",
   "theorems": [
    "Curvo.Props.C122_exact",
    "Curvo.Props.C122_ends",
    "Curvo.Props.C122_bezier",
    "Curvo.Props.C122_never_ends",
    "Curvo.Props.C122_default_tolerance"
   ],
   "note": "DivisionEnds is the recursion of the traversal for one curve (all pieces divided, the other curve only prunes). Rounded model of is_dividable, try_divide, new. C122_default_tolerance is a negation (the code does not end there)."
  },
  {
   "property": "C123",
   "status": "proved",
   "theorems": [
    "Curvo.Props.C123_split_v",
    "Curvo.Props.C123_split_u",
    "Curvo.Props.C123_across_u",
    "Curvo.Props.C123_across_v",
    "Curvo.Props.C123_refine_v",
    "Curvo.Props.C123_refine_u",
    "Curvo.Props.C123_split_inverted",
    "Curvo.Props.C123_split_inverted_v"
   ],
   "note": "Surface analogue of C108; ClearOf is the condition that no knot is within the tolerance of the cut."
  },
  {
   "property": "C124",
   "status": "proved",
   "theorems": [
    "Curvo.Props.C124_exact",
    "Curvo.Props.C124_back",
    "Curvo.Props.C124_mesh",
    "Curvo.Props.C124_shape",
    "Curvo.Props.C124_good",
    "Curvo.Props.C124_points",
    "Curvo.Props.C124_box",
    "Curvo.Props.C124_collapses",
    "Curvo.Props.C124_single",
    "Curvo.Props.C124_tears"
   ],
   "note": "The conversion of a scalar is a parameter: a field embedding, or a monotone rounding with a unit roundoff (24 bits shown to be one). FrenetFrame::cast converts four vectors in the same way and is left out. Overflow in the conversion is not modelled."
  },
  {
   "property": "C125",
   "status": "proved",
   "theorems": [
    "Curvo.Props.C125_clamp",
    "Curvo.Props.C125_clamped_already",
    "Curvo.Props.C125_origin",
    "Curvo.Props.C125_rational",
    "Curvo.Props.C125_rational_moves"
   ],
   "note": "C125_clamp (knots, clampedness, domain, weights, points), C125_clamped_already, C125_origin (the clamped curve is well formed and starts at the origin: a defect of the code), C125_rational_moves (the equal weights are needed)."
  },
  {
   "property": "C126",
   "status": "proved",
   "theorems": [
    "Curvo.Props.C126_segments",
    "Curvo.Props.C126_length",
    "Curvo.Props.C126_parameter_outside",
    "Curvo.Props.C126_division_outside",
    "Curvo.Props.C126_count",
    "Curvo.Props.C126_length_skips"
   ],
   "note": "C126_segments, C126_length (the parts that work); C126_parameter_outside, C126_division_outside (for every curve with simple knots), C126_count and C126_length_skips (concrete curves) are defects of the code."
  }
 ]
}