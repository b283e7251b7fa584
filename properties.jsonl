{"id": "C01", "title": "Knot span lookup brackets the parameter", "statement": "For a sorted knot vector whose first and last domain spans are not degenerate and whose distinct knots are at least one epsilon apart, looking up any parameter of the domain terminates and returns an index s with degree <= s <= n such that knots[s] <= u < knots[s+1] (the last span, closed on the right, for the end of the domain). Parameters left (right) of the domain are answered with the first (last) span. No knot outside the vector is read.", "quantifier": "every knot vector, degree, and parameter (inside or outside the domain)", "why_tests_cant": "the binary search has data dependent exits (epsilon shortcuts at both ends and a 'no progress' break); every length, multiplicity pattern and parameter position has to be right, and termination is a statement about all inputs", "anchors": ["src/knot/knot_vector.rs:find_knot_span_index", "src/knot/knot_vector.rs:find_knot_span_linear"]}
{"id": "C02", "title": "Basis functions are the Cox-de Boor B-splines", "statement": "For every non degenerate span the returned degree+1 values are finite and equal the Cox-de Boor recursion's basis functions N_{span-degree+i,degree}(u), and all other basis functions vanish at u.", "quantifier": "every degree, knot vector, span with knots[span] < knots[span+1] and every parameter in the span", "why_tests_cant": "the triangular in-place algorithm must agree with the recursive definition for every degree and every pattern of repeated knots; tests fix a handful", "anchors": ["src/knot/knot_vector.rs:basis_functions"]}
{"id": "C03", "title": "Basis functions are a non-negative partition of unity", "statement": "For every parameter of a non degenerate span the values returned by the basis evaluation are all >= 0 and sum to exactly 1 (the sum is 1 even for parameters outside the span).", "quantifier": "every degree, sorted knot vector, span and parameter", "why_tests_cant": "is a universally quantified identity over reals; sampling cannot establish it for all degrees/knots", "anchors": ["src/knot/knot_vector.rs:basis_functions"]}
{"id": "C04", "title": "Derivative table rows are the true derivatives", "statement": "Row 0 of the derivative table equals the basis functions, row k equals the k-th derivative of the basis polynomials of the span, and rows of order above the degree are zero; no out of range access happens for any requested order, even orders larger than the degree.", "quantifier": "every degree, order, knot vector, non degenerate span and parameter", "why_tests_cant": "needs an identity between a table algorithm and calculus for all degrees and orders", "anchors": ["src/knot/knot_vector.rs:derivative_basis_functions"]}
{"id": "C05", "title": "Adding a knot keeps the vector sorted", "statement": "Adding a knot to a sorted knot vector yields a sorted vector that is the old one plus exactly one copy of the knot; the returned index holds the knot and every knot to its right is strictly larger.", "quantifier": "every sorted knot vector (including empty) and knot value", "why_tests_cant": "insertion position must be right for every multiplicity pattern, before the first and after the last knot", "anchors": ["src/knot/knot_vector.rs:add", "src/knot/knot_vector.rs:floor"]}
{"id": "C06", "title": "Multiplicities are the run lengths of the knot vector; clampedness", "statement": "On a sorted vector with distinct knots more than epsilon apart, the reported multiplicities are exactly the distinct knots in increasing order with their number of occurrences; they add up to the length; the clamped test is true exactly when the first and the last knot both occur at least degree+1 times. An empty vector panics.", "quantifier": "every knot vector and degree", "why_tests_cant": "multiplicity is used by clamping, Bezier decomposition, isocurve, removal; it must be right for every vector", "anchors": ["src/knot/knot_vector.rs:multiplicity", "src/knot/knot_vector.rs:is_clamped"]}
{"id": "C07", "title": "Inverting a knot vector mirrors it", "statement": "Inverting a knot vector gives the mirror image k -> first+last-k in reverse order: sorted stays sorted, first and last knot are kept, the domain is mirrored, and inverting twice gives the original.", "quantifier": "every non-empty knot vector", "why_tests_cant": "accumulated sums over an arbitrary number of knots; involution is a statement over all vectors", "anchors": ["src/knot/knot_vector.rs:invert"]}
{"id": "C08", "title": "Curve construction accepts exactly well sized input", "statement": "Constructing a curve succeeds exactly when there are more control points than the degree and knots = control points + degree + 1; the result keeps the degree and control points and its knots are the given ones sorted. Every other input is an error, never a panic. Every constructed curve satisfies the curve invariant.", "quantifier": "every degree, control point list and knot list", "why_tests_cant": "acceptance condition is an iff over all sizes", "anchors": ["src/curve/nurbs_curve.rs:try_new"]}
{"id": "C09", "title": "Evaluation is the B-spline sum over all control points", "statement": "For every well formed curve and every parameter of its domain, evaluation neither panics nor yields a non finite value and equals the sum over ALL control points of N_{i,degree}(u) * P_i; the affine point is that sum divided by its weight; evaluation is None/panic exactly when the weight is zero.", "quantifier": "every well formed curve, every parameter in the domain", "why_tests_cant": "links indexing (span - degree + i) to the global definition for all sizes; out-of-range indexing would only show for particular spans", "anchors": ["src/curve/nurbs_curve.rs:point", "src/curve/nurbs_curve.rs:point_at", "src/curve/nurbs_curve.rs:dehomogenize"]}
{"id": "C10", "title": "Convex hull: a curve with positive weights stays in the bounding box of its control points", "statement": "For a well formed curve with positive weights every evaluated point on the domain is contained in the bounding box computed from the curve; more generally any half space containing all control points contains the curve.", "quantifier": "every such curve and every parameter of the domain", "why_tests_cant": "the bounding box tree, intersection and containment code prune on this; a single escape loses intersections", "anchors": ["src/bounding_box/mod.rs:From<&NurbsCurve>", "src/bounding_box/mod.rs:contains", "src/curve/nurbs_curve.rs:point_at"]}
{"id": "C11", "title": "Clamped curves start and end at their end control points", "statement": "For a clamped curve evaluation at the domain start (end) returns the first (last) control point.", "quantifier": "every clamped curve of every degree and size", "why_tests_cant": "all sizes/degrees/knots", "anchors": ["src/curve/nurbs_curve.rs:point_at", "src/misc/end_points.rs:first_point", "src/misc/end_points.rs:end_point"]}
{"id": "C12", "title": "Local control", "statement": "Changing control point j only changes the curve on the knot interval [knots[j], knots[j+degree+1]): for every other domain parameter evaluation is unchanged.", "quantifier": "every pair of curves differing in one control point, all parameters", "why_tests_cant": "universally quantified frame property", "anchors": ["src/curve/nurbs_curve.rs:point"]}
{"id": "C13", "title": "Inverting a curve reverses its parametrisation", "statement": "The inverted curve evaluated at first+last-u equals the original evaluated at u, for every u of the domain; domain end points swap; inverting twice gives back the same curve.", "quantifier": "every well formed curve without a break (interior knots of multiplicity at most the degree) and every parameter of the domain; inverting twice: every curve", "why_tests_cant": "must hold at knots, between knots, for every degree", "anchors": ["src/curve/nurbs_curve.rs:invert", "src/knot/knot_vector.rs:invert"]}
{"id": "C14", "title": "Normalising knots does not change the shape", "statement": "After normalisation the domain is [0,1] and the curve at (u-min)/(max-min) equals the original at u; the degenerate domain min=max divides by zero.", "quantifier": "every well formed curve, every parameter", "why_tests_cant": "reparametrisation law over all curves", "anchors": ["src/curve/nurbs_curve.rs:normalize_knots"]}
{"id": "C15", "title": "Transforming control points transforms the curve", "statement": "For an affine matrix, transforming a curve or surface and then evaluating equals evaluating and then transforming the point, for every parameter and any non zero weights. Any matrix sends every control point to the projective image of its homogeneous point and keeps its weight. (For a projective matrix the first claim is false.)", "quantifier": "every curve with non zero weights, every matrix with affine last row, every parameter", "why_tests_cant": "commutation law; all curves, all matrices", "anchors": ["src/curve/nurbs_curve.rs:transform", "src/surface/nurbs_surface.rs:transform"]}
{"id": "C16", "title": "Dimension elevation embeds the curve", "statement": "The elevated curve evaluates, at every parameter, to the original point with an extra zero coordinate; weights, knots and degree are unchanged.", "quantifier": "every curve and parameter", "why_tests_cant": "all curves", "anchors": ["src/curve/nurbs_curve.rs:elevate_dimension"]}
{"id": "C17", "title": "A polyline passes through its vertices and is straight between them", "statement": "The polyline curve built from n >= 2 vertices (positive consecutive distances) evaluates at its i-th chord-length knot to vertex i, and between two consecutive knots to the straight segment; normalising divides the parameters by the total length, and keeps vertices and segments. Without points it panics; with a single point, or all points equal, normalisation divides by zero.", "quantifier": "every vertex list, every parameter", "why_tests_cant": "all lengths of lists and every position on every segment", "anchors": ["src/curve/nurbs_curve.rs:polyline"]}
{"id": "C18", "title": "Periodic construction closes the curve", "statement": "The periodic curve built from n > degree points is closed: evaluation at domain start and domain end coincide (the derivatives at the seam are the subject of C94); it is rejected exactly when n < degree+1.", "quantifier": "every point list and degree >= 1", "why_tests_cant": "all degrees and sizes", "anchors": ["src/curve/nurbs_curve.rs:try_periodic"]}
{"id": "C19", "title": "Knot refinement does not change the curve", "statement": "Refining with any sorted list of knots of the domain yields a knot vector that is the sorted merge of old knots and inserted knots, control point count grows by the number of inserted knots, and the B-spline sum of the result is the same at every parameter; no index is out of range. When the new knots lie strictly inside the domain the refined curve evaluates to the same point at every parameter. The code violates this for a knot inserted at the end of the domain: evaluation there divides by zero.", "quantifier": "every well formed curve, every sorted list of domain knots (any length and multiplicities; each equal to or at least the tolerance away from every knot and every other one), every parameter", "why_tests_cant": "in-place right-to-left sweep (NURBS book A5.4) with index arithmetic and an explicit out-of-bound TODO branch; equality must hold for all inputs", "anchors": ["src/curve/nurbs_curve.rs:try_refine_knot"]}
{"id": "C20", "title": "Single knot insertion does not change the curve", "statement": "For a curve with equal weights adding one knot keeps the curve's shape (homogeneous points at every parameter of the domain are unchanged), keeps the knots sorted and adds exactly one control point; out of range knots are rejected and the curve is left unmodified. With different weights the shape is not kept (a concrete curve moves).", "quantifier": "every well formed curve, every knot, every parameter", "why_tests_cant": "shape preservation over all inputs; tests only use weight 1", "anchors": ["src/curve/nurbs_curve.rs:try_add_knot"]}
{"id": "C21", "title": "Splitting yields two curves that together are the original", "statement": "Splitting at u (clamped into the domain) returns two well formed curves whose domains are [start,u] and [u,end] and each of which evaluates to the original at every parameter of its domain, including the split point. The code violates the last part when u is an existing interior knot: the left piece is not evaluable at its end.", "quantifier": "every well formed curve, every split parameter that is a knot or at least the tolerance away from all knots", "why_tests_cant": "depends on the position of u relative to all knots and multiplicities", "anchors": ["src/split/mod.rs:try_split"]}
{"id": "C22", "title": "Trimming returns exactly the requested portion", "statement": "Trimming with p0 < p1 returns one curve with domain [p0,p1] equal to the original there; with p0 > p1 it returns the complement as two curves [p0,end],[start,p1]. The code violates this when the piece ends at an existing interior knot: it is not evaluable at its end.", "quantifier": "every well formed curve and pair of parameters of the domain at least the tolerance apart, each a knot or at least the tolerance away from all knots (the upper end of a piece not being an interior knot)", "why_tests_cant": "all parameter pairs", "anchors": ["src/trim/mod.rs:try_trim_range"]}
{"id": "C23", "title": "Bezier decomposition covers the curve", "statement": "Decomposing a clamped curve yields consecutive segments, each with degree+1 control points and 2(degree+1) knots; their domains tile the domain of the curve and each agrees with the curve on its domain. Decomposing an unclamped curve covers the whole knot range instead of the domain.", "quantifier": "every clamped curve", "why_tests_cant": "any number of spans and multiplicities", "anchors": ["src/curve/nurbs_curve.rs:try_decompose_bezier_segments", "src/curve/nurbs_curve.rs:try_clamp"]}
{"id": "C24", "title": "Degree elevation keeps the shape", "statement": "Elevating to a degree not above the current returns the curve unchanged. Elevating a chain of four Bezier segments (of any degree, with any breakpoints) by one returns a well formed curve of the target degree with the same breakpoints and the same points at every parameter; so does elevating a quadratic curve of four segments with simple inner knots to degree 3. Outside of this the code does not keep the promise of its name: elevating by two or more always panics; a successful elevation always adds exactly four control points, so that fewer than four segments leave zero control points of weight 0 and unsorted knots at the end and more than four segments panic; and simple inner knots at degree 3 give another curve.", "quantifier": "every curve and target degree", "why_tests_cant": "all degrees/segments", "anchors": ["src/curve/nurbs_curve.rs:try_elevate_degree"]}
{"id": "C25", "title": "Knot removal", "statement": "A successful removal reports t removed copies with t at most the multiplicity, keeps the degree, shortens knots and control points by exactly t and leaves the curve untouched when t = 0; absent knots and knots among the first degree + 1 are errors. For a simple interior knot the call always answers: either nothing changes or exactly this knot goes, the domain stays, and the homogeneous curve changes by one basis function times a vector controlled by the tolerance: at most the tolerance for odd degrees, nothing with tolerance 0, and adding a new knot followed by removing it restores the curve. Exceptions: for even degrees the movement can exceed the tolerance, and for multiple knots the search starts at the first copy, so that removable copies stay, curves move or the call panics; whatever number of removals is reported, exactly one copy of the knot goes, and the other removed knots are the ones before it.", "quantifier": "every curve, knot and tolerance (bookkeeping); every simple interior knot (geometry)", "why_tests_cant": "index arithmetic over all degrees, positions and multiplicities; the movement is a statement about all parameters", "anchors": ["src/curve/nurbs_curve.rs:try_remove_knot", "src/curve/nurbs_curve.rs:try_add_knot"]}
{"id": "C26", "title": "Rational curve derivatives are the derivatives of the quotient", "statement": "The k-th rational derivative satisfies the quotient rule: it is the k-th derivative of A(u)/w(u), for every order k (also above the degree), wherever the weight is non zero.", "quantifier": "every order, every curve, every parameter", "why_tests_cant": "identity for all orders with binomial sums", "anchors": ["src/curve/nurbs_curve.rs:rational_derivatives", "src/curve/nurbs_curve.rs:derivatives", "src/curve/nurbs_curve.rs:tangent_at"]}
{"id": "C27", "title": "Rational surface derivatives obey the Leibniz rule", "statement": "The table of rational surface derivatives satisfies the two-variable Leibniz rule for A = w*S for all mixed orders k + l <= d and is the only table that does; its entries are the mixed partial derivatives of the surface point (one sided at knots), and the normal is the cross product of the u and the v partial. The regularly sampled tables agree with the pointwise ones for orders up to both degrees; above that the sampling code indexes out of range.", "quantifier": "every well formed surface, every parameter pair in the domain with non zero weight, every order", "why_tests_cant": "identity for all mixed orders", "anchors": ["src/surface/nurbs_surface.rs:rational_derivatives"]}
{"id": "C28", "title": "Surface evaluation is the tensor product B-spline", "statement": "For a well formed surface and parameters in the domain the evaluation equals the double sum of N_i(u) N_j(v) P_ij over all control points; the pre-computed-basis evaluation used for regular sampling gives the same.", "quantifier": "every surface, every parameter pair", "why_tests_cant": "all sizes/degrees", "anchors": ["src/surface/nurbs_surface.rs:point", "src/surface/nurbs_surface.rs:point_given_bases_knot_spans"]}
{"id": "C29", "title": "Flipping / inverting a surface reverses parameters", "statement": "Flip in U (V, UV) evaluates at mirrored u (v, both) to the original; flips are involutions; inverting equals flipping UV.", "quantifier": "every well formed surface without a break in the flipped direction and every parameter pair; involutions: every surface", "why_tests_cant": "all surfaces", "anchors": ["src/surface/nurbs_surface.rs:flip", "src/surface/nurbs_surface.rs:invert"]}
{"id": "C30", "title": "Extrusion translates the profile", "statement": "The extruded surface evaluated at (u,v) is the profile at v translated by (1-u)*translation.", "quantifier": "every profile with non zero weights, translation, u in [0,1], v in the domain", "why_tests_cant": "all profiles", "anchors": ["src/surface/nurbs_surface.rs:extrude"]}
{"id": "C31", "title": "Plane surface is the affine plane patch", "statement": "The plane surface evaluated at (u,v) is center + (2u-1) x_axis + (2v-1) y_axis.", "quantifier": "every centre, axes and u,v in [0,1]", "why_tests_cant": "all parameters", "anchors": ["src/surface/nurbs_surface.rs:plane"]}
{"id": "C32", "title": "Isocurves lie on the surface", "statement": "The isocurve at parameter t evaluates at s to the surface at (t,s) (or (s,t)). The code violates this at interior knots of multiplicity >= 2.", "quantifier": "every well formed surface, direction, s and every t of the domain that is a knot or at least the tolerance away from all knots", "why_tests_cant": "depends on knot multiplicities", "anchors": ["src/surface/nurbs_surface.rs:try_isocurve"]}
{"id": "C33", "title": "Surface refinement and splitting keep the shape", "statement": "Refining a surface in either direction keeps all of its points; splitting gives two surfaces that agree with it on their domains (as for curves, the left piece cannot be evaluated at its end when the parameter is an inner knot, and knots inserted at an end of the domain keep the B-spline sum only).", "quantifier": "every well formed surface, direction, and sorted knots or parameter of the domain that are knots or at least the tolerance away from all knots", "why_tests_cant": "all surfaces", "anchors": ["src/surface/nurbs_surface.rs:try_refine_knot", "src/split/mod.rs:try_split(surface)"]}
{"id": "C34", "title": "Regular tessellation is a valid grid mesh", "statement": "Regular tessellation with divs_u x divs_v produces (divs_u+1)(divs_v+1) points, uvs and normals, 2*divs_u*divs_v triangles, every face index in range, no degenerate index triple; the vertex i*(divs_v+1)+j carries the uv, surface point and unit normal of grid node (i, j); the triangles cover the parameter rectangle, do not overlap, are not repeated and all have the same orientation. Zero divisions give non finite output.", "quantifier": "every surface of positive degrees and positive weights, every divs_u, divs_v >= 1 (faces: including 0)", "why_tests_cant": "all sizes", "anchors": ["src/surface/nurbs_surface.rs:regular_tessellate"]}
{"id": "C35", "title": "Interpolated curves pass through the data", "statement": "Whenever the linear solver returns a solution of the assembled system, the interpolated curve evaluates at the i-th chord parameter to the i-th data point; fewer than degree+1 points are rejected.", "quantifier": "every point list and degree, every solution of the linear system", "why_tests_cant": "all sizes; assembly index arithmetic", "anchors": ["src/curve/nurbs_curve.rs:try_interpolate", "src/curve/nurbs_curve.rs:try_interpolate_control_points", "src/curve/nurbs_curve.rs:try_solve_interpolation"]}
{"id": "C36", "title": "Bounding box overlap and containment tests are exact", "statement": "Boxes built by the constructors are ordered; the overlap test with tolerance t >= 0 is true exactly when in each coordinate the intervals widened by t overlap (equivalently some point is within t of both boxes); it is symmetric; contains is exact; the box of a point set is the least box containing them.", "quantifier": "every pair of boxes in every dimension, every tolerance, every point list", "why_tests_cant": "sign product trick must be right for all boxes", "anchors": ["src/bounding_box/mod.rs:intersects", "src/bounding_box/mod.rs:contains", "src/bounding_box/mod.rs:new_with_points"]}
{"id": "C37", "title": "Bounding box tree traversal misses no intersection", "statement": "For any two trees whose division covers the parent, every common point of the two root objects lies in some reported leaf pair; the traversal terminates. For two curves, and for a surface and a curve, the reported pairs are pieces no longer than the tolerances and a pair covers the parameters of every common point (provided no split lands on a knot). A curve's tree made without a tolerance ends in pieces of at most a 64th of the domain, and for degree two and higher of at least 9/1280 of it. A surface's tree made without tolerances ends in pieces of exactly a 64th of each side.", "quantifier": "every pair of trees and every division choice (the code splits at random parameters)", "why_tests_cant": "split positions are random, so every execution must be right", "anchors": ["src/bounding_box/bounding_box_traversal.rs:try_traverse", "src/bounding_box/curve_bounding_box_tree.rs"]}
{"id": "C38", "title": "Boolean operations without boundary crossings follow the containment table", "statement": "If no intersections remain after the selection of crossings and the containment tests are truthful (contained, or disjoint), union / intersection / difference return at most two regions made of the given curves, whose point set is the set operation. The selection keeps all regular intersections in order, adds at most one degenerate one, only if the number is odd, one with the largest angle; an odd total is an error. Exception shown: if both curves are found inside each other, as for a curve and itself, the operation is an error.", "quantifier": "every pair of subject/clip, operation, list of intersections", "why_tests_cant": "decision table over all cases; set semantics over all points", "anchors": ["src/boolean/clip.rs:clip", "src/boolean/boolean_region.rs:boolean"]}
{"id": "C39", "title": "The boolean walk terminates, uses every intersection once and cuts exactly the boundary of the result", "statement": "With a positive even number of intersections the walk ends, with errors only from trimming or building curves. Its loops are closed chains of pieces that switch between the curves at each intersection; each intersection is the end of exactly one piece on each curve; and if the parameters are distinct, a parameter of a curve is covered by exactly one piece if by crossing parity it is on the side of the other curve that belongs to the boundary of the result, else by none. Exceptions shown: equal parameters give a piece that is the whole curve; results never have holes, so an enclosed pocket is a region of its own.", "quantifier": "every even number of intersections, every pairing permutation between the two curves, every operation and containment flags", "why_tests_cant": "arbitrary permutations of arbitrary size", "anchors": ["src/boolean/clip.rs:clip", "src/boolean/node.rs"]}
{"id": "C40", "title": "Distributing interiors neither loses nor duplicates holes", "statement": "After distributing interiors, the multiset of interiors in regions plus undistributed ones is unchanged, each distributed interior is assigned to the first region whose exterior contains its first point, and undistributed ones are contained in none; region order and exteriors are unchanged.", "quantifier": "every list of regions and interiors, every containment oracle", "why_tests_cant": "reverse-index removal loop over all lists", "anchors": ["src/boolean/boolean_region.rs:distribute_interiors_to_regions"]}
{"id": "C41", "title": "Region booleans respect holes", "statement": "Given a correct operation on curves: distributing holes over disjoint regions removes exactly the points of the holes; region minus curve is the set difference; region union curve is the set union if exterior and curve merge into one region and no hole gets an island; the intersection of two regions is the set intersection. The union and the difference of two regions are right exactly if the first region has no points in the holes of the second one. Exceptions shown: the difference ignores the holes of the second region, the union cuts them out of the first, the union with a curve that is disjoint or inside a hole loses the curve.", "quantifier": "all regions, curves and point sets", "why_tests_cant": "set semantics over all points", "anchors": ["src/boolean/boolean_region.rs:boolean"]}
{"id": "C42", "title": "Compound curve construction chains all spans", "statement": "Given the spans of a chain, its first span first and the others in any order and any orientation, the compound curve keeps every span, in the order and orientation of the chain, joined within the tolerance, with consecutive parameter domains starting at zero. The same holds for a closed loop, up to starting one span earlier. Assumptions: no three spans meet, no end of a span is near both ends of another, clamped knots. Any list with a free start gives a joined chain, and a span is left out only if it is not near the end of the result. Exceptions shown: a chain given from its middle loses spans depending on the order, branches are dropped or tear the result, unclamped spans get gaps between domains, the empty list panics.", "quantifier": "every list of spans", "why_tests_cant": "greedy search over all orders and orientations", "anchors": ["src/region/compound_curve.rs:new", "src/region/curve_direction.rs:new"]}
{"id": "C43", "title": "Inverting a compound curve reverses it", "statement": "Inverting a compound curve reverses the order of its spans and each span, keeps the joints and is an involution. After aligning the domains again the whole parametrisation is reversed. Inversion itself does not align them, so evaluation by parameter is not reversed (counterexample).", "quantifier": "every compound curve", "why_tests_cant": "all numbers of spans and span lengths", "anchors": ["src/region/compound_curve.rs:invert"]}
{"id": "C44", "title": "Adaptive curve tessellation connects the end points", "statement": "Adaptive tessellation terminates, starts and ends at the curve's end points, emits points of the curve in increasing parameter order, and every emitted chord passed the flatness test. The code loses end points when it hits its parameter floor.", "quantifier": "every curve, tolerance and sequence of random split points", "why_tests_cant": "randomised recursion: every random outcome must be right", "anchors": ["src/tessellation/tessellation_curve.rs:tessellate_adaptive"]}
{"id": "C45", "title": "Surface triangulation indices are valid", "statement": "Every face index emitted by adaptive triangulation refers to an existing vertex, the arrays of points, normals and uvs have equal length, every vertex is the surface point at its uv parameter, and a leaf with n corners yields n-2 triangles (n <= 5) or n triangles around a centre.", "quantifier": "every quadtree", "why_tests_cant": "all tree shapes", "anchors": ["src/tessellation/surface_tessellation.rs:triangulate"]}
{"id": "C46", "title": "Adaptive subdivision depth is bounded", "statement": "Recursive subdivision terminates and no node is deeper than max(min_depth, max_depth); with min_depth <= max_depth the bound is max_depth.", "quantifier": "every oracle for flatness and every option", "why_tests_cant": "termination over all inputs", "anchors": ["src/tessellation/adaptive_tessellation_processor.rs:iterate", "src/tessellation/adaptive_tessellation_node.rs:should_divide"]}
{"id": "C47", "title": "Grid neighbour lookup is symmetric", "statement": "In the initial grid of the adaptive tessellation the east neighbour's west neighbour is the node itself and boundary cells have no neighbour outside. The code violates this for west.", "quantifier": "every grid size and cell", "why_tests_cant": "all sizes and cells", "anchors": ["src/tessellation/surface.rs:north/south/east/west"]}
{"id": "C48", "title": "Merging boundary parameters", "statement": "Merging two sorted parameter lists gives a sorted list with exactly the union of values; strictly increasing inputs give a strictly increasing result. Values are compared exactly (near-equal parameters are both kept), and constraints on both sides of a direction are sorted and deduplicated while a constraint on one side only is used as given.", "quantifier": "every pair of sorted lists", "why_tests_cant": "all interleavings", "anchors": ["src/tessellation/surface.rs:merge_sorted_parameters"]}
{"id": "C49", "title": "Knot vector unification", "statement": "The union of two sorted knot lists is sorted and has for each value the maximum multiplicity; subtracting one of the operands gives exactly the knots missing from it, so refining all curves by the difference gives all curves the same knot vector.", "quantifier": "every finite family of sorted knot lists", "why_tests_cant": "all interleavings and multiplicities", "anchors": ["src/surface/nurbs_surface.rs:sorted_set_union", "src/surface/nurbs_surface.rs:sorted_set_sub", "src/surface/nurbs_surface.rs:try_unify_curve_knot_vectors"]}
{"id": "C50", "title": "Adding meshes concatenates their triangles", "statement": "The triangles of the sum of two valid meshes are the triangles of the first followed by those of the second; the sum of any family likewise; area is additive. The area of a planar mesh is the sum of the Lebesgue measures of its triangles, whatever their orientation; a planar mesh placed in space by an isometry has the same area there.", "quantifier": "every pair/family of meshes with in-range faces", "why_tests_cant": "index offsets over all sizes", "anchors": ["src/polygon_mesh/mod.rs:Add", "src/polygon_mesh/mod.rs:Sum", "src/polygon_mesh/mod.rs:triangles", "src/polygon_mesh/mod.rs:area"]}
{"id": "C51", "title": "Memoised binomials equal the binomial coefficient in every history", "statement": "After any sequence of earlier queries, asking for (n,k) returns n choose k (0 for k>n), and the memo table only ever holds correct entries; the closed form agrees.", "quantifier": "every query history and every n,k", "why_tests_cant": "history quantification", "anchors": ["src/misc/binomial.rs:Binomial::get", "src/misc/binomial.rs:binomial"]}
{"id": "C52", "title": "Segment projection returns the closest point", "statement": "The returned point lies on the segment, no point of the segment is closer to the query point, and the returned parameter is the matching linear interpolation between u0 and u1 (degenerate segments return the start).", "quantifier": "every point, segment in any dimension and parameter pair", "why_tests_cant": "optimality over all points of the segment", "anchors": ["src/misc/trigonometry.rs:segment_closest_point"]}
{"id": "C53", "title": "Ray intersection returns the closest pair", "statement": "For non parallel rays the two returned points lie on the rays, the connecting vector is orthogonal to both directions (hence they are the closest pair, and equal if the lines meet); parallel rays give none.", "quantifier": "every pair of rays in any dimension", "why_tests_cant": "all rays", "anchors": ["src/misc/ray.rs:find_intersection"]}
{"id": "C54", "title": "Division by length", "statement": "For a clamped curve dividing by a positive length L below the total returns the start and then samples at lengths L, 2L, 3L, ... up to the total (a last multiple within 1e-6 above it included), at non-decreasing parameters of the domain whose measured length is within the fixed tolerance of the target; lengths <= 0 and lengths >= total are errors. The bisection for a parameter stays inside the segment, brackets the target, is monotone in the target and ends for positive weights. With a positive tolerance the parameter at a length is accurate to it; with tolerance 0 the search need not end. Division into one part is an error. For an unclamped curve the first sample is the first knot, outside the domain. The measured length is the quadrature of the norm of the derivative.", "quantifier": "every clamped curve, every length, tolerance and quadrature rule with non-negative weights", "why_tests_cant": "nested loops over all lengths", "anchors": ["src/curve/nurbs_curve.rs:try_divide_by_length", "src/curve/nurbs_curve.rs:compute_bezier_segment_parameter_at_length", "src/curve/nurbs_curve.rs:try_parameter_at_length", "src/curve/nurbs_curve.rs:try_divide_by_count", "src/curve/nurbs_curve.rs:try_length", "src/curve/nurbs_curve.rs:compute_bezier_segment_length"]}
{"id": "C55", "title": "Closest-parameter searches", "statement": "The search on a curve starts at a nearest point (up to the machine epsilon) of the polyline through regular samples and makes Newton steps for half the squared distance: its gradient and Hessian are the first and second derivatives of that function. On an open curve with positive weights no parameter outside the domain is ever evaluated or returned, unless the Hessian vanishes; a fixed point inside the domain is stationary. The answer on an open curve is reached by at most five such steps, each cut off at the ends of the domain, and the search stops early exactly at the first step that moves by less than the tolerance. On an open curve that runs along a line with constant speed the search returns the closest point of the curve exactly. The search on a surface never returns a point farther away than any vertex of the tessellation it starts from, and on open surfaces it returns parameters of the domain unless a Newton system is singular. On an open flat patch of constant speed that contains the foot of the perpendicular, the answer is within 1/100000 of the target or its parameters are within three tolerances of the foot, or the hundred steps are used up, each of which went a quarter of the way to the foot. Exceptions: on closed curves and surfaces a step before the start always leaves the domain at the other end, so a parameter outside the domain and a point off the curve can be returned; on open curves the returned point can be farther away than the start of the search, even the farthest one.", "quantifier": "every curve, surface, point and domain", "why_tests_cant": "all iterates of a numerical method on all inputs", "anchors": ["src/closest_parameter/curve_closest_parameter_newton.rs:next_iter", "src/closest_parameter/surface_closest_parameter_newton.rs:constrain", "src/curve/nurbs_curve.rs:find_closest_parameter", "src/surface/nurbs_surface.rs:find_closest_parameter"]}
{"id": "C56", "title": "Serialization round trip and field checks", "statement": "Deserialising a serialised curve, surface, compound curve, region or trimmed surface returns the same value, for curves and surfaces in any order of the fields. A document is accepted as a curve (surface, compound curve) exactly when it is a map without unknown keys in which every field occurs exactly once with a value of its type. Exceptions: documents that list the fields by position are rejected except for regions (exterior first, interiors second), the checks of the constructors are not applied, a region ignores unknown keys, and a trimmed surface whose exterior is missing or malformed is read as untrimmed.", "quantifier": "every value, every document tree and every lawful format of scalars and points", "why_tests_cant": "all field orders", "anchors": ["src/curve/nurbs_curve.rs:Serialize/Deserialize", "src/surface/nurbs_surface.rs:Serialize/Deserialize"]}
{"id": "C57", "title": "Polygon containment is independent of the starting vertex", "statement": "The winding number based containment result does not depend on the starting vertex; translating polygon and point does not change it; points above, below or beside the polygon's bounding box are never contained; points strictly inside a convex polygon are contained, points beyond one of its sides are not; a point that a line separates from all vertices of any polygon is not contained; reversing the polygon negates the winding number and keeps containment. For arbitrary polygons, self-intersecting ones included: two points joined by a segment that meets no edge are both contained or both not, and crossing a single edge changes the winding number by one.", "quantifier": "every polygon and point", "why_tests_cant": "all polygons", "anchors": ["src/misc/polygon_boundary.rs:contains"]}
{"id": "C58", "title": "Segment intersection test", "statement": "The test is symmetric in its arguments and invariant under swapping end points; for segments that are not collinear it is true exactly when they share a point. It is false for collinear overlapping segments.", "quantifier": "every pair of segments", "why_tests_cant": "all configurations", "anchors": ["src/misc/line.rs:intersects", "src/misc/orientation.rs:orientation"]}
{"id": "C59", "title": "Circles and arcs are exact", "statement": "For orthogonal axes and a radius that is not zero, an arc over less than two turns is constructed exactly if the tangents at the ends of its segments are not parallel up to the tolerance; it then runs once, in order, through exactly the points at the radius from the centre at the angles between start and end, its domain being the interval of angles and its end points being those at the start and end angles. A circle is always constructed and runs once around; so does a full ellipse, and so do elliptic arcs made of whole quarters between the semi-axes. Angles that do not increase are refused, zero axes or radii give non-finite numbers. Other elliptic arcs are wrong in the code: for any two different semi-axes the arc from an eighth to three eighths of a turn leaves the ellipse.", "quantifier": "every centre, axes, radius, angle interval, parameter", "why_tests_cant": "continuum of parameters; rational identity", "anchors": ["src/curve/nurbs_curve.rs:try_arc", "src/curve/nurbs_curve.rs:try_circle", "src/curve/nurbs_curve.rs:try_ellipse_arc"]}
{"id": "C60", "title": "Weights only matter up to a common factor", "statement": "Multiplying all homogeneous control points by one non zero factor does not change any evaluated point; with equal weights the curve is the polynomial B-spline of the points.", "quantifier": "every curve, factor, parameter", "why_tests_cant": "all curves", "anchors": ["src/curve/nurbs_curve.rs:point_at", "src/curve/nurbs_curve.rs:dehomogenize"]}
{"id": "C61", "title": "Regular sampling of a range", "statement": "Sampling a range with n >= 2 samples returns n points at equally spaced parameters, the first at start and the last at end; n = 0 gives nothing; n = 1 divides zero by zero.", "quantifier": "every curve, range and sample count", "why_tests_cant": "all counts", "anchors": ["src/curve/nurbs_curve.rs:sample_regular_range", "src/curve/nurbs_curve.rs:sample_regular_range_with_parameter"]}
{"id": "C62", "title": "Intersections are reported once per group and none is invented", "statement": "Intersecting two curves (a surface and a curve) of positive weights never fails, whatever the solver and the random splits do. The reported intersections are accepted candidates: parameters in the domains, points on the curves, closer than the minimum distance. They are sorted by the first curve's (the curve's) parameter and at least 1e-3 apart in it. Every accepted candidate is joined by a chain of accepted candidates close in a parameter to a reported one with no larger residual; one close to no other is reported itself; nothing is reported only if nothing was accepted. If the solver succeeds on every pair of pieces that meet, near every common point a candidate is accepted. Exception shown: because candidates close in either parameter are merged, of the two passages of a curve through the same point of the other curve only one is ever reported.", "quantifier": "every pair of curves, every surface and curve, solver, random sequence", "why_tests_cant": "grouping over all lists; all solver behaviours and random choices", "anchors": ["src/intersects/curve_curve/intersection_curve_curve.rs:find_intersections", "src/intersects/surface_curve/intersection_surface_curve.rs:find_intersections"]}
{"id": "C63", "title": "Adaptive tessellation midpoint and leaf structure", "statement": "The cells of the initial grid tile the parameter domain without overlap, and so do the leaves after the adaptive subdivision, whatever the options and the outcome of the flatness tests; the corners of every leaf are the corners of its parameter rectangle and carry the points of the surface there.", "quantifier": "every surface with positive weights, every set of constraints and options", "why_tests_cant": "all trees", "anchors": ["src/tessellation/adaptive_tessellation_processor.rs:iterate"]}
{"id": "C64", "title": "Control point transposition", "statement": "Transposing a rectangular control net swaps indices and is an involution; an empty net panics.", "quantifier": "every rectangular net", "why_tests_cant": "all sizes", "anchors": ["src/misc/transpose.rs:transpose_control_points"]}
{"id": "C65", "title": "Uniform knot vectors", "statement": "The uniform knot vector for n and degree p has n + 2p knots: p + 1 zeros, the inner knots 1, 2, ..., n - 2 and p + 1 copies of n - 1. It is sorted, and for n at least two it is clamped, its domain is [0, n - 1] and it is usable for evaluation with n + p - 1 control points and any tolerance up to 1. For n = 0 the call panics.", "quantifier": "every n and every degree", "why_tests_cant": "all sizes", "anchors": ["src/knot/knot_vector.rs:uniform"]}
{"id": "C66", "title": "Regularly spaced basis functions", "statement": "The table of regularly spaced basis functions has one entry for each equally spaced parameter of the domain, and each entry is the span containing that parameter with the basis values there, from the first to the last knot of the domain.", "quantifier": "every good knot vector, degree and number of divisions", "why_tests_cant": "all knot vectors; the span is advanced incrementally", "anchors": ["src/knot/knot_vector.rs:regulary_spaced_basis_functions", "src/knot/knot_vector.rs:regularly_spaced_span"]}
{"id": "C67", "title": "End points and closedness", "statement": "The first and end point of a curve are its points at the two ends of its domain, for clamped curves the first and last control point; the closedness test is true exactly when these two points are within ten tolerances, whichever way it is computed. Constraining a parameter gives the parameter of the domain nearest to it.", "quantifier": "every well formed curve with positive weights and separated knots", "why_tests_cant": "all curves, clamped and unclamped", "anchors": ["src/curve/nurbs_curve.rs:is_closed", "src/curve/nurbs_curve.rs:knots_constrain", "src/misc/end_points.rs:first_point", "src/misc/end_points.rs:end_point"]}
{"id": "C68", "title": "Adaptive surface meshes have no T-junctions", "statement": "A corner of a leaf cell that lies inside an edge of another leaf cell is a vertex of that cell's polygon, with the same parameter and the same point, so neighbouring triangles share their vertices. Exception: the western edges of cells in the top row of the grid, where the code looks up no neighbour and the mesh has T-junctions.", "quantifier": "every surface, subdivision option and flatness outcome", "why_tests_cant": "all tree shapes on both sides of an edge", "anchors": ["src/tessellation/adaptive_tessellation_node.rs:get_all_corners", "src/tessellation/surface.rs:west", "src/tessellation/surface_tessellation.rs:triangulate"]}
{"id": "C69", "title": "Adaptive surface meshes cover the domain once", "statement": "Without boundary constraints every triangle of the adaptive surface mesh is positively oriented in the parameter plane (none is degenerate or flipped) the areas of the triangles add up to the area of the parameter domain, every point of the domain lies in a triangle and no point lies inside of two triangles.", "quantifier": "every surface, subdivision option and flatness outcome", "why_tests_cant": "all tree shapes and polygons with any number of vertices on their edges", "anchors": ["src/tessellation/surface_tessellation.rs:triangulate", "src/tessellation/surface.rs:surface_adaptive_tessellate"]}
{"id": "C70", "title": "Periodic interpolation passes through the data and closes up", "statement": "Whenever periodic interpolation succeeds, the curve passes through the i-th data point after the parameter lengths of the first i segments (as measured by the chosen knot style), its domain has the length of all segments including the closing one, its last degree control points repeat the first, and it ends where it starts. Fewer than degree + 1 points are rejected.", "quantifier": "every point list, degree, knot style and solution of the linear system", "why_tests_cant": "all sizes; index rotation of the matrix rows", "anchors": ["src/curve/nurbs_curve.rs:try_periodic_interpolate", "src/curve/nurbs_curve.rs:try_periodic_interpolate_control_points", "src/curve/knot_style.rs:parameterize"]}
{"id": "C71", "title": "Compound curve evaluation picks the span of the parameter", "statement": "A compound curve with consecutive domains evaluates exactly for the parameters from zero to the end of the last domain; after the start and up to the end of a span it returns that span's point, at a joint the end of the span before, and the jump there is below the tolerance.", "quantifier": "every compound curve and parameter", "why_tests_cant": "all numbers of spans and all parameters including joints", "anchors": ["src/region/compound_curve.rs:point_at"]}
{"id": "C72", "title": "Trimming a compound curve returns the parts in the range", "statement": "Trimming to a < b returns span by span exactly the parts of the spans inside the range with unchanged parametrisation, and these parts tile the range; with the parameters exchanged it returns the parts outside. The lower parameter may be a joint. If the upper parameter is a joint, the whole span starting there is included (or lost in the complement).", "quantifier": "every compound curve and range whose cuts avoid knots", "why_tests_cant": "all span counts and positions of the cuts", "anchors": ["src/trim/mod.rs:try_trim_range"]}
{"id": "C73", "title": "Surfaces of revolution and spheres are exact", "statement": "Revolving a profile curve with non zero weights about a unit axis by an angle between 0 and two turns gives, if every control point is on the axis or farther from it than the tolerance, a surface over [0, 1] times the profile's domain whose point at (u, v) is the profile's point at v rotated by an angle that depends on u only, increases with u and runs from 0 to the given angle. The points of a sphere with unit axis and a radius beyond the tolerance are exactly the points of space at the radius from the centre. For an axis that is not a unit vector the code is wrong: the sphere is made of non-finite numbers.", "quantifier": "every profile, axis, angle, parameter pair", "why_tests_cant": "continuum of parameters; rational identity for every profile", "anchors": ["src/surface/nurbs_surface.rs:try_revolve", "src/surface/nurbs_surface.rs:try_sphere"]}
{"id": "C74", "title": "Intersections of compound curves: copies at the joints are culled", "statement": "The intersections of a compound curve with a curve are those of its spans, in order, except that the last one of a span is left out when it is within 1e-2 of the end of the span and the next span (going round) has an intersection within 1e-2 of its start; if no span is shorter than 0.02 that other intersection is reported. Two compound curves report what the first reports with each span of the second. Exception shown: an open compound curve met at its start and at its end loses the intersection at its end.", "quantifier": "every list of spans and hits", "why_tests_cant": "all lists and positions of hits", "anchors": ["src/intersects/curve_curve/intersection_compound_curve.rs:find_intersections"]}
{"id": "C75", "title": "Frames along a curve", "statement": "Every frame computed along a curve is a right handed orthonormal frame at the curve point whose tangent is the normalised derivative of the curve; from one parameter to the next the normal is turned by the rotation about the common perpendicular of the two tangents that takes one to the other, and kept where they are parallel. Frames exist whenever no tangent vanishes (straight pieces included); without parameters the call panics. The transformation of a frame is an isometry that takes the axes x, y, z to minus the binormal, the normal and the tangent.", "quantifier": "every space curve and every list of parameters", "why_tests_cant": "all curves, including straight pieces and turns by half a revolution, where normalising a zero vector gives NaN", "anchors": ["src/curve/nurbs_curve.rs:compute_frenet_frames", "src/misc/frenet_frame.rs:FrenetFrame::rotation,matrix"]}
{"id": "C76", "title": "Lofting interpolates the first and the last section", "statement": "A lofted surface over sections of equal degree runs in v from 0 to 1, has the degree of the sections in u and one column of control points per section, and its edges v = 0 and v = 1 are the first and the last section (with the u parameter rescaled to the longest domain). With two sections it is the ruled surface between them; if all columns of control points are spaced alike it contains every section. Once no column has zero length the only step that can fail is the linear solver; an exact solver does not (C90). Exceptions shown: with differently spaced columns the surface does not contain the intermediate sections; sections that share their first control point, and sections of different degree in the shown case, give non-finite numbers.", "quantifier": "every list of sections, every v degree, every sound linear solver", "why_tests_cant": "all section counts, degrees and control points", "anchors": ["src/surface/nurbs_surface.rs:try_loft", "src/surface/nurbs_surface.rs:try_unify_curve_knot_vectors", "src/curve/nurbs_curve.rs:try_interpolate"]}
{"id": "C77", "title": "Sweeping places the profile along the rail", "statement": "The edge v = 0 (v = 1) of a swept surface is the profile moved by the orthonormal frame at the start (end) of the rail: the axes x, y, z go to minus the binormal, the normal and the unit tangent of the rail and the origin to the rail point. The frames carry the normal along the rail without twisting. On a rail of constant direction all frames are parallel and the surface contains the profile placed at each of the sampled rail points, twice as many as the rail has control points. With v degree one the sweep exists whenever the frames do and the columns are not degenerate.", "quantifier": "every profile with non zero weights, every rail without vanishing tangent", "why_tests_cant": "all profiles, rails and parameters", "anchors": ["src/surface/nurbs_surface.rs:try_sweep", "src/misc/frenet_frame.rs:FrenetFrame::matrix"]}
{"id": "C78", "title": "Point containment counts ray crossings", "statement": "For a closed curve and a point whose ray to the right is in general position (it passes through the curve wherever it meets it, its crossings are farther apart than one piece of the subdivision and the curve stays on one side of the point along the pieces with a crossing), containment answers whether the ray meets the curve an odd number of times, whatever the random split positions; for a compound curve the crossings of the spans add up. For a closed polyline the answer is whether the winding number of the polygon around the point is odd: it agrees with the polygon query except where the polygon surrounds the point an even number of times. Every crossing used is a point of the curve to the right of the point, at its height up to the tolerance. Points outside the bounding box are not contained, points within the tolerance of the closest point found are, open curves are rejected; a failed search for the closest point does not decide the answer. Exceptions shown: without subdivision no crossing is found on a closed curve; with the default options a point just inside a bulge to the right counts as outside.", "quantifier": "every closed curve with positive weights, every point in general position, every random stream", "why_tests_cant": "all curves, points and random streams", "anchors": ["src/contains/contains_curve.rs:contains", "src/contains/contains_curve.rs:x_ray_intersection", "src/contains/contains_compound_curve.rs:contains"]}
{"id": "C79", "title": "Operations on compound curves act span by span", "statement": "An affine transformation of a compound curve moves every point of it by the map and keeps degrees, knots, weights and the parameters that have a point. The length is the sum of the lengths of the spans: additive over concatenation, independent of the order of the spans, and it fails exactly if the length of some span fails. The closest point is the one returned for some span, no span returns a nearer one and of equally near ones it is that of the first span; it exists exactly if there is a span and the search succeeds on each of them; if all spans are open it is a point of a span.", "quantifier": "every list of spans, every affine map, every point", "why_tests_cant": "all compound curves", "anchors": ["src/region/compound_curve.rs:try_length,find_closest_point,transform"]}
{"id": "C80", "title": "Tessellation of a compound curve", "statement": "Tessellating a compound curve with consecutive domains ends, for all random numbers, with a polyline whose vertices but the last are points of the spans at strictly increasing parameters, beginning at the start of the first span; no two successive vertices are on different sides of a joint. The last vertex of an open curve is the end of its last span; for a closed curve it is exactly the first vertex. Joints are not repeated. Without spans the result is empty. Each span has to be one whose own tessellation runs from end to end: of degree one with increasing knots, or flat below the smallest length.", "quantifier": "every compound curve with such spans, every random stream", "why_tests_cant": "all compound curves and random streams", "anchors": ["src/tessellation/tessellation_compound_curve.rs:tessellate"]}
{"id": "C81", "title": "A step of the intersection solver descends", "statement": "The intersection solver minimises the squared distance of the two points over the parameters: its gradient is the vector of partial derivatives of that function (for two curves and for a surface and a curve, one sided at knots). From a positive definite matrix and a non-zero gradient, one iteration goes against the gradient, takes the first of the factors 1, 1/2, 1/4, ... that decreases the squared distance by more than a tenth of the predicted amount, and the updated matrix is symmetric, satisfies the secant equation, and stays positive definite if the gradient grew along the step. If no factor is accepted before the step tolerance, the last refused candidate is taken: the distance can grow and the secant equation fails.", "quantifier": "all valid curves and surfaces with positive weights, all parameters in the domains; all symmetric positive definite matrices, gradients and cost functions", "why_tests_cant": "the line search and the rank-two update run over unboundedly many curve shapes; tests only see final intersections", "anchors": ["src/intersects/curve_curve/curve_intersection_problem.rs", "src/intersects/curve_curve/curve_intersection_bfgs.rs", "src/intersects/surface_curve/surface_curve_intersection_problem.rs", "src/intersects/surface_curve/surface_curve_intersection_bfgs.rs"]}
{"id": "C82", "title": "The intersection solver ends and never worsens its start", "statement": "For every pair of valid pieces with positive weights (two curves, or a surface and a curve) the solver ends within its iteration limit without a fault, even when iterates leave the domains, and returns the best parameters it visited: their points are not farther apart than those of the start (the starts of the two curve domains, or the middles of the domains for a surface and a curve). Pieces that start at a common point give exactly the starts. The solver can stop far from an existing intersection: the update is made even when the gradient decreases along the step, and then the next step goes uphill.", "quantifier": "all valid curves and surfaces with positive weights, all tolerances, all iteration limits", "why_tests_cant": "termination and the bound on the result quantify over all runs of a nonlinear iteration", "anchors": ["src/intersects/curve_curve/curve_intersection_bfgs.rs", "src/intersects/curve_curve/intersection_curve_curve.rs", "src/intersects/surface_curve/surface_curve_intersection_bfgs.rs", "src/intersects/surface_curve/intersection_surface_curve.rs"]}
{"id": "C83", "title": "Sampling of trimming curves", "statement": "For a trimming curve with positive weights inside the domain of its surface, the sampling used by the tessellation of trimmed surfaces ends for every tolerance and gives at least one vertex; all vertices lie on the surface over points of the trimming curve at strictly increasing parameters. If the short pieces pass the straightness test, the samples run from the start to the end of the curve, every piece between consecutive samples passed the test, and a linear curve is sampled at all its knots. Exceptions in the code: a curve whose pieces all fail the test is reduced to one vertex near its end; a parabola over a flat surface passes as straight at every tolerance and is replaced by its chord.", "quantifier": "every surface, trimming curve, tolerance", "why_tests_cant": "termination and ordering of an adaptive sampling quantify over all curves and tolerances", "anchors": ["src/tessellation/trimmed_surface.rs:iterate_uv_curve_tessellation", "src/tessellation/trimmed_surface.rs:tessellate_uv_curve_adaptive"]}
{"id": "C84", "title": "Faces of trimmed meshes and of meshes of regions", "statement": "For every triangulation of the inserted vertices, the mesh of a trimmed surface is valid, all its vertices are on the surface at their parameters, and its faces are exactly the faces of the triangulation of sufficient area whose centre lies inside the sampled exterior trim and outside the sampled interior trims, in order. A face that no sampled trim enters is kept if all its inner points belong to the trimmed region and dropped if none does, and there is no other case. The same holds for the mesh of a planar region. A number of interior constraints different from the number of interior trims is an error.", "quantifier": "every trimmed surface and region, every triangulation", "why_tests_cant": "all triangulations and trims", "anchors": ["src/tessellation/trimmed_surface.rs:tessellate", "src/tessellation/tessellation_region.rs:tessellate", "src/tessellation/trimmed_surface_constraints.rs"]}
{"id": "C85", "title": "Construction, transformation and inversion of trimmed surfaces", "statement": "Mapping or projecting curves to a surface keeps the surface, and the degree, knots and weights of every curve; each control point is replaced by the parameters found for it, for the projection those of the intersection of its ray nearest to it. The construction fails without curves or when one control point finds no parameters. With exact parameters the trim of a plane lies exactly under the given curve and on every surface the end points of clamped curves are kept. For a unit direction without coordinates of opposite signs the rays reach every point of the surface ahead of the control points. An affine transformation moves all points under the trims. Exceptions in the code: on a surface that is not parametrised affinely only the control points are mapped, so the trim leaves the given curve even if that lies on the surface; directions with coordinates of opposite signs can make rays too short and the projection fail; inversion mirrors the trims in the middle of the domain, so the trimmed region moves.", "quantifier": "every surface, curve, direction, search and intersection routine", "why_tests_cant": "all surfaces, curves and directions", "anchors": ["src/surface/trimmed_surface.rs:try_projection", "src/surface/trimmed_surface.rs:try_map_closest_point", "src/surface/trimmed_surface.rs:try_project_curve", "src/surface/trimmed_surface.rs:invert", "src/surface/trimmed_surface.rs:transform"]}
{"id": "C86", "title": "Classification of intersections before a boolean operation", "statement": "An intersection of two curves counts as a proper crossing for the boolean operations exactly if the chords of both curves, from 1e-4 before to 1e-4 after the intersection in the parameter, cross and the cosine of their angle is below 0.9975; it is kept as a candidate with its angle if the chords cross more flatly, and discarded as a touch otherwise. For curves that are straight near the intersection this is the angle of the lines, and curves which a line separates near the intersection are always found to touch. Exceptions in the code: the step is absolute in the parameter, so the same curves with a short domain are classified differently; a curve that crosses another one tangentially is not counted as a proper crossing.", "quantifier": "every pair of planar rational curves and parameters, every tolerance", "why_tests_cant": "all curves and parameters; the dependence on the scale of the domain shows only for unusual domains", "anchors": ["src/boolean/degeneracies.rs:new", "src/boolean/clip.rs:clip", "src/misc/line.rs:intersects"]}
{"id": "C87", "title": "Boundary of the result of a boolean operation on crossing curves", "statement": "For two closed curves or compound curves with positive weights that cross properly, with the crossings and joints further apart than the joining tolerance and the crossings away from knots and joints, union, intersection and difference succeed. Every loop of the result is closed, with consecutive domains and gaps below the tolerance, and has no holes. Taken together the loops pass exactly through the crossings, the parts of either curve outside of the other one for the union, the parts inside of the other one for the intersection, and the parts of the subject outside and of the clip inside for the difference: nothing is missing and nothing is added.", "quantifier": "every pair of closed planar curves, any number of spans and crossings, all three operations", "why_tests_cant": "all curves and crossing patterns; exact equality of point sets", "anchors": ["src/boolean/clip.rs:clip", "src/boolean/boolean_curve.rs:boolean", "src/boolean/boolean_compound_curve.rs:boolean", "src/trim/mod.rs:try_trim_range", "src/region/compound_curve.rs:new"]}
{"id": "C88", "title": "Boolean operations enclose the set operation of the regions", "statement": "For two closed curves or compound curves with positive weights that cross properly (as in C87) and for any path that meets them in finitely many places, changes sides there and avoids their crossings: the path meets the loops of the result exactly where it enters or leaves the union, intersection or difference of the two regions. Hence a point belongs to the set operation exactly if a path from it to the outside meets the loops an odd number of times. The loops have to be read by this even-odd rule: none of the returned regions has a hole, a pocket enclosed by a union comes back as a region of its own.", "quantifier": "every pair of closed planar curves, any number of spans and crossings, all three operations, every path in general position", "why_tests_cant": "all curves, crossing patterns, points and paths", "anchors": ["src/boolean/clip.rs:clip", "src/boolean/boolean_curve.rs:boolean", "src/boolean/boolean_compound_curve.rs:boolean"]}
{"id": "C89", "title": "Curves do not wiggle more than their control polygon", "statement": "For a curve of positive degree with positive weights and any hyperplane: if the points of the curve at m+1 increasing parameters lie alternately on the two sides of the hyperplane, then so do m+1 control points, in the order of the control polygon and beginning on the same side. So a line or plane is crossed by the curve at most as often as by its control polygon, never more often than there are control points less one, and if the control points never go back in some direction the curve never goes back in it.", "quantifier": "every NURBS curve with positive weights, every hyperplane, every number of parameters", "why_tests_cant": "all curves, hyperplanes and parameter sequences; the number of sign changes is unbounded", "anchors": ["src/curve/nurbs_curve.rs:point_at", "src/knot/knot_vector.rs:basis_functions"]}
{"id": "C90", "title": "Interpolation always succeeds and is unique", "statement": "For data points whose neighbours are distinct, with the degree between one and the number of points less one and an exact linear solver, interpolation succeeds for every degree: its linear system is never singular. The result passes through every data point at its chord length parameter and is the only curve of that degree, knot vector and number of control points with weights one that does. The same holds for the systems of lofts: a loft of unified sections with distinct neighbouring control points, and a sweep whose placed profiles exist, never fail, whatever the degree in v.", "quantifier": "every list of points, every degree, every exact solver, every list of sections", "why_tests_cant": "regularity of the system is needed for all point sequences and degrees", "anchors": ["src/curve/nurbs_curve.rs:try_interpolate", "src/surface/nurbs_surface.rs:try_loft", "src/surface/nurbs_surface.rs:try_sweep"]}
{"id": "C91", "title": "Convex control polygons give convex curves", "statement": "If every three control points of a planar curve with positive weights, taken in order, turn to the left (or are collinear), then so do any three points of the curve at increasing parameters, and its adaptive tessellation is a convex polygon. If all turns are strict a line changes the side of the curve at most twice. In space the same holds for four points and the sense of winding, and in general for k points and any alternating form.", "quantifier": "every NURBS curve with positive weights, every choice of parameters, every tolerance", "why_tests_cant": "all curves and all triples of parameters", "anchors": ["src/curve/nurbs_curve.rs:point_at", "src/tessellation/tessellation_curve.rs"]}
{"id": "C92", "title": "Distance of a tessellated conic from the curve", "statement": "The tolerance of the planar adaptive tessellation bounds twice an area, not a distance. For a curve of degree two without inner knots whose weights lie between w0 > 0 and w1, the area spanned by two consecutive samples and any point of the curve between them is at most 25/21 w1/w0 of that bound, whatever the random numbers. So every point of the curve is within 25/21 w1/w0 sqrt(tol) of the line through the neighbouring samples, if these are at least sqrt(tol) apart. With inner knots nothing of this holds: one random point per piece is tested, and there are curves of which an arbitrarily high part is missed for every tolerance and every random number.", "quantifier": "every quadratic Bezier curve with positive weights, every tolerance, every stream of random numbers; the failure for every tolerance, stream and height", "why_tests_cant": "all curves and all random streams; the deviation is a supremum over a continuum", "anchors": ["src/tessellation/tessellation_curve.rs", "src/misc/trigonometry.rs:three_points_are_flat"]}
{"id": "C93", "title": "Periodic interpolation of odd degree always succeeds, of even degree it may be impossible", "statement": "Through data points with distinct neighbours (last and first included) periodic interpolation of every odd degree with at least degree + 1 points and an exact linear solver succeeds, for all knot styles, and the result is the only curve of that degree and those knots with weights one whose last degree control points repeat the first and which passes through the points at their parameters. For an even degree and an even number of points whose segments have equal parameter length (always so with the uniform style) the linear system is singular: the call fails with an error, whatever the solver, unless the alternating sum of the points happens to be zero.", "quantifier": "every list of points, every degree, every knot style, every exact solver", "why_tests_cant": "regularity of the system is needed for all point sequences and degrees; the failure is for all even sizes and degrees", "anchors": ["src/curve/nurbs_curve.rs:try_periodic_interpolate", "src/curve/nurbs_curve.rs:try_periodic_interpolate_control_points", "src/curve/knot_style.rs:parameterize"]}
{"id": "C94", "title": "Curves and surfaces are smooth across their knots", "statement": "A curve of degree p whose inner knots are repeated at most m times, m at most p, is p - m times continuously differentiable over its whole domain, and the derivatives of these orders that the API returns (homogeneous, rational, tangent) are the derivatives over the whole domain and not one-sided values of a span; at a knot repeated p times the tangent is the one to the right and the curve may have a corner. Periodic curves and periodic interpolations close smoothly: all derivatives of orders below the degree agree at both ends. Surfaces are jointly continuously differentiable to the smaller of the two orders, their mixed derivatives up to it are derivatives over the whole domain, and where no inner knot has the multiplicity of its degree the normal is the product of the two partial derivatives and varies continuously, on the knot lines too.", "quantifier": "every degree, knot vector, multiplicity, control net with non-zero weight function, parameter and order", "why_tests_cant": "derivatives across a knot are limits from both sides", "anchors": ["src/curve/nurbs_curve.rs:rational_derivatives", "src/curve/nurbs_curve.rs:tangent_at", "src/curve/nurbs_curve.rs:try_periodic", "src/curve/nurbs_curve.rs:try_periodic_interpolate", "src/surface/nurbs_surface.rs:normal_at"]}
{"id": "C95", "title": "Curves follow their control polygon and are not longer", "statement": "For a curve of degree at least one with positive weights: if no leg of the control polygon points backwards in some direction, the evaluated point never moves backwards in that direction as the parameter grows; any polygon through points at increasing parameters, in particular the tessellated curve, and the arc length itself are at most the length of the control polygon, in every norm; and refining knots before the end of the domain never lengthens the control polygon (adding a single knot likewise, for equal weights).", "quantifier": "every degree, knot vector, control net with positive weights, direction, norm, tolerance and set of inserted knots", "why_tests_cant": "supremum over all inscribed polygons; all directions and norms", "anchors": ["src/curve/nurbs_curve.rs:point_at", "src/curve/nurbs_curve.rs:try_refine_knot", "src/curve/nurbs_curve.rs:try_add_knot", "src/tessellation/tessellation_curve.rs"]}
{"id": "C96", "title": "Boundary constraints fix the vertices on the lower sides only", "statement": "With constraints on the sides of the domain, every vertex of the surface mesh on a constrained side v = v_min or u = u_min is at one of the given parameters (or at an end asked for by the adjacent side), subdivision adds none, and the point of every given parameter is a vertex, so that neighbouring meshes fit. Exceptions, all proved: a minimal depth does add vertices on the side; a constraint on the side v_max or u_max moves the row before the last one onto the side and leaves the vertices of the side as they are, so that a surface with a single row of cells collapses onto its side; the vertices of constrained sides carry unnormalised normals.", "quantifier": "every surface, set of constraints, subdivision option and flatness outcome", "why_tests_cant": "all grids, all trees and all lists of boundary parameters; the defects need particular sides", "anchors": ["src/tessellation/surface.rs:surface_adaptive_tessellate", "src/tessellation/surface_tessellation.rs:triangulate", "src/tessellation/boundary_constraints.rs:BoundaryEvaluation", "src/tessellation/adaptive_tessellation_node.rs:should_divide"]}
{"id": "C97", "title": "Adaptive surface meshes are refined where the normals turn", "statement": "Tessellation of a surface without constraints refines the grid cells exactly where the normals at the ends of an edge differ by more than the tolerance: every cell is halved in turn up to the minimal depth, then in the direction in which the normals differ until the maximal depth, and cells that stay below the maximal depth have normals within the tolerance along every edge (or a corner without a normal). The normal of every vertex is the normalised cross product of the derivatives at its parameter wherever that is not degenerate; a degenerate corner produced by the subdivision takes the normal of an adjacent corner. Exception, proved: points of the initial grid are never marked as degenerate, so the mesh of a surface with a collapsed side carries the normalised zero vector (NaN) at the collapsed corner.", "quantifier": "every surface, grid, depth, tolerance and normal field", "why_tests_cant": "all subdivision trees; the normal field is arbitrary", "anchors": ["src/tessellation/adaptive_tessellation_node.rs:should_divide", "src/tessellation/adaptive_tessellation_node.rs:fix_normals", "src/tessellation/adaptive_tessellation_processor.rs", "src/tessellation/surface.rs:surface_adaptive_tessellate"]}
{"id": "C98", "title": "Boolean operations name the subject's side of every intersection first", "statement": "Boolean operations between any combination of a curve and a compound curve work with the intersections of the spans of the subject with the spans of the other operand: every intersection used names a span of the subject with its parameter and point on the first side and a span of the other operand on the second side, the curves pass through these points there, and every intersection of two spans is used, except that one within a hundredth of the end of a span may be left out if the span that follows has one within a hundredth of its start. A curve clipped by a compound curve gets them in the order of its own parameter.", "quantifier": "every operation, all operands, all answers of the search for intersections", "why_tests_cant": "four entry points times all numbers of spans and hits; a swapped side shows only when the parameters of the two curves differ", "anchors": ["src/boolean/boolean_curve.rs", "src/boolean/boolean_compound_curve.rs", "src/intersects/curve_curve/intersection_compound_curve.rs", "src/intersects/curve_curve/compound_curve_intersection.rs:swap"]}
{"id": "C99", "title": "Evaluation is accurate in floating point arithmetic", "statement": "With every addition, subtraction, multiplication and division rounded, the evaluation of a curve with positive weights succeeds at every parameter of its domain: the knot span found is the exact one, the basis functions are non-negative and each has a relative error of at most 6p roundings however small it is, and every coordinate of the point differs from the exact one by at most the relative error of 14p+5 roundings times the largest coordinate of the control points (14(p+q)+9 for surfaces), independently of the number of control points, the spacing of the knots and the ratio of the weights. In double precision with rounding to the nearest, ties broken in any way, this is (14p+6)*2^-53 times the largest coordinate for degrees up to 100. Overflow, NaN and underflow are left out.", "quantifier": "every monotone rounding with a relative error bound, every valid curve and surface with positive weights and stored knots, every parameter of the domain", "why_tests_cant": "all curves, parameters and roundings; a test compares a few values with a tolerance", "anchors": ["src/knot/knot_vector.rs:basis_functions", "src/knot/knot_vector.rs:find_knot_span_index", "src/curve/nurbs_curve.rs:point_at", "src/surface/nurbs_surface.rs:point_at"]}
{"id": "C100", "title": "Refinement and splitting are accurate in floating point arithmetic", "statement": "With every arithmetic operation rounded, inserting a sorted list of n parameters of the domain into a curve (each equal to or at least the tolerance away from every knot and every other new parameter) and splitting a curve at such a parameter succeed, as they do without rounding: no index runs out of range and the knots are exactly those of the exact result. A coordinate or a weight of a control point is off by at most a factor that grows with the number of insertions (12 n 2^-53 in double precision, for up to 10^12 insertions) times the largest such coordinate of the input; the refined curve, and both pieces of a split curve (the left one if the cut is not at an inner knot), follow the original curve to the same accuracy, in homogeneous coordinates and, when the weights stay away from zero, in space. Without rounding the rounded functions are the exact ones.", "quantifier": "every monotone rounding with a relative error bound, every valid curve, every sorted list of separated parameters, every split parameter", "why_tests_cant": "all curves, knots and roundings; a test compares a few values with a tolerance, and cannot show that errors do not build up", "anchors": ["src/curve/nurbs_curve.rs:try_refine_knot", "src/split/mod.rs:try_split", "src/knot/knot_vector.rs:find_knot_span_index"]}
{"id": "C101", "title": "Weights of lofted surfaces", "statement": "If the sections of a loft agree in the weights of their corresponding control points (for example sections without weights, or circles), the lofted surface has these weights along v; with v degree one its control points are those of the sections. In both cases, with positive weights, the surface can be evaluated at every parameter; the same holds for every sweep of a profile with positive weights along a rail. Exception in the code: in general the weights are interpolated like coordinates and need not stay positive. Lofting three segments whose control points have the weights 1, 1/10 and 1/10 with v degree two gives a surface whose evaluation panics at v = 2/3 for every u, although every section has constant positive weights.", "quantifier": "every list of unified sections, every distance and every sound solver; the exception is shown for every sound solver", "why_tests_cant": "all sections, degrees and weights; examples in the tests use equal weights throughout", "anchors": ["src/surface/nurbs_surface.rs:try_loft", "src/surface/nurbs_surface.rs:try_sweep", "src/surface/nurbs_surface.rs:point_at"]}
{"id": "C102", "title": "Interpolation and lofting do not depend on where the points are", "statement": "Interpolating points that were scaled, turned, reflected and translated, or placed into a space of another dimension, gives the curve that was scaled, turned, reflected and translated in the same way, with the same knots; interpolating the points in reverse order gives the reversed curve; if the points lie in a plane (or any affine subspace) so does the curve. Lofting behaves likewise as long as corresponding control points of the sections have the same weights. Exception in the code: chord lengths in lofts are measured between homogeneous control points, so where weights differ from section to section the loft of translated sections is not the translated loft; for three explicit segments a translation by 7/12 moves a point of the loft from 3/8 to 19/21.", "quantifier": "every list of distinct points, every degree, every similarity and every translation; any two sound and complete linear solvers", "why_tests_cant": "all point sets and motions; the exception needs unequal weights", "anchors": ["src/curve/nurbs_curve.rs:try_interpolate", "src/curve/nurbs_curve.rs:try_interpolate_control_points", "src/surface/nurbs_surface.rs:try_loft"]}
{"id": "C103", "title": "Operations commute with transformations", "statement": "Refining, splitting, trimming, decomposing into Bezier segments, elevating, reversing and unifying transformed curves gives the transformed results, for every affine transformation; likewise refining, splitting, taking isocurves and boundary curves, flipping and reversing of surfaces. An operation fails on the transformed shape exactly when it fails on the shape, in the same way. Exception in the code: adding a single knot to a rational curve does not commute with translations.", "quantifier": "every curve and surface (well formed or not, non-zero weights where a transformation is applied), every affine transformation, all parameters", "why_tests_cant": "all shapes, parameters and transformations, including those on which the operations fail", "anchors": ["src/curve/nurbs_curve.rs:transform", "src/curve/nurbs_curve.rs:try_refine_knot", "src/split/mod.rs:try_split", "src/curve/nurbs_curve.rs:try_elevate_degree", "src/curve/nurbs_curve.rs:try_add_knot", "src/surface/nurbs_surface.rs:transform", "src/surface/nurbs_surface.rs:try_refine_knot", "src/surface/nurbs_surface.rs:try_isocurve"]}
{"id": "C104", "title": "Pieces of a curve stay within its control polygon", "statement": "For a curve with positive weights, the control points of every refinement, of both pieces of every split, of all Bezier segments and of all nodes of its bounding box tree lie in every convex set that contains the control points of the curve, and their weights lie between its smallest and largest weight. In particular the bounding boxes of the pieces are inside the bounding box of the curve. The same holds of the refinements, the split pieces and the tree nodes of a surface, in either direction.", "quantifier": "every valid curve with positive weights, every convex set, every separated parameter, every answer of the random generator", "why_tests_cant": "all convex sets, all trees of subdivisions", "anchors": ["src/curve/nurbs_curve.rs:try_refine_knot", "src/split/mod.rs:try_split", "src/curve/nurbs_curve.rs:try_decompose_bezier_segments", "src/bounding_box/mod.rs", "src/bounding_box/bounding_box_tree.rs", "src/bounding_box/surface_bounding_box_tree.rs", "src/surface/nurbs_surface.rs:try_refine_knot"]}
{"id": "C105", "title": "Measurements follow transformations", "statement": "The derivatives of every order of an affinely transformed curve are those of the curve mapped by the linear part (the point is transformed). A similarity of ratio s multiplies the computed length of a clamped curve by s, whatever the quadrature rule. After an isometry the parameters at given lengths, the divisions by length and by count and the parameter closest to the moved point are unchanged, the closest point found is the moved one, and the tessellated polyline consists of the moved points.", "quantifier": "every curve (clamped where lengths are measured; well formed with separated knots for divisions), every affine map, similarity or isometry, every parameter, length, point, quadrature rule, tolerance and sequence of random numbers", "why_tests_cant": "all curves and all transformations: a relation between two runs of iterative algorithms", "anchors": ["src/curve/nurbs_curve.rs:rational_derivatives", "src/curve/nurbs_curve.rs:tangent_at", "src/curve/nurbs_curve.rs:try_length", "src/curve/nurbs_curve.rs:try_parameter_at_length", "src/curve/nurbs_curve.rs:try_divide_by_length", "src/curve/nurbs_curve.rs:try_divide_by_count", "src/curve/nurbs_curve.rs:find_closest_parameter", "src/curve/nurbs_curve.rs:find_closest_point", "src/tessellation/tessellation_curve.rs:tessellate", "src/curve/nurbs_curve.rs:transform"]}
{"id": "C106", "title": "Meshes and closest points follow rotations", "statement": "The partial derivatives of every order of an affinely transformed surface are those of the surface mapped by the linear part. After a rotation and a translation the adaptive and the regular tessellation are the moved meshes: the same faces and parameters, moved points, rotated normals, with every option and constraint and with the same failures; the parameters closest to the moved point are unchanged and the closest point found is the moved one. Extruding a moved profile and making a plane from moved vectors give the moved surface. After a reflection the normals point to the other side.", "quantifier": "every surface, well formed or not, every affine map, rotation or reflection, every option, constraint, point and parameter", "why_tests_cant": "all surfaces and all transformations: a relation between two runs of recursive algorithms", "anchors": ["src/surface/nurbs_surface.rs:rational_derivatives", "src/surface/nurbs_surface.rs:normal_at", "src/surface/nurbs_surface.rs:regular_tessellate", "src/surface/nurbs_surface.rs:find_closest_parameter", "src/surface/nurbs_surface.rs:find_closest_point", "src/surface/nurbs_surface.rs:extrude", "src/surface/nurbs_surface.rs:plane", "src/surface/nurbs_surface.rs:transform", "src/tessellation/surface.rs:surface_adaptive_tessellate"]}
{"id": "C107", "title": "A curve determines its control points", "statement": "Two curves or surfaces of the same degree and knots that have the same homogeneous points have the same control points, provided no knot is repeated more than degree + 1 times or lies outside of the domain; otherwise some control point can be replaced without any effect. Consequently refining step by step, in any order and grouping, gives exactly the control points of refining at once; adding a single knot to a curve of constant weight is the refinement with it; cutting at two new parameters gives the same three pieces in either order; splitting a refined curve gives the refined pieces; refining a surface in u and in v commutes.", "quantifier": "every well formed curve and surface with knots in the domain of multiplicity at most degree + 1, every separated list of new knots, every order and grouping, every pair of cuts that are not knots", "why_tests_cant": "all knot vectors, orders and groupings; agreement at sampled parameters says nothing about control points", "anchors": ["src/curve/nurbs_curve.rs:try_refine_knot", "src/curve/nurbs_curve.rs:try_add_knot", "src/curve/nurbs_curve.rs:point", "src/split/mod.rs:try_split", "src/surface/nurbs_surface.rs:try_refine_knot", "src/surface/nurbs_surface.rs:point"]}
{"id": "C108", "title": "Refining and splitting reversed curves mirrors the results", "statement": "Refining the reversed curve at the mirrored parameters gives exactly the reversed refined curve. Splitting the reversed curve at the mirrored parameter gives the reversed pieces in the other order, with the same control points and the knots shifted by a constant.", "quantifier": "every well formed curve whose knots lie in its domain with inner multiplicity at most the degree, every separated list of new knots, every cut that is not a knot", "why_tests_cant": "all curves and parameters; equality of whole control polygons and knot vectors of two runs", "anchors": ["src/curve/nurbs_curve.rs:invert", "src/curve/nurbs_curve.rs:try_refine_knot", "src/split/mod.rs:try_split", "src/knot/knot_vector.rs:invert"]}
{"id": "C109", "title": "Constructors agree with each other", "statement": "Interpolating points with degree one returns exactly the normalised polyline. Curves of the same degree and knots are only shifted to start at zero when they are made compatible for lofting. Lofting from the translated copy of a curve to the curve succeeds and is, point by point and with the two parameters exchanged, the extrusion of the curve by the translation. A plane patch is, point by point, the extrusion of one of its edges.", "quantifier": "every list of at least two points with consecutive points apart, every list of compatible curves, every clamped rational curve without zero weights and every nonzero translation, every plane; every solver that finds existing solutions", "why_tests_cant": "all points, curves and parameters: different algorithms (linear systems, knot merging, direct formulas) have to give the same result", "anchors": ["src/curve/nurbs_curve.rs:try_interpolate", "src/curve/nurbs_curve.rs:polyline", "src/surface/nurbs_surface.rs:try_loft", "src/surface/nurbs_surface.rs:extrude", "src/surface/nurbs_surface.rs:plane", "src/surface/nurbs_surface.rs:try_unify_curve_knot_vectors"]}
{"id": "C110", "title": "Laws of the boolean operations", "statement": "For two closed curves that cross properly: the boundaries of the union and of the intersection together pass through exactly the points of the two curves, and so do those of the two differences; the boundaries of the difference and of the intersection together pass through exactly the points of the subject and those of the other curve inside of it. Union and intersection in either order have the same boundary. The classification of an intersection does not depend on the order of the curves.", "quantifier": "every two closed curves or compound curves that cross properly away from their joints, every number of crossings, in every order in which they are found", "why_tests_cant": "all pairs of curves: the walk along the curves starts at another place and visits the crossings in another order when the operands are exchanged", "anchors": ["src/boolean/clip.rs:clip", "src/boolean/degeneracies.rs:new", "src/boolean/mod.rs:union", "src/boolean/mod.rs:intersection", "src/boolean/mod.rs:difference"]}
{"id": "C111", "title": "Cutting and trimming compose", "statement": "Trimming a trimmed curve to a smaller range gives exactly the curve that trimming the original to the smaller range gives. The range kept and the two parts dropped are exactly the three pieces the two cuts leave. Trimming the reversed curve to the mirrored range gives the reversed trimmed curve, moved in its parameter. Cutting a surface once in u and once in v leaves the same four patches whichever is cut first.", "quantifier": "every well formed curve and surface with knots in the domain of multiplicity at most degree + 1 (degree, for the reversal), every nested pair of ranges and every cut clear of the knots", "why_tests_cant": "all curves, surfaces and ranges; equality of whole control polygons of different sequences of operations", "anchors": ["src/trim/mod.rs:try_trim_range", "src/split/mod.rs:try_split", "src/curve/nurbs_curve.rs:invert"]}
{"id": "C112", "title": "Bezier pieces and measured lengths depend on the shape only", "statement": "Two clamped curves of the same degree with the same distinct knots and the same points decompose into exactly the same Bezier pieces and have the same length, the same parameter at every length and the same divisions by length and by count, for every norm and quadrature rule; in particular inserting further copies of knots changes none of them. The pieces of the reversed curve are the reversed pieces in the other order, and the reversed curve has the same measured length for every symmetric quadrature rule.", "quantifier": "every well formed clamped curve with separated knots of multiplicity at most degree + 1 (degree, for the reversal), every norm, rule, length and count", "why_tests_cant": "all pairs of representations of a shape; sampling lengths cannot show that they agree exactly", "anchors": ["src/curve/nurbs_curve.rs:try_decompose_bezier_segments", "src/curve/nurbs_curve.rs:try_length", "src/curve/nurbs_curve.rs:try_parameter_at_length", "src/curve/nurbs_curve.rs:try_divide_by_length", "src/curve/nurbs_curve.rs:try_divide_by_count", "src/curve/nurbs_curve.rs:try_refine_knot", "src/curve/nurbs_curve.rs:invert"]}
{"id": "C113", "title": "What editing control points and weights does", "statement": "Moving a control point of a curve with positive weights by a vector moves every point of the curve by a fraction of the vector between none and all of it; the fraction depends on the parameter only, and is positive strictly inside the support of the control point. Raising a weight pulls every point straight towards the control point, further for a larger weight, never past it, and as close as wanted strictly inside the support; lowering it pushes points away along the same line. If the control points of two curves or surfaces of the same degree, knots and weights are pairwise within a distance, in any norm, the curves or surfaces are within that distance at every parameter; for curves only the control points whose support contains the parameter count.", "quantifier": "every well formed curve and surface with positive weights, every control point, vector, weight and parameter, every sublinear measure of displacements", "why_tests_cant": "all edits and all parameters; a bound on the effect of every possible edit", "anchors": ["src/curve/nurbs_curve.rs:control_points_iter_mut", "src/curve/nurbs_curve.rs:point_at", "src/surface/nurbs_surface.rs:point_at"]}
{"id": "C114", "title": "Regular samples and meshes converge to the curve and the surface", "statement": "With equal weights, the points of a curve move at most L times as fast as the parameter where every leg of the control polygon is at most L / degree times its knot intervals, and the polyline through n regular samples is within L times the parameter step of the curve; a curve with control points at the knot averages returns its parameter. With any positive weights and inner knots of multiplicity at most the degree, the polylines through regular samples converge uniformly to the curve and the meshes of the regular tessellation to the surface: from some number of divisions on, every point of a triangle is within the tolerance of all the points of the surface over its grid cell, and every place of the domain lies in the cell of a triangle.", "quantifier": "every well formed curve and surface with positive weights, every range, number of samples and tolerance", "why_tests_cant": "a limit statement: for every tolerance all sufficiently large numbers of divisions", "anchors": ["src/curve/nurbs_curve.rs:sample_regular_range", "src/curve/nurbs_curve.rs:point_at", "src/surface/nurbs_surface.rs:regular_tessellate", "src/surface/nurbs_surface.rs:regular_sample_points"]}
{"id": "C115", "title": "Intersections and containment do not depend on where the curves are", "statement": "Moving two curves by the same shift, or by the same distance keeping map that keeps or exchanges the axes, changes neither the number nor the parameters of the intersections the library finds, and the points of the intersections move along; the same failures are returned. The same holds of the intersections of compound curves and of a surface and a curve. Whether a closed curve or compound curve contains a point is the same after shifting both. The random numbers used by splitting are the same in both runs; the sentinel used for empty boxes is larger than the coordinates.", "quantifier": "every pair of well formed curves with positive weights, every list of spans, every shift, every stream of random numbers, every option and number of iterations", "why_tests_cant": "relates two runs over all curves, shifts and random streams", "anchors": ["src/intersects/curve_curve/intersection_curve_curve.rs:find_intersections", "src/bounding_box/bounding_box_traversal.rs:try_traverse", "src/contains/contains_curve.rs:contains", "src/contains/contains_compound_curve.rs:contains"]}
{"id": "C116", "title": "Boolean operations do not depend on where the curves are", "statement": "Shifting both operands of a union, an intersection or a difference by the same vector shifts every curve of every region of the result and every reported intersection point and changes nothing else: the same number of regions, the same spans in the same order, the same parameters, the same failures. This holds of two curves, a compound curve and a curve either way round, and two compound curves, with the intersection search and the containment test of the library, and of regions with holes whenever it holds of the compound curves that occur.", "quantifier": "every pair of operands whose spans are well formed with positive weights, every operation, every shift and every stream of random numbers", "why_tests_cant": "relates two runs of the whole operation over all operands", "anchors": ["src/boolean/boolean_curve.rs:boolean", "src/boolean/boolean_compound_curve.rs:boolean", "src/boolean/clip.rs:clip", "src/boolean/boolean_region.rs:boolean"]}
{"id": "C117", "title": "Isocurves of refined and cut surfaces", "statement": "Refining a surface step by step, in any order of the two directions and any grouping of the knots, gives exactly the net of refining at once. Refining a surface along its isocurves and taking an isocurve gives exactly the refined isocurve; refining across the isocurves leaves them as they are. Cutting a surface along its isocurves leaves pieces whose isocurves are exactly the pieces of the isocurves.", "quantifier": "every well formed surface with knots in the domain of multiplicity at most degree + 1, every separated list of new knots in either direction, every order and grouping, every isocurve parameter that is not a repeated inner knot, every cut clear of the knots", "why_tests_cant": "all surfaces, knots and parameters; equality of whole control polygons of different sequences of operations", "anchors": ["src/surface/nurbs_surface.rs:try_refine_knot", "src/surface/nurbs_surface.rs:try_isocurve", "src/split/mod.rs:try_split", "src/curve/nurbs_curve.rs:try_refine_knot"]}
{"id": "C118", "title": "Bounding boxes, reversals and samples in floating point arithmetic", "statement": "With every operation rounded: the computed points of a curve with positive weights lie in its computed bounding box up to an error that depends only on the degree and the largest coordinate. The test for overlapping boxes never rejects boxes that have a common point, and the computed boxes of curves that meet pass it when the tolerance is at least one rounding of the largest coordinate. Reversing a knot vector keeps the first knot, the order and the repetitions, and every knot is the mirrored one up to about one rounding per step; but in double precision it can make different knots coincide, so that a valid curve reversed begins at another point than the curve ends. Regular samples start exactly at the start and come in order; but in double precision fifty samples over the unit interval do not reach its end.", "quantifier": "every monotone rounding with a relative error bound (any rounding to the nearest for the last two facts), every valid curve with positive weights, every knot vector, tolerance, range and number of samples", "why_tests_cant": "all curves, parameters and roundings; the failures need particular magnitudes", "anchors": ["src/bounding_box/mod.rs:intersects", "src/bounding_box/mod.rs:new_with_points", "src/knot/knot_vector.rs:invert", "src/curve/nurbs_curve.rs:invert", "src/curve/nurbs_curve.rs:sample_regular_range", "src/curve/nurbs_curve.rs:point_at"]}
{"id": "C119", "title": "Adaptive tessellation of curves ends in floating point arithmetic", "statement": "With every operation rounded to the nearest double, adaptive tessellation ends for every curve of the plane or of space of a degree other than one (for which the control points are listed without recursion) with positive weights and knots that are doubles, however large its parameters are (also where neighbouring doubles are further apart than the parameter floor 1e-8), for every positive tolerance and all random numbers. The depth is bounded by the number of steps of 3/4 from the length of the domain to half of the floor plus 130. The result lists points at strictly increasing parameters of the domain, each of them the point of the curve at its parameter up to 14p+5 roundings of the largest coordinate. For coarser roundings it ends if the parameters are resolved finer than an eighth of the floor, whatever the tolerance and the flatness test are. Exception shown: with the tolerance zero the recursion of a curve whose domain is two neighbouring doubles never ends, although it does in exact arithmetic.", "quantifier": "every curve with positive weights, tolerance, stream of random numbers and rounding to the nearest (ties broken in any way)", "why_tests_cant": "all curves, magnitudes of parameters and random streams; a recursion that does not end shows up as a stack overflow on particular magnitudes only", "anchors": ["src/tessellation/tessellation_curve.rs:tessellate_adaptive", "src/tessellation/tessellation_curve.rs:tessellate", "src/misc/trigonometry.rs:three_points_are_flat", "src/curve/nurbs_curve.rs:point_at"]}
{"id": "C120", "title": "Finding the parameter at a length in floating point arithmetic", "statement": "With rounded parameters and arbitrary computed lengths, in any binary precision: the parameter found on a segment lies in its domain, it is the start for lengths up to zero and the end from the total on, and otherwise lies between two numbers of the format whose computed lengths enclose the given one and are at most the tolerance apart. In double precision the search ends if the computed lengths of neighbouring doubles around the target (and of doubles closer than some bound) are at most the tolerance apart, with an explicit number of steps. If the lengths of all numbers that enclose the target are further apart, the search never ends. Exception shown: in single precision, on a segment of length 16384 parametrised by its length with lengths computed without error, the parameter at the length 10000 is never found with the default tolerance 1e-4.", "quantifier": "every rounding to the nearest number of a binary format, every segment, computed length function, target and tolerance", "why_tests_cant": "all magnitudes of parameters, targets and tolerances; a hanging loop appears only where neighbouring numbers are further apart than the tolerance", "anchors": ["src/curve/nurbs_curve.rs:try_parameter_at_length", "src/curve/nurbs_curve.rs:compute_bezier_segment_parameter_at_length", "src/curve/nurbs_curve.rs:try_divide_by_length"]}
{"id": "C121", "title": "Knot vectors computed from points are valid in floating point arithmetic", "statement": "With every operation rounded, the knots of a polyline are sorted for any points; the normalised ones start with two knots exactly 0, end with two exactly 1 and none lies outside, provided two neighbouring points differ. Interpolation of degree p gives the points sorted parameters from exactly 0 to exactly 1, and sorted knots with p+1 knots exactly 0, p+1 knots exactly 1 and all others between. The parameter of point i of n has a relative error of at most i+n roundings. The knots of periodic interpolation are sorted for any segment lengths. Normalising the knots of a curve gives exactly the domain [0,1], keeps sorted knots sorted, keeps the knots of the domain in [0,1] and has a relative error of three roundings. Exception shown: in double precision a polyline through different points may give a segment no interval of parameters at all, because adding its length does not change the running length.", "quantifier": "every monotone rounding with a unit roundoff under which rounded numbers, 1 and the numbers up to the degree are exact (all IEEE formats), every list of points and every degree", "why_tests_cant": "all points, numbers of points and degrees; knots out of order by one unit in the last place appear for particular lengths only and make later searches fail", "anchors": ["src/curve/nurbs_curve.rs:polyline", "src/curve/nurbs_curve.rs:try_interpolate_control_points", "src/curve/nurbs_curve.rs:try_periodic_interpolate_control_points", "src/curve/nurbs_curve.rs:normalize_knots"]}
{"id": "C122", "title": "Dividing curves for intersections ends in floating point arithmetic", "statement": "With every operation rounded, dividing a curve at random parameters near the middle until the pieces are no longer than the tolerance (the search for intersections of curves does this) fails nowhere and ends after a number of divisions that depends only on the length of the domain and the tolerance, if the parameters are resolved finer than 1/200 of the tolerance; no split lands on an existing knot by assumption, and for curves without knots inside of the domain this is not needed. Where neighbouring numbers of the format are at least twice the tolerance apart the division never ends, whatever the random numbers: in double precision with the default tolerance (1/64 of the domain) this happens for every curve with parameters from 2^60 on and a domain no longer than 4096. Without rounding the computation is the exact one.", "quantifier": "every monotone idempotent rounding with unit roundoff at most 1/1000, every curve, tolerance and stream of random numbers in [0, 1]", "why_tests_cant": "all curves, magnitudes of parameters and random streams; a division that does not end shows up on particular magnitudes only", "anchors": ["src/bounding_box/curve_bounding_box_tree.rs:is_dividable", "src/bounding_box/curve_bounding_box_tree.rs:try_divide", "src/bounding_box/curve_bounding_box_tree.rs:new", "src/bounding_box/bounding_box_traversal.rs:try_traverse"]}
{"id": "C123", "title": "Refining and cutting flipped surfaces", "statement": "Refining a surface flipped in u (or v) at the mirrored parameters of that direction gives exactly the flipped refinement. Cutting it at the mirrored parameter gives the flipped pieces in the other order, with the same control points and the knots of that direction moved by a constant; the same holds for the surface inverted in both directions. Flipping in one direction and cutting in the other can be exchanged.", "quantifier": "every well formed surface whose knots in the flipped directions lie in the domain and are repeated at most degree + 1 times (at most degree times inside), every separated list of new knots, every cut that is not a knot", "why_tests_cant": "all control nets, degrees, knot vectors and parameters; an index off by one in the reversal shows up for particular multiplicities only", "anchors": ["src/surface/nurbs_surface.rs:flip", "src/surface/nurbs_surface.rs:invert", "src/surface/nurbs_surface.rs:try_refine_knot", "src/split/mod.rs:try_split"]}
{"id": "C124", "title": "Converting curves, surfaces, boxes and meshes to another scalar type", "statement": "An exact conversion (cast to a larger scalar type) commutes with evaluating curves and surfaces and with the ends of the domain, failures included; converting and converting back returns what was given. A rounding conversion (double to single precision) keeps degree, counts, the order of the knots, equal knots and positive weights, moves every knot by at most the unit roundoff and the domain to its rounded ends; if the knots are numbers of the new type, the points of the converted curve differ from those of the original by at most 2 u / (1 - u) times the largest coordinate of a control point; if the first and last spans are longer than the rounding errors the converted curve evaluates on its whole domain. Points in a box stay in the converted box, overlapping boxes keep overlapping, and the box of a curve without weights is converted with it. Not kept, and proved not to be: an unbroken polyline whose neighbouring knots become equal in single precision is torn, and a curve whose knots all become equal cannot be evaluated.", "quantifier": "every strictly monotone field embedding, every monotone rounding with a unit roundoff, every curve, surface, box and mesh; the torn curve for every rounding to the nearest number of 24 bits", "why_tests_cant": "all curves and magnitudes; a tear appears only for knots closer than the precision of the new type", "anchors": ["src/curve/nurbs_curve.rs:cast", "src/surface/nurbs_surface.rs:cast", "src/knot/knot_vector.rs:cast", "src/bounding_box/mod.rs:cast", "src/tessellation/surface_tessellation.rs:cast"]}
{"id": "C125", "title": "Clamping a curve makes it clamped, keeps its points on the old domain, and starts it at the origin", "statement": "try_clamp on a curve with sorted knots, equal weights and different knots further apart than the tolerance succeeds: the first and the last knot get multiplicity degree + 1 (or keep a larger one), all other knots stay, is_clamped answers true, the knot domain becomes the whole knot range, the weights stay and every point at a parameter of the old half open domain stays. A curve that is clamped already is returned unchanged whatever its weights. A curve not clamped at its start gets a longer domain, and wherever its control points are the clamped curve starts at the origin. With different weights the same is true of the points of the old domain if the first knot is simple or already repeated more than degree times: copies of the origin are put before the control points and copies of the last one after them; for other multiplicities clamping can move points inside the old domain.", "quantifier": "all ordered fields, vector spaces, degrees, control points, sorted knot vectors and tolerances", "why_tests_cant": "the added control points depend on the multiplicities of the end knots; tests use clamped curves, for which the function does nothing, and never look at the part of the curve before the old domain", "anchors": ["src/curve/nurbs_curve.rs:try_clamp", "src/curve/nurbs_curve.rs:is_clamped", "src/curve/nurbs_curve.rs:try_add_knot", "src/knot/knot_vector.rs:multiplicity"]}
{"id": "C126", "title": "Bezier pieces, lengths and divisions of curves that are not clamped", "statement": "For a curve with simple, separated knots (for instance a periodic curve), whatever its weights, the decomposition has one Bezier piece for every interval between neighbouring knots, also outside of the domain; the pieces in the domain agree with the curve and the first piece starts at the origin. try_length adds up exactly the pieces in the domain. try_parameter_at_length and try_divide_by_length do not leave out the others: for degree two and higher a length that fits into the first piece gives a parameter before the start of the domain, and every division starts at the first knot, before the domain; dividing into three parts can give ten samples. With a multiple knot at the start of the domain try_length leaves out part of the curve and can be less than the distance of the end points.", "quantifier": "every well formed curve with strictly increasing knots further apart than the tolerance, every norm, quadrature rule, length and tolerance", "why_tests_cant": "tests of lengths and divisions use clamped curves; the number of pieces left out depends on degree and multiplicities", "anchors": ["src/curve/nurbs_curve.rs:try_length", "src/curve/nurbs_curve.rs:try_parameter_at_length", "src/curve/nurbs_curve.rs:try_divide_by_length", "src/curve/nurbs_curve.rs:try_divide_by_count", "src/curve/nurbs_curve.rs:try_decompose_bezier_segments", "src/curve/nurbs_curve.rs:try_clamp"]}
