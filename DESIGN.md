# Formal model of curvo (Lean 4)

## What is verified and how

`/verif/lean/Verif` contains an executable model of the geometric core of curvo, written function by
function from the Rust sources in `/repo/src` (every definition cites file and lines), small independent
specifications, and theorems relating the two.

Layout

* `Verif/Basic.lean` – faults (`panic`, `err`, `nonfinite`) and checked array / subtraction / division primitives.
* `Verif/Model/*.lean` – the model (executable definitions only).
* `Verif/Spec/*.lean` – specifications, written without using any model definition
  (Cox–de Boor recursion, B-spline sums, set operations, …).
* `Verif/Lemmas/*.lean` – helper lemmas.
* `Verif/Props/*.lean` – the property theorems named in `MANIFEST.json`, each with a witness `example`.

### Modelling conventions

* **Scalars.** `T: FloatingPoint` is modelled by an arbitrary linearly ordered field `K`
  (`[Field K] [LinearOrder K] [IsStrictOrderedRing K]`), `ℝ` where square roots or trigonometry occur.
  Rounding is modelled for the evaluation of curves and surfaces (`Model/Rounded.lean`, C99) and for the refinement and
  splitting of curves (`Model/RoundedRefine.lean`, C100), for the reversal, the bounding boxes and the regular samples of curves
  (`Model/RoundedOps.lean`, C118) and for the adaptive tessellation of curves (`Model/RoundedTess.lean`, C119) and the search
  for the parameter at a length (`Model/RoundedLength.lean`, C120) the knots computed from points (`Model/RoundedKnots.lean`, C121) and the division of curves (`Model/RoundedTree.lean`, C122); everywhere else arithmetic is exact. `T::default_epsilon()` is an explicit parameter `eps`, so theorems are
  about every epsilon (`0 ≤ eps` or `0 < eps`).
* **Division.** `a / b` with `b = 0` would give `NaN`/`inf` in Rust. The checked operation `divR` returns the
  fault `nonfinite` instead of Lean's `a / 0 = 0`; theorems prove that the fault does not occur (or that it does).
* **Indexing, `usize` subtraction, `unwrap`.** Out of range access, underflow and `None.unwrap()` are the fault
  `panic` (debug semantics; in release builds underflow wraps and the following index panics).
* **`anyhow::Result`.** An error return is the fault `err`.
* **Mutation.** `&mut self` functions return the new value. Loops are structural recursions/folds; in-place array
  updates are `List.set`. A `while` loop that is not syntactically decreasing gets a fuel argument, and a theorem
  shows that the fuel given by the model is never exhausted.
* **Points.** Homogeneous control points live in an arbitrary `K`-module; where the weight matters they are pairs
  `(coordinates, weight) : W × K` (the code stores the weight as last coordinate).
* **Randomness** (`rand` in tessellation and tree splitting) is an arbitrary oracle, theorems quantify over it.
* **External code** – nalgebra's LU solver, argmin executors, Gauss–Legendre quadrature, cdt triangulation – are
  parameters; what is assumed about them is a hypothesis of the theorem that uses them.

### Trusted base

* Lean's kernel, and the three standard axioms `propext`, `Classical.choice`, `Quot.sound` (Mathlib). No other axiom,
  no `sorry`, no `native_decide`, no `bv_decide`.
* The reading of the Rust code (the model cites lines; nothing is extracted mechanically and nothing is run).
* Exact arithmetic instead of floating point, except in C99, C100, C118 to C122 and C124. There a rounding is any monotone function with a relative
  error bound, which round-to-nearest with 53 bits is shown to be; overflow, NaN and subnormal numbers are left out.

## Plan per property

| id | modelled | method |
|----|----------|--------|
| C01 | `find_knot_span_index` (fuelled loop), `find_knot_span_linear` | loop invariant low/high, fuel bound |
| C02 | `basis_functions` with checked division | induction over degree against Cox–de Boor spec |
| C03 | same | corollary of C02 + spec lemma |
| C04 | `derivative_basis_functions` | table = NURBS book coefficients; spec = `Polynomial.derivative` iterates of span polynomials |
| C05 | `floor`, `add` | induction on list |
| C06 | `multiplicity`, `is_clamped` | induction with accumulator invariant |
| C07 | `KnotVector::invert` | closed form by induction |
| C08 | `try_new` | case analysis |
| C09 | `point`, `point_at`, `dehomogenize` | C01 + C02 + sum over support |
| C10 | `From<&NurbsCurve> for BoundingBox`, `contains` | C03 + C09, weighted averages |
| C11 | `point_at` on clamped curves | Cox–de Boor at the ends |
| C12 | `point` | C09 |
| C13 | `invert` | mirror symmetry of Cox–de Boor |
| C14 | `normalize_knots` | affine invariance of Cox–de Boor |
| C15 | `transform` | linearity; counterexample for projective matrices |
| C16 | `elevate_dimension` | linearity |
| C17 | `polyline` | C09 at degree 1 |
| C18 | `try_periodic` | translation invariance of uniform Cox–de Boor |
| C19 | `try_refine_knot` (full loop with index arithmetic) | each round is one Boehm insertion; Boehm identity for Cox–de Boor |
| C20 | `try_add_knot` | Boehm identity; counterexample for non constant weights |
| C21 | curve `try_split` | C19 + restriction to sub knot vector; counterexample at interior knots |
| C22 | `try_trim_range` | C21 |
| C23 | `try_decompose_bezier_segments`, `try_clamp` | C19 + restriction |
| C24 | `try_elevate_degree` (whole loop) | loop invariant over the segments of a Bezier chain of any length and degree; Bernstein elevation identity; length invariants; counterexamples; symbolic execution for quadratic curves with simple knots (`Props/ElevQuad.lean`) |
| C25 | `try_remove_knot` | size bookkeeping and error branches for all calls; simple interior knots: loop invariant for `temp`, the old polygon is the knot insertion of the new one up to one control point, hence a bound for the movement, exactness at tolerance 0 and undoing `try_add_knot`; negations for even degree and double knots; symbolic execution for quadratic curves with a double knot (`Props/RemoveDouble.lean`) |
| C26 | `derivatives`, `rational_derivatives` | C04 + Leibniz |
| C27 | surface `rational_derivatives` | two variable Leibniz, uniqueness |
| C28 | surface `point`, `point_given_bases_knot_spans` | C02 twice |
| C29 | `flip`, `invert` | C13 in each direction |
| C30 | `extrude` | C28 + Bernstein identity |
| C31 | `plane` | C28 |
| C32 | `try_isocurve` | C19 + C28; counterexample at double knots |
| C33 | surface `try_refine_knot`, `try_split` | C19, C21 row-wise |
| C34 | `regular_tessellate` faces/uvs | arithmetic over all divs |
| C35 | `try_interpolate_control_points` (`Model/Interp`; the LU solver is a parameter, assumed to answer only with solutions) | each row is the basis row that evaluation uses, so success implies interpolation; regular data: knots are good, rows are the collocation matrix |
| C70 | `try_periodic_interpolate(_control_points)`, `KnotStyle::parameterize` | rotated rows against periodically repeated control points; closedness by periodicity of the knots |
| C36 | `BoundingBox::*` | ordered field reasoning |
| C37 | `try_traverse` with abstract trees; the trees of curves and surfaces | induction over the work stack; instances for curve–curve and surface–curve with the parameters tracked |
| C38 | `clip`: selection, no-crossing branch (`Model/Boolean`, `Props/ClipSets`) | case analysis + set semantics; fold for the largest angle |
| C39 | `clip`: linked lists, statuses, walk, loops (`Lemmas/ClipWalk`, `Props/ClipWalk`) | two fixed-point free involutions; invariant of the walk (visited = trail of turns, closed complement), first repetition is the start; filter of entries over all nodes; crossing count on sorted parameters |
| C40 | `distribute_interiors_to_regions` (`Props/Clip`) | induction with permutation |
| C41 | region×curve, region×region boolean (`Props/ClipSets`) | set semantics over an abstract sound curve operation; exact deviation formulas; counterexamples on nested intervals through the modelled `clip` |
| C42 | `CompoundCurve::new`, `CurveDirection::new` (`Model/Compound`) | the loop follows a chain or loop in general position (`General`), by induction on the remaining spans; counterexamples for chains given from the middle, branches, unclamped spans |
| C43 | `CompoundCurve::invert` | involution, joints, reversal after realignment; counterexample without |
| C71 | `CompoundCurve::point_at` | consecutive domains determine the span |
| C72 | compound `try_trim_range` | per span from C21/C22, tiling by induction; negation at joints |
| C73 | `try_revolve`, `try_sphere` (`Model/Conic`); the cross product with the axis is a linear map | columns are arcs with a common denominator, rotation is linear in homogeneous coordinates; the cross product of space is an instance; counterexample for other axes |
| C44 | `tessellate_adaptive` (random oracle) | induction on fuel, floor counterexample |
| C45 | `triangulate` | induction over tree |
| C46 | `should_divide`/`iterate` depth logic | induction |
| C47 | neighbour index functions | arithmetic + counterexample |
| C48 | `merge_sorted_parameters` | induction |
| C49 | `sorted_set_union/sub`, `try_unify_curve_knot_vectors` | induction over both lists; refinement by the missing knots; affine invariance |
| C50 | `PolygonMesh` add/sum/triangles; `area` in the plane and in space (`Model/MeshArea.lean`) | list lemmas; the measure of a triangle is the determinant of the linear map from the unit triangle times one half, whose measure is an integral; Lagrange's identity for the placement in space (`Props/MeshArea.lean`). |
| C51 | `Binomial::get`, `binomial` | state invariant over histories |
| C52 | `segment_closest_point` | convex quadratic |
| C53 | `Ray::find_intersection` | algebra |
| C54 | `Model/Length.lean`: length of a Bezier segment by quadrature (rule a parameter), bisection (fuel), `try_parameter_at_length`, `try_divide_by_length`, `try_divide_by_count` | loop invariants; over the reals the integrand is shown to be the norm of the derivative and the loops are shown to end (uniform continuity) |
| C55 | `Model/Closest.lean`: guess from samples, gradient, Hessian, constrain, Newton loop for curves and surfaces; the loop of the external crate argmin is modelled from its documentation | induction over the steps; calculus over the reals; one Newton step is exact on straight curves of constant speed; on flat patches the error shrinks by 3/4 per step; concrete counterexamples for closed curves and for the distance |
| C56 | `Model/Serde.lean`: documents as trees, the visitors of curve, surface, compound curve, region, trimmed surface; formats of scalars, points and sizes are parameters with the law `dec (enc a) = a` | induction on the entries: acceptance characterised exactly, order independence, round trips, regions as sequences; negations (no validation, positional documents, dropped exterior) |
| C57 | `PolygonBoundary::contains` | fold over cyclic pairs; the change along a segment telescopes over the edges; points strictly beyond a half plane that holds all vertices have winding number zero; reversing the polygon negates it |
| C58 | `Line::intersects` | sign arguments |
| C59 | `try_ellipse_arc`, `try_arc`, `try_circle`, `try_ellipse`, `Ray::find_intersection` over a real inner product space (`Model/Conic`) | the tangents meet at the middle direction divided by the half-angle cosine; the constructed curve is a chain of Bezier segments (`Lemmas/Conic`); the angle on a segment is `2 atan((2s-1) tan(h/2))`; counterexample for other elliptic arcs |
| C60 | `point_at` | linearity |
| C61 | `sample_regular_range` | induction |
| C62 | `find_intersections` of two curves and of a surface and a curve (`Model/Intersect`); the BFGS solver is an arbitrary function of the two pieces | list induction for sorting/grouping, C37 for the pieces; counterexample with a nodal cubic |
| C74 | culling in the compound `find_intersections` | loop invariant over the windows; counterexample for an open curve |
| C63 | quadtree split | rectangle tiling induction |
| C64 | `transpose_control_points` | list lemmas |
| C75 | `Model/Frame.lean`: `compute_frenet_frames`, `FrenetFrame::matrix` on triples of reals; `from_axis_angle` and `face_towards` of nalgebra from their documentation | vector identities, induction over the parameters |
| C76 | `Model/Loft.lean`: `try_loft` with the linear solver and the distance as parameters | each row of the surface is an interpolating curve (C35); the end rows are the sections by the clamped ends; counterexamples with exact solutions of the systems |
| C77 | `try_sweep` on C75's frames and C76's loft | equal sections unify to a shift of the knots; parallel frames keep the chord lengths, so C76's equal spacing applies |
| C78 | `Contains::contains` for curves and compound curves, `x_ray_intersection`; the closest point search is a parameter | the leaves of the bounding box traversal tile the domain; each piece reports a sign change iff it owns a crossing; counting over the tiling; intermediate value theorem; parity of crossings of a closed curve; edge by edge comparison with the winding number of the polygon |
| C79 | `transform`, `try_length`, `find_closest_point` of compound curves | induction over the spans on C15, C54, C55; first of the smallest entries |
| C80 | `tessellate` of compound curves on C44's sampling of each span | concatenated samples without the joints; fuel is monotone, so one bound serves all spans |
| C81 | one iteration of the BFGS solver (`Model/Bfgs`, one model for 2 and 3 parameters), cost and gradient of the two problems; `norm()` is a parameter | rank-two update algebra (`x·H'x = z·Hz + c²·ys`), induction over the line search, C26/C27 for the gradient; counterexample by evaluation |
| C82 | the executor loop, the two solver calls | invariant "best parameter has the best cost", measure `max_iters`, evaluation outside the domain by the first/last span; counterexample with the default options |
| C83 | `iterate_uv_curve_tessellation`, `tessellate_uv_curve_adaptive` (`Model/Trimmed.lean`) | measure: the length of the piece over the smallest length; each refused piece is shorter than it; tangents of a parabola by symbolic evaluation |
| C84 | `tessellate` of trimmed surfaces and regions; the triangulation (crate `spade`) is a parameter | C57's constancy on the inner points of a face, C83's samples, C45's meshes |
| C85 | `try_projection`, `try_map_closest_point`, `transform`, `invert` of trimmed surfaces; search and intersection are parameters | control point by control point; linear images of curves (C15), half spaces and boxes (C10); counterexamples by evaluation |
| C86 | `Degeneracy::new` on the modelled curves and `Line::intersects` (`Model/BoolEntry`); the norm is a parameter | chords cross in the sense of C58, cosines from the specification of the norm; separating lines; counterexamples by evaluation |
| C87 | `Env.clip` on the modelled curves: trimming (C22, C72), walk (C38, C39), `CompoundCurve::new` (C42); which parts lie inside of the other curve is a function that changes exactly at the crossings and agrees with the containment query at the start points (the query itself is C74) | the pieces of a loop form a ring of named places that are further apart than the tolerance, so joining keeps it (`BoolLoop`); every arc is cut exactly (`BoolTrim`); arcs tile both curves (`BoolArcs`) |
| C88 | the loops of C87 and a path, given as an arbitrary function of a parameter; the regions are arbitrary sets that the path enters or leaves exactly where it meets the curves and that decide on which side of the other curve the parts of a curve are | induction over the places where the path meets one of the two curves: passing one curve changes the combination exactly on the wanted side of the other; parity of the changes |
| C89 | `point_at` of C01, weights positive | Boehm insertion at a parameter replaces control values by convex combinations, so an alternation of the refined values gives one of the given values (`Alt.of_insert`); inserted to full multiplicity a parameter makes the value of the curve a control value (`Alt.of_values`) |
| C90 | `try_interpolate` (C35), `try_loft` (C76), `try_sweep` (C77); the solver has to answer systems with non-zero determinant | the Schoenberg-Whitney theorem (`Lemmas/Whitney`): a spline that vanishes at parameters nested with its knots is zero; by variation diminution and local independence of the basis functions |
| C91 | `point_at`, weights positive; orientation is any alternating form on homogeneous points | total positivity (`Lemmas/TotalPos`): inserting a knot expands an oriented tuple into oriented tuples with non-negative factors; then as C89 |
| C92 | `tessellate_adaptive`, `three_points_are_flat` in the plane | on one polynomial piece of degree two the determinant of three homogeneous points is a constant times `(u-x)(y-u)(y-x)`; compare the tested parameter with any other; counterexample with inner knots for all tolerances and random numbers |
| C93 | `try_periodic_interpolate` (all of it, forwards), exact solver | odd degree: a periodic spline vanishing at its knots is zero, by partial integration of the middle derivative over the pieces (`Lemmas/PeriodicSpline`), then as C90; even degree: the basis values at equally spaced knots are symmetric, so alternating sums vanish |
| C94 | curve derivatives of C26, `try_periodic`, periodic interpolation | Derivatives of the basis polynomials of neighbouring spans agree up to the degree less the multiplicity (`NS_cont` applied to the derivative formula); a gluing lemma for pieces on closed sets gives continuous differentiability over the domain. At the seam of periodic curves the span after the domain is the first span one period later. For surfaces each basis function is a scalar curve, hence smooth; the tensor product sum is jointly smooth, and the partial derivatives over a span are those over the domain. |
| C95 | evaluation, knot refinement, curve tessellation | Summation by parts writes a point as the first control point plus the legs, each times the share of the weight behind it. That share is increasing in the parameter (total positivity, C91 for the scalar curve with control values 0 and 1), which gives monotonicity and length bounds for all norms. Refinement is a chain of corner cuts (`Cut`, part of `Refines`), and a corner cut does not lengthen a polygon. |
| C96 | `surface_adaptive_tessellate` with `BoundaryConstraints` (`Model/Tess.lean`) | Invariant of the subdivision: corners on a constrained lower side carry the marks of the grid, so that no node is divided across them; every vertex is the replacement of a corner of a node or the centre of a node. `Props/TessConstrained.lean`; the upper sides by the marks of the grid (`iv == divs - 1`), which sit one row before the side. |
| C97 | `should_divide`, `fix_normals`, `iterate` of the subdivision processor, `evaluate_surface` (`Model/Tess.lean`) | Independent specification `Refined` (an inductive relation between a cell and its leaves, driven by an arbitrary normal field); the list of nodes refines it by induction on the recursion depth. `Props/TessNormals.lean`; the pole by a copy of the leaf-corner invariant for unflagged points. |
| C98 | the four entry points of the boolean operations, `Model/BoolEntry.lean` | For an arbitrary symmetric relation `X` of meetings that the search of two curves finds exactly, the intersections handed to `clip` satisfy `Names` (sides, parameters, points) and are complete up to `LeftOut`; from C74. `Props/BoolHits.lean`, with the whole operation on a square given as a curve and one given as a compound curve. |
| C99 | `find_knot_span_index`, `basis_functions`, `point`, `dehomogenize`, `point_at` of curves and surfaces with every operation rounded, `Model/Rounded.lean` | Without rounding the functions are those of the exact model. A rounding is a monotone function with relative error at most `μ`. All terms of the basis recursion are non-negative, so relative errors only add up (`Rel`: exponent 6 per degree); sums carry one factor per term; the quotient of two sums with positive masses is compared term by term. Any choice of a nearest number of 53 bits is shown to be such a rounding with `μ = 2⁻⁵³`. |
| C100 | `try_refine_knot` and the curve `try_split` with every operation rounded, `Model/RoundedRefine.lean` | The run of the rounded function is compared with the exact one step by step: the tolerance test `|alpha| < eps` comes out the same because `eps` is stored exactly and rounding is monotone, so both take the same branches; every combination has weights in `[0, 1]` also after rounding, hence its error is `(1 + κ) E + κ M` with `κ = lerpErr μ ≈ 11 μ`, and after `n` insertions `((1 + κ) ^ n - 1) M` (`Near`). Close control points with the same knots give close curves (partition of unity). `Props/RoundedRefine.lean`. |
| C101 | `try_loft` and `point_at` as in C76 | The weights of a row solve the collocation system of the weights of its column; that system is regular (C90), and constants solve it by the partition of unity. With v degree one the collocation matrix is the identity. All sections of a sweep carry the weights of the profile (C77). The pole is a computed case (`exPole`): interpolated weights `1, -7/20, 1/10` vanish at `v = 2/3`. `Props/LoftWeights.lean`. |
| C102 | `try_interpolate`, `try_loft` as in C35, C76 | The chord parameters are invariant under similarities and reflected by reversal, hence the knots are; the transformed control points solve the transformed system, which has one solution (C90); a linear functional constant on the data is constant on the solution. The defect is a computed loft of degree one (`exTwisted`). `Props/InterpSymmetry.lean`, `Props/LoftSymmetry.lean`. |
| C103 | the curve and surface operations as in C18–C28 | Every operation uses the control points only through linear combinations whose coefficients come from the knots: naturality in the space of control points, proved operation by operation (`Lemmas/Natural.lean`, `Lemmas/SurfNat.lean`). Affine matrices act linearly on homogeneous points. With positive weights C104 provides the weights of the results. `Props/Moved.lean`. |
| C104 | as in C18, C21, C23, C37 | Every control point of a piece is reached from those of the curve by repeated convex combinations of homogeneous points (`Hull`); combinations with positive weights are convex combinations of the projected points; induction over the tree. Surfaces: the net as one list, rows and columns refined as curves (`SurfHull`). `Props/Pieces.lean`, `Props/SurfPieces.lean`. |
| C105 | measurements of transformed curves (`Props/MovedMeasure`) | naturality: every step of the derivative recursion, the quadrature, the bisection, the Newton search and the tessellation commutes with an affine map of the homogeneous control points; inductions over the loops, failures included |
| C106 | measurements and meshes of transformed surfaces (`Props/SurfMoved`) | naturality of the derivative tables, of the subdivision tree, of the triangulation with its snapping to boundary points and of the Newton search; inductions over loops and recursion, failures included |
| C107 | curves and surfaces with the same points (`Props/Unique`) | the basis functions of a span are linearly independent (induction on the degree over polynomial identities, `Lemmas/Whitney`); linear functionals reduce vectors to scalars; refinement and splitting results are then compared by knots and values |
| C108 | `invert` against `try_refine_knot` and `trySplit` (`Props/Reversed`) | the results have the same knots (multisets of mirrored values) and the same points, hence the same control points by C107 |
| C109 | `tryInterpolate`, `polyline`, `tryUnify`, `tryLoft`, `extrude`, `plane` against each other (`Props/Constructors`) | the interpolation matrix of degree one is the identity; unified curves are determined by C49 and C107; the loft of two sections is ruled (C76) |
| C110 | `clip` for exchanged operands and for the three operations side by side (`Props/BoolLaws`) | from the boundary theorem C87; selection and classification are natural in the intersections, the line test is symmetric; containment along a curve is determined by its start and the crossings |
| C111 | `try_trim_range`, `try_split` of curves and surfaces, `invert`: both sequences of operations succeed and their results have the same knots and points, so by the uniqueness of control points (C107) they are equal; `C111_trim_trim`, `C111_inside_outside`, `C111_trim_reversed`, `C111_four_patches` |
| C112 | `try_decompose_bezier_segments` and the measurements built on it: each Bezier piece is determined by its points (C107), the breakpoints by the distinct knots; `C112_same_pieces`, `C112_same_measures`, `C112_more_copies`, `C112_pieces_reversed`; over the reals the velocity of the mirrored piece is the negative velocity, `C112_length_reversed` |
| C113 | `point_at` after writing through `control_points_iter_mut` (a control point replaced in the list): the homogeneous sum changes by one basis function times the difference; `C113_move`, `C113_weight` with explicit fractions, `C113_close` and `C113_surface_close` as weighted means of the displacements, for every sublinear measure |
| C114 | `sample_regular_range` and `regular_tessellate`: the knot averages reproduce the parameter (induction over the degree, `NS_knotSum`), so the monotone leg fractions of C95 bound the displacement, `C114_lipschitz`, `C114_samples`, `C114_averages`, over every ordered field; over the reals uniform continuity of the points (C94) gives `C114_converges` and `C114_mesh_converges` |
| C115 | `find_intersections` of curves and compound curves and `contains` run on shifted (or axis-keeping isometric) inputs: boxes move along as long as the sentinel of the empty box is beyond the coordinates (`Room`), trees have equal answers to every box test (`TreeMap`, `traverse_moved`), the minimised costs are equal (`pairCost_moved`), so every step of the run is the image: `C115_curves`, `C115_compound`, `C115_surface_curve`, `C115_contains`, `C115_contains_compound`. Not modelled there: rotations by other angles, where the boxes are different boxes |
| C116 | `boolean` of curves and compound curves on shifted operands: every step of clipping commutes with a map of the curves that commutes with trimming, reversing and evaluation (`clip_map`, `new_moved`, `compound_trim_moved`); `C116_curves`, `C116_compound_curve`, `C116_curve_compound`, `C116_compounds` for shift invariant queries, `C116_library` for the queries of the library; `C116_region_curve`, `C116_region_region` and `C116_regions` for regions whose curves stay in a class closed under the operations |
| C117 | refinements of a surface in any order and grouping (`C117_refine_any_order`), isocurves of refined and of cut surfaces (`Props/SurfUnique`) | the results have the same degrees, knots and points, so by the uniqueness of control points (C107) they are the same; isocurves by C32, pieces by C33 and C107 |
| C118 | rounded model of `BoundingBox::intersects`, the boxes of curves, `invert` and `sample_regular_range` (`Model/RoundedOps`, `Props/RoundedBox`) | monotonicity of the rounding gives the absence of false negatives and the order of knots and samples; error recurrences by induction on the steps; the failures in double precision (`C118_invert_merges`, `C118_last_sample`) for every rounding to the nearest number of 53 bits |
| C119 | rounded model of `tessellate_adaptive` and `three_points_are_flat` (`Model/RoundedTess`, `Props/RoundedTess`) | while an interval is long compared with the resolution of its parameters its halves shrink by 3/4; otherwise its doubles are at most 129 multiples of one power of two, the middle of two numbers with another one between is strictly between, and between neighbours the test sees two equal points and stops (`Settles`); induction on both measures. `C119_zero_tolerance` is the exception |
| C120 | rounded model of the binary search of `compute_bezier_segment_parameter_at_length` (`Model/RoundedLength`, `Props/RoundedLength`); the computed length is any function | the rounded middle is the nearest number to the middle; induction with the bracket as invariant; termination with the two measures of C119; `C120_single` is the search that never ends |
| C121 | rounded model of the knots of `polyline`, of (periodic) interpolation and of `normalize_knots` (`Model/RoundedKnots`, `Props/RoundedKnots`) | all of them are rounded running sums (`runSum`): monotone because adding a non-negative number to a stored one and rounding does not go below it; quotients and averages by monotonicity of the rounding; `C121_vanishing_segment` is the exception |
| C122 | rounded model of the division of curves by the bounding box tree (`Model/RoundedTree`, `Props/RoundedTree`) | the split parameter lies between 39/100 and 61/100 of a piece that is long against the resolution, so lengths shrink geometrically (`division_ends`, by induction on the steps, invariant `PieceInv`); for coarse parameters one of the two pieces is a piece with the same hypotheses (`C122_never_ends`) |
| C123 | `flip`, `invert`, `try_refine_knot`, `try_split` of surfaces (`Props/ReversedSurface`) | a surface is determined by its rows (or columns) as curves, on which refining and splitting act one by one; C108 for each of them, and for the other direction reversing the order of rows or columns |
| C124 | `cast` of knots, curves, surfaces, boxes and meshes (`Model/Cast`, `Props/Cast`); the conversion of a scalar is a parameter | naturality of the evaluation under a field embedding (every step, failures included); rounding: weighted sums with rounded terms, monotone maps commute with min and max; a torn and a collapsed curve for every rounding to 24 bits |
| C125 | `try_clamp` (Model/Refine) | induction over the added copies with an invariant (`Grown`): degree, sorted knots as a multiset, lengths, growing domain, same spline on the old domain; the multiplicity map is C06; sorted lists with equal multisets are equal; the first control point becomes 0 because the recurrence has no left neighbour there, and C11 turns that into the start point; for a simple first knot and any weights the added control points are computed exactly (induction over the copies), and the old curve is a part of the new one (`Sub`) |
| C126 | `try_decompose_bezier_segments`, `try_length`, `try_parameter_at_length`, `try_divide_by_length`, `try_divide_by_count` for curves that are not clamped (Model/Refine, Model/Length; `Props/Unclamped`) | decomposing is decomposing the clamped curve, so C125 and C23 apply; strictly increasing lists with the same members are equal, which counts the pieces; the slice taken by `try_length` is computed |
| C65 | `KnotVector::uniform` | closed form, induction |
| C66 | `regulary_spaced_basis_functions`, `regularly_spaced_derivative_basis_functions` | loop invariant of the advancing span |
| C67 | `first_point`, `end_point`, `is_closed` | C11, case analysis |
| C68 | corners and edges of the adaptive tree (`Model/Tess.lean`) | invariant over all subdivisions: neighbours share the points of their common edge |
| C69 | leaves of the adaptive tree | areas and rectangles of the leaves tile the domain; the polygon of a leaf (4-gon, 5-gon, fan from the centre) is cut into triangles that cover it without overlap: the side of a point as seen from the centre is monotone along an edge (`Props/TessCover.lean`) |

## What is modelled and what is not

| file in `/repo/src` | modelled | not modelled |
|------|----------|--------------|
| `knot/knot_vector.rs`, `knot_multiplicity.rs` | all functions | accessors |
| `curve/nurbs_curve.rs` | construction, evaluation, derivatives, sampling, length, interpolation, conics, degree elevation, knot insertion and removal, refinement, clamping, Bezier decomposition, closest point, transformation, inversion, frames, serialisation, `cast` | accessors, the LU solver and the quadrature nodes (parameters) |
| `curve/knot_style.rs` | `parameterize` | |
| `surface/nurbs_surface.rs` | evaluation, derivatives, regular sampling and tessellation, normals, flip, plane, extrude, revolve, sphere, loft, sweep, isocurves, refinement, closest point, knot unification, transformation, inversion, serialisation, `cast` | accessors |
| `surface/trimmed_surface.rs` | all functions | accessors |
| `split/mod.rs`, `trim/mod.rs` | all functions | |
| `bounding_box/*` | all functions (tangents used in tree division are an oracle) | |
| `intersects/*` | traversal, pairing, grouping, culling, the BFGS problems and iteration (argmin's executor: `init`, `terminate`, `next_iter`, best parameter) | argmin itself beyond this loop; in C62 the solver is an arbitrary function |
| `boolean/*` | clip, region booleans, distribution of interiors, `degeneracies.rs`, the entry points for curves and compound curves | intersection and containment queries of the entry points are parameters there (modelled separately, C62, C74) |
| `region/*` | construction, evaluation, closedness, inversion, serialisation | |
| `closest_parameter/*` | problems, Newton steps, constraints | the executor of argmin is modelled from its documentation |
| `tessellation/*` | curves, surfaces, adaptive tree, boundary constraints, triangulation, compound curves, trimmed surfaces, regions | the constrained Delaunay triangulation of the crate `spade` (parameter) |
| `polygon_mesh/mod.rs`, `misc/*` | all functions with content | `FrenetFrame::cast`, accessors, formatting |
| `contains/*` | polygons (`misc/polygon_boundary.rs`), ray casting for curves and compound curves | |

## Wrong programs

`seeded/LOG.jsonl` has one record for each edit of the model that was tried. Most edits were built as a whole project in a scratch copy.
Some of the later ones were only compiled against the file with the theorems. For those the same set-up without any edit has to compile
first, since otherwise a failure says nothing about the edit; one round in which this was not so was discarded and run again.
`theorems_failed` lists every declaration that stopped compiling, helper lemmas included. An edit that does not change the results is marked
as equivalent in `claim_broken` and is not a detection. Of a last list of 57 edits only the first 6 were run.
