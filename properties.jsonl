{"id": "C01", "title": "Reduced tensors survive expansion", "statement": "For every derivative order 0..5 and every row of 2*order+1 numbers, select_tensor(expand_tensor(c)) returns exactly c.", "quantifier": "all orders 0..5, all real reduced rows, any number of rows", "why_tests_cant": "A test checks a few random rows; the index tables must be right for every value in every slot.", "anchors": ["electrode/utils.py: expand_tensor, select_tensor, _populate_maps"]}
{"id": "C02", "title": "Expansion gives the unique symmetric traceless tensor", "statement": "expand_tensor(c) is symmetric under any reordering of its axis indices, every trace over a pair of axes is zero, and it is the only symmetric traceless tensor whose selected entries are c; hence expand_tensor(select_tensor(t)) = t for every symmetric traceless t.", "quantifier": "all orders 0..5, all reduced rows, all index permutations, all symmetric traceless tensors", "why_tests_cant": "Symmetry and tracelessness range over all value assignments and all of the 3**order index tuples.", "anchors": ["electrode/utils.py: expand_tensor, select_tensor, find_laplace"]}
{"id": "C03", "title": "find_laplace finds exactly the Laplace triples", "statement": "For an axis tuple of any length, every pair (a, b) yielded by find_laplace(c) satisfies t[a]+t[b]+t[c]=0 for every symmetric traceless tensor t, and one pair is yielded for each axis that occurs at least twice, none otherwise.", "quantifier": "axis tuples of every length, all symmetric traceless tensors", "why_tests_cant": "Unbounded tuple length and all harmonic tensors.", "anchors": ["electrode/utils.py: find_laplace"]}
{"id": "C04", "title": "Axis tuples, names and flat indices correspond one to one", "statement": "idx_to_nidx is a bijection between axis tuples of length n and 0..3**n-1 and agrees with the row-major order in which the expanded tensor is laid out; idx_to_name(name_to_idx(s)) is s with letters sorted, and name_to_idx rejects any other letter.", "quantifier": "all tuples of every length n, all strings", "why_tests_cant": "No test can cover every length.", "anchors": ["electrode/utils.py: idx_to_nidx, name_to_idx, idx_to_name"]}
{"id": "C05", "title": "Derivative names and (order, index) pairs are inverse", "statement": "name_to_deriv and deriv_to_name are mutually inverse on the known names; every order has 2*order+1 names; unknown names or pairs raise KeyError.", "quantifier": "all strings, all (order, index) pairs", "why_tests_cant": "The domain of strings and pairs that must raise is infinite.", "anchors": ["electrode/utils.py: name_to_deriv, deriv_to_name"]}
{"id": "C06", "title": "construct_derivative names the right lower derivative", "statement": "construct_derivative(k, i) returns (k-1, j), axis such that differentiating component j of order k-1 along axis is component i of order k, for every smooth potential; order 0 and unknown pairs raise KeyError.", "quantifier": "all pairs, all potentials", "why_tests_cant": "Ranges over all functions and every pair.", "anchors": ["electrode/utils.py: construct_derivative, _populate_maps"]}
{"id": "C07", "title": "deriv_to_reduced_idx picks the named partial derivative", "statement": "For a derivative name of length at most 5 with letters in any order, the entry (or the negated sum of the pair) it designates in a reduced row c equals the entry of expand_tensor(c) at that axis tuple.", "quantifier": "all names of length <= 5, all rows", "why_tests_cant": "All 3**k names times all rows.", "anchors": ["electrode/utils.py: deriv_to_reduced_idx"]}
{"id": "C08", "title": "Rotating a tensor rotates every axis once", "statement": "rotate_tensor(c, r) of a tensor with any number of axes equals the full contraction of each axis with r; rotating by r and then by s equals rotating by r@s; rotating by an orthogonal r and then by its transpose gives back c; `order` restricts to the last axes.", "quantifier": "tensors of every number of axes, all matrices", "why_tests_cant": "Unbounded number of axes and all matrices.", "anchors": ["electrode/utils.py: rotate_tensor"]}
{"id": "C09", "title": "Rotation keeps derivative tensors harmonic", "statement": "Rotating a symmetric traceless tensor by an orthogonal matrix gives a symmetric traceless tensor, so select_tensor followed by expand_tensor loses nothing after rotation.", "quantifier": "all orders, all orthogonal matrices, all symmetric traceless tensors", "why_tests_cant": "All orthogonal matrices.", "anchors": ["electrode/utils.py: rotate_tensor, select_tensor, expand_tensor"]}
{"id": "C10", "title": "area_centroid is a proper signed area and centroid", "statement": "The area is the integral over the plane of the winding number of the boundary, so the signed area of the enclosed region, and the centroid is the mean position of that region. The area is unchanged by translation and by the choice of first vertex, changes sign when the boundary is reversed, scales with the square of a dilation, adds up when a polygon is cut along a chord, and the centroid moves with translation, is independent of orientation and first vertex; area is 0 for fewer than three vertices.", "quantifier": "all vertex lists of any length, all translations, scales, cuts", "why_tests_cant": "Every polygon of every size.", "anchors": ["electrode/utils.py: area_centroid"]}
{"id": "C11", "title": "Point pixel derivatives are derivatives of the point potential", "statement": "For a PointPixelElectrode, each component of order 0..5 is the iterated partial derivative, named by its derivative name, of the order 0 potential, at every position off the pixel; hence the expanded tensor of order k+1 is the gradient of the expanded tensor of order k.", "quantifier": "all pixel lists, areas, covers, positions with no pixel image on it, all orders 0..5", "why_tests_cant": "A finite difference test samples positions; the closed forms must agree everywhere.", "anchors": ["electrode/expressions.py: point_potential_expr, _point_potential", "electrode/utils.py: construct_derivative"]}
{"id": "C12", "title": "Polygon field is the gradient of the polygon potential", "statement": "For a PolygonPixelElectrode with closed boundaries, the three components of order 1 are the partial derivatives of the order 0 potential at every position away from the electrode plane (and its images).", "quantifier": "all polygons (any number of vertices, holes, self-crossing), covers, positions with z0 != 0", "why_tests_cant": "Ranges over all polygons and positions; per edge the identity is false and only holds for the closed sum.", "anchors": ["electrode/expressions.py: edge_potential_expr, _polygon_potential"]}
{"id": "C13", "title": "Higher polygon derivatives are derivatives of the field", "statement": "Each component of order 2..5 of a polygon electrode is the iterated partial derivative, named by its derivative name, of the order 0 potential, at every position off the electrode plane.", "quantifier": "all polygons, covers, positions with z0 != 0, orders 2..5", "why_tests_cant": "The closed forms have thousands of terms; sampling cannot exclude an error that vanishes at the samples.", "anchors": ["electrode/expressions.py: edge_potential_expr"]}
{"id": "C14", "title": "Every potential satisfies Laplace's equation", "statement": "The potential of point and polygon electrodes is harmonic: the sum of the three second partial derivatives of the order 0 potential is zero off the electrodes, as expand_tensor assumes.", "quantifier": "all electrodes, all positions off the plane", "why_tests_cant": "All positions.", "anchors": ["electrode/expressions.py: point_potential_expr, edge_potential_expr", "electrode/utils.py: expand_tensor"]}
{"id": "C15", "title": "Electrodes add their contribution linearly", "statement": "potential(x, derivative, v, out) adds v times potential(x, derivative, 1) to out for every electrode class, and returns it; with out=None it starts from zeros.", "quantifier": "all electrodes of every class, positions, orders, voltages, initial out", "why_tests_cant": "All real scale factors and accumulators.", "anchors": ["electrode/electrode.py: *.potential", "electrode/expressions.py: point_potential, polygon_potential, mesh_potential"]}
{"id": "C16", "title": "Positions are evaluated independently", "statement": "Evaluating many positions at once gives, row by row, the same as evaluating each position on its own, and rows keep the order of the positions.", "quantifier": "all lists of positions, electrodes, orders", "why_tests_cant": "Any number of positions.", "anchors": ["electrode/expressions.py: _point_potential, _polygon_potential, _mesh_potential"]}
{"id": "C17", "title": "Polygon potential depends only on the oriented boundary", "statement": "Starting the vertex list at another vertex changes nothing; reversing it flips the sign of every component; degenerate edges (repeated vertices) contribute nothing.", "quantifier": "all polygons, orders, positions off the plane", "why_tests_cant": "All polygons and rotations of the vertex list.", "anchors": ["electrode/expressions.py: _polygon_potential, edge_potential_expr"]}
{"id": "C18", "title": "Cutting a polygon preserves its potential", "statement": "If a polygon is cut along a chord into two polygons, the potential and all derivatives of the two parts add up to those of the whole.", "quantifier": "all polygons, chords, orders, positions off the plane", "why_tests_cant": "All cuts.", "anchors": ["electrode/expressions.py: _polygon_potential, polygon_potential"]}
{"id": "C19", "title": "Potentials move and scale with the geometry", "statement": "Moving electrode and position together along x, y changes nothing; scaling geometry, cover height and position by s>0 scales the derivative of order k of polygons by s**-k.", "quantifier": "all electrodes, shifts, scales, positions", "why_tests_cant": "All shifts and scales.", "anchors": ["electrode/expressions.py: _point_potential, _polygon_potential"]}
{"id": "C20", "title": "Mirror symmetry about the electrode plane", "statement": "Reflecting position in z=0 flips the sign of the potential; a derivative component changes sign according to the parity of z in its name.", "quantifier": "all electrodes without cover or with cover, all positions off the plane", "why_tests_cant": "All positions.", "anchors": ["electrode/expressions.py: point_potential_expr, edge_potential_expr"]}
{"id": "C21", "title": "Cover plane expansion converges to a grounded cover", "statement": "With cover_nmax=n the potential of a surface electrode is exactly zero on z=0 away from pixels, and at the cover plane z=cover_height all image terms cancel except one at distance (2n+1)*cover_height, which tends to zero as n grows.", "quantifier": "all electrodes, heights, n, lateral positions", "why_tests_cant": "All n (an infinite limit) and positions.", "anchors": ["electrode/expressions.py: _point_potential, _polygon_potential"]}
{"id": "C22", "title": "Cover electrode is the uniform field solution", "statement": "CoverElectrode potential is 0 at z=0 and the applied voltage at z=height, order 1 is its gradient, higher orders are zero.", "quantifier": "all heights != 0, positions, voltages, orders", "why_tests_cant": "All positions and orders.", "anchors": ["electrode/electrode.py: CoverElectrode.potential"]}
{"id": "C23", "title": "Mesh electrode equals the polygons it was built from", "statement": "MeshPixelElectrode.from_polygon_system(s) has the same potential at every position and order as the electrical potential of s for dc voltages, provided the cover parameters are the defaults; it fails exactly if some electrode of s is not a polygon electrode.", "quantifier": "all polygon systems, positions, orders", "why_tests_cant": "All systems.", "anchors": ["electrode/electrode.py: MeshPixelElectrode.from_polygon_system", "electrode/expressions.py: _mesh_potential"]}
{"id": "C24", "title": "to_points keeps name, voltages, cover and total area", "statement": "PolygonPixelElectrode.to_points yields one point per path, in order, at its centroid with its signed area, with the same name, dc, rf and cover parameters.", "quantifier": "all polygon electrodes", "why_tests_cant": "All electrodes.", "anchors": ["electrode/electrode.py: PolygonPixelElectrode.to_points, orientations"]}
{"id": "C25", "title": "Unsupported derivative orders", "statement": "Asking for a derivative order the closed forms do not cover (6 or more) is either an error or a correct value.", "quantifier": "all electrodes and orders >= 6", "why_tests_cant": "All orders.", "anchors": ["electrode/expressions.py: point_potential_expr, edge_potential_expr", "electrode/system.py: electrical_potential"]}
{"id": "C26", "title": "Superposition", "statement": "electrical_potential(x, typ, derivative) equals the sum over electrodes of voltage times individual_potential, for 'dc' and 'rf'; electrodes with zero voltage may be skipped without any visible effect.", "quantifier": "all systems, voltages, positions, orders", "why_tests_cant": "All systems and all voltage vectors.", "anchors": ["electrode/system.py: electrical_potential, individual_potential"]}
{"id": "C27", "title": "Potential is independent of electrode order and grouping", "statement": "Permuting the electrodes of a system leaves electrical_potential unchanged, and the potential of two systems joined is the sum of their potentials.", "quantifier": "all systems, permutations", "why_tests_cant": "All permutations.", "anchors": ["electrode/system.py: electrical_potential"]}
{"id": "C28", "title": "Voltage and name accessors", "statement": "names, dcs and rfs return one entry per electrode in order; assigning a sequence sets the first min(len) electrodes and leaves everything else, including other attributes, untouched; reading back returns the assigned values when lengths agree.", "quantifier": "all systems and sequences of any length", "why_tests_cant": "All lengths including mismatch.", "anchors": ["electrode/system.py: names, dcs, rfs"]}
{"id": "C29", "title": "Item lookup", "statement": "system[i] for an integer behaves like list indexing (negative indexes, IndexError); system[name] returns the first electrode with that name or None.", "quantifier": "all systems, integers, names", "why_tests_cant": "All indexes and name collisions.", "anchors": ["electrode/system.py: __getitem__"]}
{"id": "C30", "title": "with_voltages restores voltages", "statement": "After a with_voltages block, however it is left (normally or by an exception, after any changes of voltages in the block), all electrodes have the dc and rf voltages they had before, and inside the block the requested ones.", "quantifier": "all systems, requested voltages, bodies, exit modes", "why_tests_cant": "All bodies and exception points.", "anchors": ["electrode/system.py: with_voltages"]}
{"id": "C31", "title": "Time dependent potential", "statement": "time_potential(x, derivative, t) equals dc potential plus cos(t) times rf potential.", "quantifier": "all systems, t, positions, orders", "why_tests_cant": "All t.", "anchors": ["electrode/system.py: time_potential"]}
{"id": "C32", "title": "Pseudopotential is nonnegative and quadratic", "statement": "pseudo_potential order 0 is nonnegative, scales with the square of a common factor of the rf voltages and of rf_coeff, ignores the dc voltages, and vanishes exactly where the rf field vanishes.", "quantifier": "all systems, positions, scales", "why_tests_cant": "All real systems.", "anchors": ["electrode/system.py: pseudo_potential"]}
{"id": "C33", "title": "Pseudopotential derivatives are derivatives", "statement": "pseudo_potential orders 1..4 are the gradient, Hessian, third and fourth derivative tensors of order 0 whenever the rf potential tensors are derivatives of each other.", "quantifier": "all systems whose rf potential is smooth, all positions, orders 0 to 4", "why_tests_cant": "All systems and positions; index juggling by transposes must be right for every component.", "anchors": ["electrode/system.py: pseudo_potential"]}
{"id": "C34", "title": "Combined potential", "statement": "potential(x, typ, derivative) is the sum of the full dc derivative tensor and the pseudopotential tensor for its type, of the right shape.", "quantifier": "all systems, orders, types", "why_tests_cant": "All systems.", "anchors": ["electrode/system.py: potential"]}
{"id": "C35", "title": "minimum hands consistent functions to the optimiser", "statement": "For a floating point start position and distinct axes, the function minimum() hands to the optimiser is the combined potential at the position with the given coordinates replaced, the gradient and the Hessian handed along are its partial derivatives and second partial derivatives for every coordinate matrix, and the result is the start with those coordinates replaced by what the optimiser found, or ValueError if it failed.", "quantifier": "all systems, coordinate matrices, axis subsets, positions", "why_tests_cant": "All coordinate matrices.", "anchors": ["electrode/system.py: minimum"]}
{"id": "C36", "title": "group partitions the electrodes", "statement": "group(thresholds, voltages) with ascending thresholds puts every electrode in exactly one of len(thresholds)+1 groups, the one with thresholds[i-1] <= voltage < thresholds[i]; the groups have the mean voltages and together exactly the boundaries of the system; other electrode classes raise AttributeError.", "quantifier": "all systems, thresholds, voltages", "why_tests_cant": "All thresholds and voltage vectors.", "anchors": ["electrode/system.py: group"]}
{"id": "C37", "title": "group preserves the potential when voltages agree", "statement": "If the electrodes of each group have equal dc voltage, the grouped system has the same dc potential everywhere.", "quantifier": "all polygon systems, positions", "why_tests_cant": "All systems.", "anchors": ["electrode/system.py: group"]}
{"id": "C38", "title": "optimize returns a pattern meeting the constraints", "statement": "The pattern p and scale c returned by optimize satisfy (constraint functionals)(p) = c*b for all given constraints b. It succeeds, with a positive strength, if the patterns are confined to a range around zero, the objectives can be met and the solver finds best patterns.", "quantifier": "all objective sets, solutions of the LP", "why_tests_cant": "All LP solutions.", "anchors": ["electrode/system.py: optimize, _run_cvxopt"]}
{"id": "C39", "title": "shims returns independent unit knobs", "statement": "shims(objectives) returns vectors v_i with objective_j(v_i) = delta_ij. With the default constraints it returns them whenever the objectives are independent.", "quantifier": "all objective sets", "why_tests_cant": "All systems.", "anchors": ["electrode/system.py: shims"]}
{"id": "C40", "title": "solve minimises all objectives", "statement": "The LP/QP objective given to the solver is the sum of the objective terms of all constraints, and its constraint matrices encode exactly the union of all constraints.", "quantifier": "all constraint lists", "why_tests_cant": "All lists of constraints.", "anchors": ["electrode/system.py: solve"]}
{"id": "C41", "title": "Mathieu/Floquet matrix", "statement": "An eigenvector of the matrix built by utils.mathieu with eigenvalue mu is exactly a truncated Floquet solution: its harmonics satisfy the truncated Hill recurrence for x''+(a0+2 sum a_i cos 2it) x=0.", "quantifier": "all truncation orders r, dimensions, coefficient matrices", "why_tests_cant": "All r and all matrices.", "anchors": ["electrode/utils.py: mathieu", "electrode/system.py: mathieu"]}
{"id": "C42", "title": "Micromotion-free displacement slice", "statement": "The slice of the Floquet eigenvector used for mode shapes is the zeroth harmonic of the position block.", "quantifier": "all r, dimensions", "why_tests_cant": "All r.", "anchors": ["electrode/system.py: mathieu, _analyze_static"]}
{"id": "C43", "title": "Mode curvatures", "statement": "modes returns curvatures in ascending order with the matching orthonormal eigenvectors of the Hessian of the potential.", "quantifier": "all systems, positions", "why_tests_cant": "All symmetric matrices.", "anchors": ["electrode/system.py: modes"]}
{"id": "C44", "title": "trajectory time stepping", "statement": "trajectory yields times t0+dt, t0+2dt, ... one per integrator step, never stops before t1 and not later than one step after it, and later steps do not alter positions already yielded.", "quantifier": "all t0, t1, dt>0", "why_tests_cant": "All step counts.", "anchors": ["electrode/system.py: trajectory"]}
{"id": "C45", "title": "rfo keeps its bookkeeping consistent", "statement": "At every iteration of rfo, f and g reported are those of x, the step norm never exceeds dx_max, the approximate Hessian stays symmetric and satisfies the secant equation, and the loop stops after at most maxiter iterations.", "quantifier": "all functions, start points, all iteration counts", "why_tests_cant": "Unbounded number of iterations, all functions.", "anchors": ["electrode/saddle.py: rfo"]}
{"id": "C46", "title": "PatternRangeConstraint encodes the range", "statement": "The inequalities generated by PatternRangeConstraint are satisfied by a pattern exactly when every selected entry lies between min and max.", "quantifier": "all patterns, bounds, index selections", "why_tests_cant": "All patterns.", "anchors": ["electrode/pattern_constraints.py: PatternRangeConstraint"]}
{"id": "C47", "title": "SingleValueConstraint encodes value, bounds and offset", "statement": "value/offset yields equality, min/max yields the two inequalities, value alone an objective, in terms of the linear functional.", "quantifier": "all functionals, values", "why_tests_cant": "All values.", "anchors": ["electrode/pattern_constraints.py: SingleValueConstraint"]}
{"id": "C48", "title": "PotentialObjective is the named derivative", "statement": "get(system) dotted with voltages equals the derivative named, in the rotated frame if a rotation is given, of the electrical potential at x.", "quantifier": "all systems, names in any letter order, rotations, voltages", "why_tests_cant": "All systems and rotations.", "anchors": ["electrode/pattern_constraints.py: PotentialObjective"]}
{"id": "C49", "title": "MultiPotentialObjective is the weighted sum", "statement": "get equals the weighted sum of component functionals.", "quantifier": "all component lists", "why_tests_cant": "All lists.", "anchors": ["electrode/pattern_constraints.py: MultiPotentialObjective"]}
{"id": "C50", "title": "VoltageDerivativeConstraint is the finite difference", "statement": "The functional is the order-th finite difference over time slices, vanishing on polynomial time dependence of lower degree.", "quantifier": "all orders, lengths", "why_tests_cant": "All orders and lengths.", "anchors": ["electrode/pattern_constraints.py: VoltageDerivativeConstraint"]}
{"id": "C51", "title": "Grid coordinates", "statement": "indices_to_coordinates and coordinates_to_indices are inverse, get_origin is the coordinate of index 0, the center is the middle, points are equally spaced by step.", "quantifier": "all centers, steps != 0, shapes", "why_tests_cant": "All grids.", "anchors": ["electrode/grid.py: Grid"]}
{"id": "C52", "title": "Grid electrode interpolation", "statement": "GridElectrode.potential reproduces grid values at nodes, is exact for data affine in position, never leaves the range of the data and is constant beyond the edge.", "quantifier": "all data arrays, positions", "why_tests_cant": "All data.", "anchors": ["electrode/electrode.py: GridElectrode.potential"]}
{"id": "C53", "title": "GridElectrode.generate provides all orders up to maxderiv", "statement": "After generate(maxderiv) every derivative order up to maxderiv is available; existing orders are kept; repeating it changes nothing.", "quantifier": "all data lists, maxderiv", "why_tests_cant": "All maxderiv.", "anchors": ["electrode/electrode.py: GridElectrode.generate, derive"]}
{"id": "C54", "title": "Spherical harmonic index map", "statement": "SphericalHarmonics.indices enumerates each (n, m), |m|<=n<nmax exactly once for every nmax, each with its documented place in the coefficient array, and the places are each entry of an (nmax, nmax) array exactly once.", "quantifier": "all nmax", "why_tests_cant": "All nmax.", "anchors": ["electrode/spherical_harmonics.py: SphericalHarmonics.indices"]}
{"id": "C55", "title": "analysis inverts synthesis", "statement": "synthesis(a) is the sum of a[m,n] Y_nm at the sampled angles, analysis(f) is the quadrature sum of f with the conjugate Y_nm, and analysis(synthesis(a)) = a for every nmax and every coefficient array; arrays of another shape raise AssertionError.", "quantifier": "all nmax, coefficients", "why_tests_cant": "All nmax and coefficients.", "anchors": ["electrode/spherical_harmonics.py: SphericalHarmonics.analysis, synthesis"]}
{"id": "C56", "title": "Spherical coordinates round trip", "statement": "cartesian_to_spherical(spherical_to_cartesian(r,theta,phi)) is the identity on r>0, 0<theta<pi, -pi<phi<=pi, and the other composite is the identity everywhere.", "quantifier": "all positions", "why_tests_cant": "All positions.", "anchors": ["electrode/spherical_harmonics.py: spherical_to_cartesian, cartesian_to_spherical"]}
{"id": "C57", "title": "Spherical derivative conversion", "statement": "derivatives_spherical_cartesian converts gradients between spherical and cartesian components in the documented order and its two directions are inverse.", "quantifier": "all gradients, positions off the axis", "why_tests_cant": "All positions.", "anchors": ["electrode/spherical_harmonics.py: derivatives_spherical_cartesian"]}
{"id": "C58", "title": "Mathieu solution recurrence", "statement": "Whenever coeff_Cn meets no division by zero, the coefficients it returns are C[-nc..nc] of a sequence with C[0]=1 that satisfies the three term recurrence (a-(nu+2n)^2) C[n] = q (C[n-1]+C[n+1]) of Mathieu's equation at every n other than 0 up to the cut off nc+ng; sol_y1 and sol_y2 therefore satisfy the equation up to the harmonics at n=0 and at the cut off.", "quantifier": "all a, q, nu, orders", "why_tests_cant": "All parameters.", "anchors": ["electrode/mathieu.py: coeff_ratio, coeff_Cn"]}
{"id": "C59", "title": "Mathieu initial conditions", "statement": "sol_y1 and sol_y2 satisfy y1(0)=1, y1'(0)=0, y2(0)=0, y2'(0)=1, deri=k is the k-th derivative, and init_value gives the solution with the requested initial values.", "quantifier": "all parameters with nonzero normalisers, all t0", "why_tests_cant": "All parameters.", "anchors": ["electrode/mathieu.py: sol_y1, sol_y2, sum_c, init_value"]}
{"id": "C60", "title": "assign_to_pad assigns each polygon once", "statement": "assign_to_pad yields each polygon exactly once, gives each pad to at most one polygon, and pads in order of first match.", "quantifier": "all polygon and pad lists, any intersection relation", "why_tests_cant": "All relations.", "anchors": ["electrode/polygons.py: assign_to_pad"]}
{"id": "C61", "title": "remove_overlaps leaves disjoint electrodes", "statement": "After remove_overlaps electrodes are pairwise disjoint, the union is unchanged and earlier electrodes win.", "quantifier": "all polygon lists", "why_tests_cant": "All lists.", "anchors": ["electrode/polygons.py: Polygons.remove_overlaps"]}
{"id": "C62", "title": "from_system/to_system round trip", "statement": "Converting a system of polygon electrodes with correctly nested holes to Polygons and back keeps names, order and the potential.", "quantifier": "all nested systems", "why_tests_cant": "All systems.", "anchors": ["electrode/polygons.py: Polygons.from_system, to_system"]}
{"id": "C63", "title": "square_pads lie on the square", "statement": "square_pads yields the requested number of pads along each side inside the square.", "quantifier": "all step, edge, odd, start_corner", "why_tests_cant": "All parameters.", "anchors": ["electrode/polygons.py: square_pads"]}
{"id": "C64", "title": "Adjust history", "statement": "Every accepted voltage change appends to the history and rejecting restores the previous voltages. A name that is not in the system ends set_volts with an exception, which keeps the voltages given before it and changes no history; an electrode in several groups gets the change of the last one.", "quantifier": "all move sequences", "why_tests_cant": "All histories.", "anchors": ["electrode/adjust.py: Adjust.set_volts, next_step"]}
{"id": "C65", "title": "paths_to_mesh builds closed boundaries", "statement": "paths_to_mesh numbers points consecutively and connects each path cyclically and never to another path.", "quantifier": "all path lists", "why_tests_cant": "All path lists.", "anchors": ["electrode/adaptive.py: paths_to_mesh"]}
{"id": "C66", "title": "xic_to_list parses any file", "statement": "xic_to_list returns, in order, one path per polygon record (a line starting with P, continuation lines starting with a space, the last one ending with a semicolon), whose points are the numbers on these lines in units of 10 nm, and ignores all other lines.", "quantifier": "all texts that consist of records and other lines", "why_tests_cant": "All texts: any number and order of records and other lines.", "anchors": ["electrode/xic.py: xic_to_list"]}
{"id": "C67", "title": "Euler angles round trip", "statement": "For each of the 24 axis sequences, given by name or by tuple, euler_matrix is the product of the rotations by the three angles about the three named axes (fixed or moving frame), hence a proper rotation; other names and tuples raise KeyError. euler_from_matrix gives, for every rotation matrix and each sequence, angles from which euler_matrix rebuilds the matrix up to 2 _EPS per entry, and exactly unless the middle rotation is within _EPS of gimbal lock without being in it. The angles returned are in the principal ranges (outer angles within a half turn; middle angle within a quarter turn for three different axes, from 0 to pi for even and from -pi to 0 for odd sequences with a repeated axis), and angles inside those ranges, off gimbal lock, are returned unchanged by the round trip.", "quantifier": "all angles, all 24 sequences, all rotation matrices", "why_tests_cant": "All angles.", "anchors": ["electrode/transformations.py: euler_matrix, euler_from_matrix"]}
{"id": "C68", "title": "Quaternions", "statement": "quaternion_multiply, quaternion_conjugate and quaternion_inverse are the operations of the quaternions. quaternion_matrix of every quaternion is a proper rotation, namely the conjugation v -> q v q^-1; products give products of matrices, conjugates give transposed matrices, and unit quaternions with the same matrix are equal up to sign. quaternion_about_axis gives the rotation of rotation_matrix. Quaternions with a squared norm below _EPS and axes shorter than _EPS are exempt.", "quantifier": "all quaternions", "why_tests_cant": "All quaternions.", "anchors": ["electrode/transformations.py: quaternion_multiply, quaternion_matrix, quaternion_inverse, quaternion_conjugate, quaternion_about_axis"]}
{"id": "C69", "title": "Spherical harmonics decomposition of derivatives", "statement": "For every derivative order l from 0 to 5 and every row of 2l+1 reduced derivatives, cartesian_to_spherical_harmonics returns the 2l+1 coefficients, m from -l to l, with which the real solid harmonics r^l Y_lm (Condon-Shortley phase) add up to the Taylor term of order l with these derivatives. The derivative row of the solid harmonic (l, m) gives the m-th unit vector, and every coefficient list comes from exactly one row, so no information is lost. Rows one entry too long are rejected.", "quantifier": "all l <= 5, all rows of real numbers, all positions", "why_tests_cant": "The expansion is an identity of polynomials over all rows and positions.", "anchors": ["electrode/utils.py: cartesian_to_spherical_harmonics"]}
{"id": "C70", "title": "Contour plot planes", "statement": "plot_contour draws at row j, column i the requested kind of potential at the point of the plane slc = slc_at whose other two coordinates are the i-th entry of the labelled horizontal axis and the j-th entry of the labelled vertical axis; these run over the grid. The returned pair is the largest and smallest drawn value. The default levels are line_num equally spaced increasing numbers starting at the smallest value, unless the potential is constant; without a grid the data points of the first electrode are used.", "quantifier": "all systems, grids, planes, kinds of potential, divide_max, line_num", "why_tests_cant": "A test fixes one system and grid; swapped axes show only for unsymmetric ones.", "anchors": ["electrode/system.py: plot_contour"]}
{"id": "C71", "title": "Unsupported pseudopotential orders raise the documented error", "statement": "pseudo_potential raises ValueError for derivative orders it does not implement (above 4), as its last branch says.", "quantifier": "all systems, positions and orders above 4", "why_tests_cant": "All orders and systems.", "anchors": ["electrode/system.py: pseudo_potential"]}
{"id": "C72", "title": "saddle hands consistent functions to the search", "statement": "The gradient and the starting Hessian passed to the saddle point search are those of the function passed to it, for every choice of axis and coordinate matrix.", "quantifier": "all systems, coordinate matrices, axis subsets, positions", "why_tests_cant": "All coordinate matrices.", "anchors": ["electrode/system.py: saddle"]}
{"id": "C73", "title": "System.mathieu describes the linearised ion motion", "statement": "With scale from rf_scale(m, q, l, o), a Floquet exponent mu and vector b returned by System.mathieu at an equilibrium point give a motion x(t) that solves m l^2 x'' = -q (H_dc + cos(o t) H_rf) x up to terms in the two cut-off harmonics, where H_dc is the Hessian of the total potential and H_rf that of the rf voltage; with sorted=True the exponents kept are the ones with non-negative imaginary part, in ascending order, with their own vectors.", "quantifier": "all systems, positions, truncation orders, masses, charges, lengths, frequencies", "why_tests_cant": "Holds for every Hessian and every order.", "anchors": ["electrode/system.py: mathieu, rf_scale", "electrode/utils.py: mathieu"]}
{"id": "C74", "title": "trajectory follows the force", "statement": "The acceleration trajectory hands to the integrator at time t and position q is minus the gradient of the instantaneous potential (dc plus cos(t) times rf) on the chosen axes.", "quantifier": "all systems, axis subsets, times, positions", "why_tests_cant": "All systems and positions.", "anchors": ["electrode/system.py: trajectory"]}
{"id": "C75", "title": "rfo climbs the softest mode and descends the others", "statement": "Every step of rfo goes up (to first order) along the lowest eigenvector of the approximate Hessian and down along all the others.", "quantifier": "all functions, start points, iteration counts", "why_tests_cant": "All Hessians and gradients.", "anchors": ["electrode/saddle.py: rfo"]}
{"id": "C76", "title": "Mathieu characteristic exponent", "statement": "nu_exp_det takes the determinant of Hill's matrix of the requested order, and returns the exponent in [0,1] that solves sin^2(pi nu/2) = det * sin^2(pi sqrt(a)/2), reporting unbounded motion exactly if that has no real solution. nu_tolerance returns the exponent of the order it returns, which agrees within the tolerance with that of half the order, or raises ValueError after 100 orders.", "quantifier": "all a >= 0, q, orders, tolerances", "why_tests_cant": "All orders and parameters.", "anchors": ["electrode/mathieu.py: nu_exp_det, nu_tolerance"]}
{"id": "C79", "title": "Proposed moves reach the target", "statement": "volt_change with method='position' returns voltage changes that, once applied to the groups, make the gradient of the total potential vanish at the last minimum displaced by dis along the chosen axis. With method='force' they displace the minimum, to first order, by dis along the axis.", "quantifier": "all systems, disjoint electrode groups, histories, axes and displacements", "why_tests_cant": "All systems and voltages.", "anchors": ["electrode/adjust.py: Adjust.volt_change, construct_config, set_volts"]}
{"id": "C77", "title": "unify_by_name merges equal names", "statement": "unify_by_name returns one entry per name, in the order of first appearance, and each entry is the union of all entries of that name, so the covered region is unchanged.", "quantifier": "all polygon lists", "why_tests_cant": "All lists and name patterns.", "anchors": ["electrode/polygons.py: Polygons.unify_by_name"]}
{"id": "C78", "title": "filter keeps exactly what passes the test", "statement": "Polygons.filter keeps, in order and under their names, exactly those polygons (or exteriors and holes, with deep) that pass the test, drops entries that become empty, and does nothing more when repeated. Without a test only parts with an area above 0.01 stay.", "quantifier": "all polygon lists and tests", "why_tests_cant": "All lists and predicates.", "anchors": ["electrode/polygons.py: Polygons.filter"]}
{"id": "C80", "title": "Transformed copies of a path", "statement": "transformed_copy returns, for each given affine map, the image of the path under it, walked backwards if the sign is -1; the signed area is multiplied by the sign and the determinant of the planar part, so mirror images with sign -1 keep their orientation.", "quantifier": "all affine maps and paths", "why_tests_cant": "All maps and paths.", "anchors": ["electrode/adaptive.py: transformed_copy, transformer"]}
{"id": "C81", "title": "Adaptive refinement returns a consistent result", "statement": "adapt_mesh returns a system consisting of the fixed electrodes followed by one electrode per triangle of one and the same triangulation of at most nmax triangles, with the voltages and strength that optimize gave for that very system; it stops only when a triangulation exceeds nmax. A triangle is made finer exactly if a neighbouring triangle differs by more than the threshold.", "quantifier": "all triangulators, optimizers, numbers of rounds", "why_tests_cant": "All numbers of rounds and triangulations.", "anchors": ["electrode/adaptive.py: adapt_mesh"]}
{"id": "C82", "title": "Quaternion of Euler angles", "statement": "quaternion_from_euler gives, for each of the 24 axis sequences and all angles, a unit quaternion whose quaternion_matrix equals euler_matrix of the same angles; Euler angles of quaternion_matrix rebuild that matrix up to 2 _EPS, and are the angles given if those are in the principal ranges and off gimbal lock.", "quantifier": "all angles, all 24 sequences", "why_tests_cant": "Continuous angles times 24 sequences.", "anchors": ["electrode/transformations.py: quaternion_from_euler, euler_from_quaternion"]}
{"id": "C83", "title": "Quaternion of a rotation matrix", "statement": "quaternion_from_matrix, precise or through the eigenvectors, gives for every rotation matrix a unit quaternion with nonnegative real part whose quaternion_matrix is that matrix; the two methods agree except for the sign of half turns; unit quaternions come back from their matrix up to sign.", "quantifier": "all rotation matrices, all eigensolvers that satisfy their contract", "why_tests_cant": "All of SO(3), including the half turns where the branches change.", "anchors": ["electrode/transformations.py: quaternion_from_matrix"]}
{"id": "C84", "title": "Quaternion interpolation", "statement": "quaternion_slerp gives the normalised end points at fraction 0 and 1, stays on the unit sphere and moves at constant angular speed in between, along the shorter way if asked; only whole turns may be added.", "quantifier": "all nonzero quaternions, fractions and whole turns", "why_tests_cant": "Continuum of inputs and branches at nearly parallel quaternions.", "anchors": ["electrode/transformations.py: quaternion_slerp"]}
{"id": "C85", "title": "Elementary transformation matrices", "statement": "translation_matrix, reflection_matrix, rotation_matrix and scale_matrix move every point as their names say: by the vector, to the mirror image in the plane, about the axis through the point counter clockwise by the angle, away from the origin by the factor (only along the direction if one is given); reflections are involutions and rotations about one axis add their angles.", "quantifier": "all points, vectors, angles and factors", "why_tests_cant": "All points and vectors.", "anchors": ["electrode/transformations.py: translation_matrix, translation_from_matrix, reflection_matrix, rotation_matrix, scale_matrix"]}
{"id": "C86", "title": "A polygon electrode is an equipotential patch in a grounded plane", "statement": "The potential of a polygon electrode is the integral of the potential of surface elements over the region its polygons cover (with multiplicity and sign), for all images if there is a cover plane. It tends to the voltage when the point approaches the plane inside the region and to zero outside, lies between the extreme boundary values, vanishes far above, and depends on the polygons only through the covered region. A point pixel is one surface element of the given area.", "quantifier": "all polygons with any number of vertices (also self intersecting), all positions off the image planes, all voltages, all cover parameters", "why_tests_cant": "It is a statement about limits and integrals for every polygon and position.", "anchors": ["electrode/electrode.py: PointPixelElectrode, PolygonPixelElectrode, electrode_potential", "electrode/utils.py: construct_derivative"]}
{"id": "C87", "title": "Compiled and Python field kernels agree", "statement": "The compiled kernels for polygons and meshes return the same arrays as the Python kernels, for every derivative order, cover and array to add to, at every position that is not in the plane of the electrodes or one of its images. In such a plane the Python kernel yields no number and the compiled one yields zero.", "quantifier": "all positions, polygons, meshes, voltages, orders, cover parameters", "why_tests_cant": "The two programs differ in how they compute the potential (arctangent of a quotient against atan2), and agree on all branches only because of an inequality about distances.", "anchors": ["electrode/cexpressions.pyx: polygon_potential, mesh_potential", "electrode/expressions.py: polygon_potential, mesh_potential"]}
{"id": "C88", "title": "Equilibrium of several ions", "statement": "System.ions minimises the sum of the trap potential at the ions and of their pairwise Coulomb energies q_i q_j / r_ij, with the gradient and Hessian of that energy, for any number of ions, and returns positions, curvatures and modes.", "quantifier": "all systems, numbers of ions, charges and distinct positions", "why_tests_cant": "Any number of ions at any positions; derivatives are limits.", "anchors": ["electrode/system.py: System.ions"]}
{"id": "C89", "title": "Report of the static analysis", "statement": "After rf_scale, every line that analyze_static yields gives the quantity it names, in the units it names: the parameters, positions of minimum and saddle point relative to the given position, potentials and gradients there, curvatures, frequencies and vectors of the modes in the pseudopotential and of the motion with rf, Euler angles that describe the frame of the modes, field noise and heating rates along the modes. The report is complete for any number of ions, and can be abandoned at any line.", "quantifier": "all systems, positions, masses, charges, length scales, frequencies, numbers of ions, and lines after which the caller stops", "why_tests_cant": "The report goes through most of the library with physical units; tests only look at some numbers for one trap.", "anchors": ["electrode/system.py: System.analyze_static, System._analyze_static"]}
{"id": "C90", "title": "Cutting the plane into electrodes", "statement": "Polygons.from_data returns the given polygons in their order with their names, cut off at the square, followed by the rest of the square outside of all polygons, without a strip of the given width along gaps and routes (gaps enclosed by routes and bridges are no gaps). The pieces do not overlap each other, nothing is outside of the square, and names given by position go to a piece at that position.", "quantifier": "all lists of polygons, gaps, routes, bridges and names, all edges and buffers", "why_tests_cant": "Which regions result depends on the arrangement of arbitrarily many paths and polygons.", "anchors": ["electrode/polygons.py: Polygons.from_data"]}
{"id": "C91", "title": "What GDS files keep", "statement": "from_gds reads polygons, gaps, routes, bridges and names from the structure with the given name according to the layers given. What to_gds writes, from_gds with the same scale reads again: all electrodes with their names, holes and order, with coordinates up to the resolution of the file.", "quantifier": "all polygon lists, scales, units, layers, names, and all files", "why_tests_cant": "A round trip through a file must hold for every arrangement of electrodes and every choice of layers; tests only try single files.", "anchors": ["electrode/polygons.py: Polygons.from_gds, Polygons.to_gds, Polygons.assign_to_pad"]}
{"id": "C92", "title": "Gaps, simplification, unions and restriction of polygons", "statement": "add_gaps(gapsize) leaves electrodes that did not overlap at least gapsize apart, only shrinks them, and keeps everything at least gapsize/2 inside; simplify moves nothing further than its tolerance; unify changes no region; restrict and within intersect every electrode with the region given; validate raises ValueError exactly if some polygon is invalid; gaps_union is the union of all boundaries. Names and order stay.", "quantifier": "all polygon lists and sizes, for any geometry library that shrinks and intersects as documented", "why_tests_cant": "Distances between all pairs of points of all pairs of electrodes are involved.", "anchors": ["electrode/polygons.py: Polygons.add_gaps, Polygons.simplify, Polygons.unify, Polygons.restrict, Polygons.within, Polygons.validate, Polygons.gaps_union"]}
{"id": "C93", "title": "Points instead of polygons", "statement": "The electrode returned by to_points has, away from the plane, the potential of the polygons up to an error of second order: per unit of voltage and area at most 3 D^2 / (pi z^4) at height z, if every path runs around its region in one sense and fits into a rectangle with diagonal D. The centroid of such a path lies within its bounding box. The components of the derivatives up to order three agree up to an error of second order as well: per unit of voltage and area at most 2 D^2 times the size of the derivative of a surface element two orders higher.", "quantifier": "all polygon electrodes, cover planes, voltages and positions off the planes", "why_tests_cant": "An error bound must hold at every position for every polygon; tests sample single positions.", "anchors": ["electrode/electrode.py: PolygonPixelElectrode.to_points, PointPixelElectrode.potential", "electrode/utils.py: area_centroid"]}
{"id": "C94", "title": "Electrodes from VTK files", "statement": "GridElectrode.from_vtk returns an electrode that has, at the points of the file, the potential (and field) of the file, whatever other arrays the file contains and in whatever order the arrays come; a missing file raises FileNotFoundError, a file without potential a helpful error.", "quantifier": "all files: numbers of points, origins, spacings, arrays, names and orders", "why_tests_cant": "The index arithmetic between the order of the points in the file and the axes must be right for every shape of grid.", "anchors": ["electrode/electrode.py: GridElectrode.from_vtk, GridElectrode.generate"]}
{"id": "C95", "title": "Unstructured and spherical grids", "statement": "UnstructuredGrid.to_points returns the points given in their order; SphericalGrid has 2 n^2 points on the sphere of radius r around each origin, and the analysis of values of a function on them returns its coefficients in spherical harmonics of degrees below n. Methods that make no sense for unstructured points raise NotImplementedError.", "quantifier": "all points, origins, radii, numbers n and functions", "why_tests_cant": "Ranges over all functions on the sphere and all grids.", "anchors": ["electrode/grid.py: UnstructuredGrid, SphericalGrid", "electrode/spherical_harmonics.py: SphericalHarmonics.cartesian_grid, SphericalHarmonics.analysis"]}
{"id": "C96", "title": "Plots of electrodes and voltages", "statement": "The patch drawn for a polygon electrode has the closed outlines of its paths and covers the points that the electrode covers; points are drawn as discs with their areas; labels are the names unless given; System.plot uses twelve colors in turn; plot_voltages colors every electrode by one half plus a multiple of its voltage, scaled such that the largest voltage is at an end of the color map.", "quantifier": "all electrodes, systems, voltages, scales, labels and color maps", "why_tests_cant": "Covers all paths, holes and numbers of electrodes; pictures are not compared in tests.", "anchors": ["electrode/electrode.py: Electrode.plot, PointPixelElectrode.plot, PolygonPixelElectrode.plot", "electrode/system.py: System.plot, System.plot_voltages", "electrode/colors.py: set3"]}
{"id": "C97", "title": "Projections onto a plane", "statement": "The matrix of projection_matrix takes every point onto the plane: along the normal (orthogonal), along the given direction (parallel), or along the line to the perspective point. The perspective projection is the orthogonal projection after the pseudo perspective one, which keeps the order of depths of the points in front of the eye.", "quantifier": "all planes, directions, perspective points and points", "why_tests_cant": "Ranges over all planes and points; a wrong term may cancel for the sampled ones.", "anchors": ["electrode/transformations.py: projection_matrix"]}
{"id": "C98", "title": "Clipping", "statement": "The matrix of clip_matrix takes exactly the points of the box (or of the frustum seen from the origin) to the cube from -1 to 1, left, bottom and near to -1; limits in wrong order and a near plane not in front of the origin raise ValueError.", "quantifier": "all limits and points, both kinds of projection", "why_tests_cant": "An equivalence for every point in space.", "anchors": ["electrode/transformations.py: clip_matrix"]}
{"id": "C99", "title": "Shears", "statement": "The matrix of shear_matrix keeps the points of the plane and moves a point at height s by s tan(angle) along the direction; it keeps volumes, and the opposite angle undoes it; a direction that is not orthogonal to the normal raises ValueError.", "quantifier": "all angles, directions, planes and points", "why_tests_cant": "Ranges over all planes and points.", "anchors": ["electrode/transformations.py: shear_matrix"]}
{"id": "C100", "title": "Crystal cells", "statement": "The columns of orthogonalization_matrix are three edges with the given lengths and the given angles between them, right-handed with the volume of the cell; a cell is refused exactly if no three directions have the given angles.", "quantifier": "all lengths and angles", "why_tests_cant": "Which triples of angles are possible is an existence statement about all directions in space.", "anchors": ["electrode/transformations.py: orthogonalization_matrix"]}
{"id": "C101", "title": "Composing and decomposing transformations", "statement": "compose_matrix scales, shears, turns and moves in this order. compose_matrix of what decompose_matrix returns is the matrix divided by its last entry (where entries of the last row below _EPS may be dropped); decompose_matrix of a composition without perspective returns the parts, if the scales have one sign and the angles are in their ranges; it fails with ValueError exactly for matrices with a vanishing last entry or singular three by three part.", "quantifier": "all matrices and all parts", "why_tests_cant": "A round trip over all matrices, including degenerate angles and reflections, which random tests never meet.", "anchors": ["electrode/transformations.py: compose_matrix", "electrode/transformations.py: decompose_matrix"]}
{"id": "C102", "title": "Compiled matrices equal the Python ones", "statement": "In an installed package the compiled functions of the same names replace the Python ones. reflection_matrix, rotation_matrix, projection_matrix, shear_matrix, clip_matrix, scale_matrix, orthogonalization_matrix and is_same_transform must return the same result in either form; vectors without direction raise ValueError.", "quantifier": "all arguments", "why_tests_cant": "Equality of two programs on all real arguments, including lengths and angles near the tolerances.", "anchors": ["electrode/transformations.c: py_reflection_matrix", "electrode/transformations.c: py_rotation_matrix", "electrode/transformations.c: py_projection_matrix", "electrode/transformations.c: py_clip_matrix", "electrode/transformations.c: py_scale_matrix", "electrode/transformations.c: py_shear_matrix", "electrode/transformations.c: py_orthogonalization_matrix", "electrode/transformations.c: py_is_same_transform", "electrode/transformations.py: _import_module"]}
{"id": "C103", "title": "Compiled Euler angles and quaternions equal the Python ones", "statement": "euler_matrix, euler_from_matrix, quaternion_from_euler, quaternion_about_axis, quaternion_matrix, quaternion_multiply, quaternion_conjugate, quaternion_inverse, quaternion_from_matrix (precise) and quaternion_slerp return the same in the compiled and the Python form, accept the same names of axes, and do not alter their arguments.", "quantifier": "all strings and tuples of axes, angles, matrices, quaternions, fractions, both orders of bytes", "why_tests_cant": "The set of accepted strings is a statement about all strings; the agreement is about all real arguments.", "anchors": ["electrode/transformations.c: axis2tuple", "electrode/transformations.c: py_euler_matrix", "electrode/transformations.c: py_euler_from_matrix", "electrode/transformations.c: py_quaternion_from_euler", "electrode/transformations.c: py_quaternion_about_axis", "electrode/transformations.c: quaternion_matrix", "electrode/transformations.c: quaternion_from_matrix", "electrode/transformations.c: py_quaternion_slerp"]}
{"id": "C104", "title": "inverse_matrix inverts or refuses", "statement": "inverse_matrix (compiled) returns a matrix whose product with the argument is the identity, for every size. It raises ValueError for matrices without inverse, and only for them or for matrices that a change of one column by less than 1e-14 makes singular.", "quantifier": "all square real matrices of every size", "why_tests_cant": "The sizes are unbounded and the pivots depend on every entry; exactness of the elimination is an algebraic invariant over all passes.", "anchors": ["electrode/transformations.c: py_inverse_matrix", "electrode/transformations.c: invert_matrix", "electrode/transformations.c: invert_matrix22", "electrode/transformations.c: invert_matrix33", "electrode/transformations.c: invert_matrix44", "electrode/transformations.py: inverse_matrix"]}
{"id": "C105", "title": "Arcball always shows a rotation and follows the cursor", "statement": "After any history of calls, Arcball.matrix() is a rotation. Without constraint, pressing at one point of the sphere and dragging to another turns the ball by twice the angle between them; the result does not depend on the path, and dragging back to the start restores the orientation. With a constraint the ball turns only about one of the axes, the one whose great circle is nearest. next() repeats the last rotation. No call with a positive radius and non-zero axes fails or makes nan.", "quantifier": "all histories of place, setaxes, constrain, down, drag, next and matrix; all points; the Python and the compiled functions", "why_tests_cant": "The state is a history of quaternion products and normalisations; histories and cursor paths are unbounded.", "anchors": ["electrode/transformations.py: Arcball", "electrode/transformations.py: arcball_map_to_sphere", "electrode/transformations.py: arcball_constrain_to_axis", "electrode/transformations.py: arcball_nearest_axis", "electrode/transformations.c: py_arcball_map_to_sphere", "electrode/transformations.c: py_arcball_constrain_to_axis"]}
{"id": "C106", "title": "The arguments of a transformation can be found from its matrix", "statement": "reflection_from_matrix, rotation_from_matrix, scale_from_matrix, projection_from_matrix and shear_from_matrix, applied to a matrix made by reflection_matrix, rotation_matrix, scale_matrix, projection_matrix or shear_matrix, return arguments with which that function makes the same matrix again. They raise no exception and return no nan. This holds whatever order and signs of eigenvectors numpy.linalg.eig chooses.", "quantifier": "all arguments of the five constructors; every result of eig that satisfies its specification", "why_tests_cant": "The arguments are real vectors and angles; eig may return the eigenvectors of a multiple eigenvalue in any order and any basis, which tests with one LAPACK never vary.", "anchors": ["electrode/transformations.py: reflection_from_matrix", "electrode/transformations.py: rotation_from_matrix", "electrode/transformations.py: scale_from_matrix", "electrode/transformations.py: projection_from_matrix", "electrode/transformations.py: shear_from_matrix"]}
{"id": "C107", "title": "The registration of two sets of points finds the best transformation", "statement": "affine_matrix_from_points and superimposition_matrix return, with shear=False and scale=False, the rotation and translation for which the sum of the squared distances between the images of the first points and the second points is least. With scale=True they return the best rotation, scaling and translation, and in each mode an exact transformation of that kind between the two sets is found again. By default (shear=True) an affine transformation between the two sets is found again. Arrays are refused exactly if their shapes differ or there are fewer points than dimensions. Both methods (usesvd) give equally good results.", "quantifier": "all numbers of dimensions and points, all arrays, both methods, every result of svd, pinv, eigh and argmax that satisfies their specifications", "why_tests_cant": "That no rotation does better is a statement about all rotations; it must hold for every set of points, including degenerate ones where svd has a choice and where the orientation must be repaired.", "anchors": ["electrode/transformations.py: affine_matrix_from_points", "electrode/transformations.py: superimposition_matrix"]}
{"id": "C108", "title": "The characteristic exponent found by integration tells whether the motion is bounded", "statement": "If the integration in nu_exp_ivp is exact, the exponent nu it returns is the characteristic exponent of the equation of Mathieu: there is a solution that is not zero and gets the factor exp(i pi nu) after each period pi, and nu is between 0 and 1. If it warns of unbounded motion there is an unbounded solution, and if it does not warn every solution is bounded. Without a radio frequency field nu_exp_ivp, nu_exp_det and nu_exp_d0ap give the same exponent, and this is the root of a, as from nu_exp_bla, for a between 0 and 1. nu_exp_d0ap gives a number wherever the exponent is real and q is small.", "quantifier": "all real a and q, all times, all solutions of the differential equation, all truncations", "why_tests_cant": "Boundedness is a statement about all times and all initial conditions, and a test can only integrate over some periods.", "anchors": ["electrode/mathieu.py: Mathieu.nu_exp_ivp", "electrode/mathieu.py: Mathieu.nu_exp_d0ap", "electrode/mathieu.py: Mathieu.nu_exp_bla", "electrode/mathieu.py: Mathieu.nu_exp_det"]}
{"id": "C109", "title": "The constraints for voltages along a path mean what they name", "statement": "A VoltageConstraint with weight 0 and a range holds exactly if all finite differences of the given order and step of the voltages along the path are within the range, for each electrode, for the greatest or for the sum, and its objective is the weighted sum of these differences; with smooth the path is mirrored at its ends. A SymmetryConstraint holds exactly if the named electrodes have the same voltages. PotentialConstraint, ForceConstraint and CurvatureConstraint hold exactly if the sum of the fixed part and of what the electrodes add is within the limits at every point they are for, in the axes given by coord. They do not change the arrays they are given, so that their order does not matter.", "quantifier": "all numbers of electrodes and points, all voltages, all orders and steps, all norms, all limits and indices", "why_tests_cant": "The equivalence must hold for every path of voltages; a missing window at the ends is only seen with the right voltages, and an array changed in place only with a later constraint.", "anchors": ["electrode/constraints.py: VoltageConstraint", "electrode/constraints.py: SymmetryConstraint", "electrode/constraints.py: PotentialConstraint", "electrode/constraints.py: ForceConstraint", "electrode/constraints.py: CurvatureConstraint", "electrode/constraints.py: Constraint"]}
{"id": "C110", "title": "Random rotations are evenly distributed", "statement": "If the three numbers given to random_quaternion are independent and uniformly distributed between 0 and 1, the quaternion has length 1 and its distribution does not change under any rotation or reflection in four dimensions. random_rotation_matrix gives rotations whose distribution does not change if each is preceded or followed by a given rotation; this is the only such distribution. The component along any direction of a unit vector turned by it is uniformly distributed between -1 and 1.", "quantifier": "all numbers, all orthogonal four by four matrices, all rotations, all measurable sets, all pairs of unit vectors, all invariant distributions of rotations", "why_tests_cant": "A distribution is not seen in single samples: quaternions that favour some directions have length 1 as well and give rotations as well.", "anchors": ["electrode/transformations.py: random_quaternion", "electrode/transformations.py: random_rotation_matrix", "electrode/transformations.py: quaternion_matrix"]}
{"id": "C111", "title": "Lengths, directions, angles and products of vectors, and products of matrices", "statement": "vector_norm is the Euclidean length, of a vector or of each vector along an axis; unit_vector has length one and the same direction, and is nan for a zero vector. angle_between_vectors is the angle between 0 and pi of any two vectors that are not zero, in any dimension and for arrays column by column; without directions it is the angle of the lines, at most pi/2; it obeys the triangle inequality and does not change under rotations. vector_product is perpendicular to both vectors, right-handed, with the area of the parallelogram as length, and zero exactly for parallel vectors. concatenate_matrices applies the last matrix first. is_same_quaternion is true for unit quaternions of the same rotation, in either order of the arguments, and only for nearly the same rotation.", "quantifier": "all vectors of all dimensions, all arrays, all orthogonal matrices, all lists of matrices, all unit quaternions", "why_tests_cant": "The equivalences and inequalities must hold for all vectors; the dependence on the order of the arguments is only seen for quaternions at the tolerance.", "anchors": ["electrode/transformations.py: vector_norm", "electrode/transformations.py: unit_vector", "electrode/transformations.py: angle_between_vectors", "electrode/transformations.py: vector_product", "electrode/transformations.py: concatenate_matrices", "electrode/transformations.py: is_same_quaternion"]}
{"id": "C112", "title": "The compiled superimposition_matrix and quaternion_from_matrix find the best rotation", "statement": "With the compiled extension loaded, superimposition_matrix(v0, v1) is a rotation (times one scale factor if scaling is set) with the translation of the centroids, and no other rotation brings the points of v0 closer to those of v1 in the sum of the squares of the distances, up to rounding, whatever the scale of the points; it ends for all inputs and gives the same result as the Python version. quaternion_from_matrix(M) of a rotation matrix is the unit quaternion of this rotation with w not below zero. Other numbers of coordinates or points are a ValueError.", "quantifier": "all sets of points of any number and at any scale, all rotation matrices, all symmetric four by four matrices in the search for the eigenvalue", "why_tests_cant": "The largest eigenvalue is found by bisection with counts of pivots and absolute tolerances; which pivots are met and which of four candidate vectors is used depends on the points, so that samples at one scale do not show the failures at another.", "anchors": ["electrode/transformations.c: tridiagonalize_symmetric_44", "electrode/transformations.c: max_eigenvalue_of_tridiag_44", "electrode/transformations.c: eigenvector_of_symmetric_44", "electrode/transformations.c: py_superimposition_matrix", "electrode/transformations.c: py_quaternion_from_matrix"]}
{"id": "C113", "title": "The closed formulas for the characteristic exponent are right to a stated order in q", "statement": "For every a > 0 that is not the square of a whole number and all sufficiently small q, nu_exp_d0ap(a, q) is a number, the motion is bounded, and the number differs from the characteristic exponent by at most a constant times |q|^3; for 0 < a <= q^2, where traps are operated, by at most a constant times q^4. For |a| <= q^2 and small q, nu_exp_bla(a, q) is defined where a + q^2/2 >= 0, its square differs from the square of the exponent by at most a constant times |q|^3, and up to such a term the motion is bounded where a + q^2/2 > 0 and unbounded where a + q^2/2 < 0.", "quantifier": "all a and q in the stated ranges, with constants that do not depend on q (nor on a in the statements for |a| <= q^2)", "why_tests_cant": "An order of accuracy is a statement about all small q at once; a table of values cannot tell a wrong coefficient of a high order from the error of the method.", "anchors": ["electrode/mathieu.py: Mathieu.nu_exp_d0ap", "electrode/mathieu.py: Mathieu.nu_exp_bla", "electrode/mathieu.py: Mathieu.nu_exp_ivp"]}
{"id": "C114", "title": "The exponent from the truncated determinant converges to the characteristic exponent", "statement": "For all a and q, the exponents nu_exp_det(a, q, ntr) of growing order ntr converge to the characteristic exponent of Mathieu's equation, the one an exact nu_exp_ivp(a, q) returns: if the motion is bounded and not at the edge of stability, nu_exp_det returns a real exponent for every large order and it is as close to the characteristic exponent as required; if a solution grows exponentially, nu_exp_det reports unbounded motion for every large order. nu_tolerance started at a large enough order returns an exponent that is within the tolerance of the characteristic exponent.", "quantifier": "all a and q, all required accuracies, all orders above one that depends on a, q and the accuracy", "why_tests_cant": "Convergence is a statement about all orders, and the limit is defined by a differential equation without a closed solution; comparing two approximations cannot show that they approximate the right number.", "anchors": ["electrode/mathieu.py: Mathieu.nu_exp_det", "electrode/mathieu.py: Mathieu.nu_exp_ivp", "electrode/mathieu.py: Mathieu.nu_tolerance"]}
{"id": "C115", "title": "A sequence of moves keeps voltages, minima, curvatures and axes in step", "statement": "After set_move_init the axes of an Adjust object are the three orthonormal principal axes of the potential at the minimum with their curvatures, labelled from the one nearest to the x axis on. propose_move applies the returned voltage changes, counted from the recorded voltages, to the electrodes of the groups and to no others, and records nothing; proposing again replaces the earlier proposal. For every sequence of proposed, accepted and rejected moves, with exceptions anywhere in between, the histories of all voltages, of the minima and of the curvatures grow by exactly one entry for each accepted move, and after an accepted move the recorded voltages are those of the system. A proposal that fails leaves the object as it was, and proposing the same move again gives the same result.", "quantifier": "all systems, positions, groups of electrodes, valid eigenvector and sorting routines, and all finite sequences of calls with exceptions at any point", "why_tests_cant": "the sequences of calls are unbounded, and the results depend on arbitrary choices of the eigenvector routine that a test on one machine never varies", "anchors": ["electrode/adjust.py: Adjust.set_move_init", "electrode/adjust.py: Adjust.xm_freq_change", "electrode/adjust.py: Adjust.propose_move", "electrode/adjust.py: Adjust.next_step"]}
{"id": "C116", "title": "The self-checks of the spherical harmonics and of the Mathieu coefficients test what they say", "statement": "check_orthogonality of a SphericalHarmonics object passes exactly if all inner products of two sampled harmonics, summed over its grid, are within 1e-6 of those of an orthonormal family. Built from exact Gauss-Legendre nodes and the associated Legendre functions, for every nmax, both check_orthogonality and check_identity pass, and the sampled harmonics are exactly orthonormal. The grids belong to the nodes: the cosines of the polar angles are the nodes, the azimuths are the sampled ones, the cartesian points are those of the angles and lie on the sphere. The sums sum_c returns satisfy totnu = nu + 2 totn, totsnu = 1 and tots totnu = 1; the second number it prints is zero and the first one depends only on the coefficients at the end of the range, so that neither tells whether nu is a characteristic exponent; the defect of the recurrence at zero shows up in totg.", "quantifier": "all sizes nmax, nodes and weights, all a, q, nu and numbers of coefficients", "why_tests_cant": "running the check for one size says nothing about the others, and that a printed residual is zero for every nu is a statement about all nu", "anchors": ["electrode/spherical_harmonics.py: SphericalHarmonics.check_orthogonality", "electrode/spherical_harmonics.py: SphericalHarmonics.check_identity", "electrode/spherical_harmonics.py: SphericalHarmonics.spherical_grid", "electrode/spherical_harmonics.py: SphericalHarmonics.cartesian_grid", "electrode/mathieu.py: Mathieu.sum_c"]}
{"id": "C117", "title": "Smoothing weights straight parts and corners and leaves closed curves closed", "statement": "smooth asks the spline routine for a periodic fit of the given points at parameters proportional to the length along the curve, running from 0 to 1, with the smoothing times the number of points; a point has the weight straight if the curve goes straight on there within the tolerance, the weight corner if it does not but does at the point before or after, and weight 1 otherwise. Straight continuation is recognised at every point. A curve that is not closed raises AssertionError. The result is closed whenever the spline is periodic; with zero smoothing, degree one and no given number of knots the curve comes back unchanged. Polygons.smooth keeps names and order, smooths each ring by itself, drops interiors with fewer than three points and polygons whose exterior has fewer than three.", "quantifier": "all closed curves, weights, tolerances and numbers of knots, all lists of polygons with holes, all spline routines meeting their contract", "why_tests_cant": "which points are straight depends on the direction of turn and on where the list of points starts, for every curve", "anchors": ["electrode/polygons.py: smooth", "electrode/polygons.py: Polygons.smooth"]}
{"id": "C118", "title": "Orientations tell the sign of the potential", "statement": "orientations() of a polygon electrode without cover has one entry per path, 1, -1 or 0. If each path runs around its region in one sense, the electrode's potential is the sum of those of its paths, and that of each path has everywhere above the plane the sign of the voltage times the orientation (the opposite below). If all orientations are positive, the potential has the sign of the voltage everywhere above. Point pixels have orientation 1 and, if their areas are positive, potentials of the sign of the voltage.", "quantifier": "all paths, voltages and positions off the plane", "why_tests_cant": "the sign is claimed at every point of space for every polygon", "anchors": ["electrode/electrode.py: Electrode.orientations", "electrode/electrode.py: PointPixelElectrode.orientations", "electrode/electrode.py: PolygonPixelElectrode.orientations", "electrode/electrode.py: PolygonPixelElectrode.to_points"]}
{"id": "C119", "title": "The helpers do what they stand in for", "statement": "A function wrapped by shaped is called once, with one point for each index into the dimensions of the array after the first; the result has these dimensions followed by those of the values, in the same order. norm gives the lengths along the given axis. DummyPool gives for every sequence of handing in calls and asking for results what a pool would give. With the substitute for scipy.optimize.minimize, System.minimum returns what fmin_ncg finds if its flag is zero and raises ValueError if it is not. Importing the compiled module replaces exactly its public names, keeps the Python functions under _py_ names, and changes nothing if it fails.", "quantifier": "all functions, arrays of all shapes, all sequences of calls, all modules and global names", "why_tests_cant": "shapes, sequences of calls and sets of names are unbounded", "anchors": ["electrode/utils.py: shaped", "electrode/utils.py: shaper", "electrode/utils.py: norm", "electrode/utils.py: DummyPool", "electrode/system.py: minimize", "electrode/transformations.py: _import_module"]}
{"id": "C120", "title": "The compiled lengths, unit vectors and random rotations are right", "statement": "With the compiled module, vector_norm gives the length of all entries or, with an axis counted from either end, the lengths along it; unit_vector divides by these lengths, and vectors of length zero become nan. For arrays with at least two dimensions both do what the Python functions do, including errors and writing to an out of the right shape. random_quaternion and random_rotation_matrix give the same quaternion and matrix as in Python for the same three numbers. The numbers that are drawn without rand are multiples of 2^-53 in [0, 1), all equally likely.", "quantifier": "arrays of all shapes, all axes, all outputs, all pairs of words of the generator", "why_tests_cant": "shapes are unbounded, and the distribution of 2^53 values cannot be sampled exhaustively", "anchors": ["electrode/transformations.c: py_vector_norm", "electrode/transformations.c: py_unit_vector", "electrode/transformations.c: random_doubles", "electrode/transformations.c: py_random_quaternion", "electrode/transformations.c: py_random_rotation_matrix", "electrode/transformations.py: vector_norm", "electrode/transformations.py: unit_vector"]}
{"id": "C121", "title": "A cover plane screens and never reverses the potential", "statement": "Between the electrode plane and a cover at height h, a polygon or point electrode of positive area has a potential of the sign of its voltage at every point, for every number of images cover_nmax; for single paths the sign is that of the voltage times the orientation. As the number of images grows the potential converges; the error with n images is at most |V| A z / (8 pi h^3 n^2) for area A at height z. The limit lies strictly between zero and the potential without cover, tends to the voltage on the electrode and to zero on the rest of the plane, and to zero at the cover.", "quantifier": "all polygons and points of positive area, voltages, heights, positions between the planes, numbers of images", "why_tests_cant": "the sign is claimed at every position and for every number of images, and the limit is an infinite process", "anchors": ["electrode/expressions.py: _point_potential", "electrode/expressions.py: _polygon_potential", "electrode/electrode.py: PointPixelElectrode.potential", "electrode/electrode.py: PolygonPixelElectrode.potential"]}
{"id": "C122", "title": "Rounding errors of the potentials are bounded", "statement": "If every floating-point operation has a relative error of at most u, then the potential and every derivative up to the fifth that is computed for point or polygon electrodes, with or without cover, differs from its exact value by at most an explicit small multiple of u times the sum of the sizes of the contributions. For points the factor is 2(300+N) with N pixels times images; for the potential of points without cover the relative error is at most 2(24+N)u. For polygons it is 2(700(k+1)+N) with N vertices times images, where the position is clear of the sides by a factor k; the Python functions and the compiled ones obey the same bound. The electrical potential of a system of covers, points, polygons and meshes obeys the same kind of bound, with the sum over the electrodes. Doubles satisfy the assumption with u = 2^-53 as long as there is no overflow or underflow.", "quantifier": "all arithmetics of a given accuracy, electrodes, voltages, positions off the plane, orders 0 to 5, numbers of images, heights of the cover", "why_tests_cant": "a test compares a few values against a tolerance; the bound holds at every position and for every size of the electrodes, and for every accurate arithmetic", "anchors": ["electrode/expressions.py: point_potential", "electrode/expressions.py: polygon_potential", "electrode/cexpressions.pyx: point_potential", "electrode/cexpressions.pyx: polygon_potential", "electrode/expressions.py: mesh_potential", "electrode/electrode.py: CoverElectrode.potential", "electrode/system.py: System.electrical_potential"]}
{"id": "C123", "title": "The potential of polygon electrodes is the only solution of the electrostatic problem", "statement": "Without a cover, the potential of a polygon electrode at voltage v obeys the Laplace equation above the plane, is bounded, tends to zero far away in every direction, and tends to v times the number of times the electrode covers a point of the plane, however that point is approached, except on the edges. Any function with these properties is the potential the electrode reports, and its derivatives are the components the electrode reports. The same holds for the electrical potential of a system of such electrodes, where every point of the plane has the voltages of the electrodes that cover it. A solution lies between the extreme voltages on the plane, zero included.", "quantifier": "all closed polygons, also self-intersecting and overlapping ones, all voltages, systems of any number of electrodes, all positions above the plane, all candidate functions", "why_tests_cant": "a test compares values at some positions with another formula or solver; that no other function solves the problem is a statement about all functions", "anchors": ["electrode/electrode.py: PolygonPixelElectrode.potential", "electrode/expressions.py: polygon_potential", "electrode/cexpressions.pyx: polygon_potential", "electrode/system.py: System.electrical_potential"]}
{"id": "C124", "title": "Images approximate the only solution below a grounded cover, with a known error", "statement": "Between the electrode plane and a grounded cover at height h the electrostatic problem of a polygon electrode has exactly one solution that decays. With more and more images the potential the electrode reports tends to it, and with nmax images it differs from it at most by |v| area / (2 pi ((2 nmax + 1) h)^2) everywhere between the planes. For a system of electrodes below a common cover the errors add up.", "quantifier": "all closed polygons, voltages, heights of the cover, numbers of images, systems of any number of electrodes, all positions between the planes", "why_tests_cant": "a test cannot compare with a solution that has no closed form, nor check all positions and numbers of images", "anchors": ["electrode/electrode.py: PolygonPixelElectrode.potential", "electrode/expressions.py: polygon_potential", "electrode/cexpressions.pyx: polygon_potential", "electrode/system.py: System.electrical_potential"]}
{"id": "C125", "title": "Static voltages never confine an ion, and the rf drive alone sets the sum of the curvatures", "statement": "Off the electrodes, the potential of a system has no local minimum or maximum unless it is constant nearby, for the dc and the rf voltages and for the potential at every instant; inside every bounded region the potential at a position is matched or undercut somewhere on the surface of the region. The curvatures along three orthogonal directions add up to zero. The three curvatures reported by modes add up to twice the sum of the squares of the scaled second derivatives of the rf potential, whatever the dc voltages are, so all three can only be positive where the rf potential has a second derivative. The combined potential has no local maximum unless it is constant nearby.", "quantifier": "all systems of cover, point and polygon electrodes (all kinds of electrodes for the curvatures), all voltages, all positions off the electrodes, all bounded regions, all instants", "why_tests_cant": "a test looks for a minimum in some systems at some positions; that there is none is a statement about all systems and all positions", "anchors": ["electrode/system.py: System.electrical_potential", "electrode/system.py: System.time_potential", "electrode/system.py: System.pseudo_potential", "electrode/system.py: System.potential", "electrode/system.py: System.modes"]}
{"id": "C126", "title": "Turning, mirroring or moving the layout in its plane turns all potentials with it, and symmetric layouts give symmetric potentials", "statement": "If every electrode of a system is turned, mirrored and moved in the electrode plane, then at the turned position the dc, rf and combined potentials and their derivative tensors (rf and dc up to order five, combined up to order four) are those of the original system at the original position, turned as rotate_tensor turns them. The order of electrodes, of paths and of pixels and the starting points of the paths do not matter. If a motion takes the layout to itself, the potentials have that symmetry: on a mirror plane no force acts across the plane and the normal is a principal axis; on the axis of a rotational symmetry no force acts across the axis, and if it is not just a half turn the curvatures across the axis agree.", "quantifier": "all systems of cover, point and polygon electrodes with all voltages and covers, all rotations, reflections and translations of the plane, all positions off the electrodes, all derivative orders the code provides", "why_tests_cant": "a test turns one layout by one angle and compares at some positions", "anchors": ["electrode/electrode.py: PolygonPixelElectrode.potential", "electrode/electrode.py: PointPixelElectrode.potential", "electrode/system.py: System.electrical_potential", "electrode/system.py: System.pseudo_potential", "electrode/system.py: System.potential", "electrode/utils.py: rotate_tensor"]}
{"id": "C127", "title": "Errors of the shapes of electrodes cause bounded errors of the potentials", "statement": "The potential of a polygon electrode and every component of its derivatives up to order five is the integral over the plane of that of surface elements, each counted as often as the electrode covers it. So two electrodes at the same voltage differ by no more than the voltage times the area in which they differ times the size of a surface element's derivative, which falls with the height; and if no corner is off by more than a distance, by no more than the voltage times that distance times the mean of the two boundary lengths times that size, with the images of a cover added up. The same holds for all entries of the tensors of whole systems and, through the rf field, for the pseudopotential; for point electrodes it holds with the errors of the areas. Writing a layout to a GDS file and reading it again changes the potentials by no more than the bound with the resolution of the file.", "quantifier": "all polygons (also crossing themselves or overlapping), all displacements of corners, all voltages and covers, all positions off the electrode planes, all derivative orders up to five, all systems, all GDS roundings", "why_tests_cant": "a test displaces some corners of one layout and compares at some positions", "anchors": ["electrode/electrode.py: PolygonPixelElectrode.potential", "electrode/electrode.py: PointPixelElectrode.potential", "electrode/system.py: System.electrical_potential", "electrode/system.py: System.pseudo_potential", "electrode/polygons.py: Polygons.to_gds", "electrode/polygons.py: Polygons.from_gds"]}
{"id": "C128", "title": "Electrodes and covers far away matter little", "statement": "No component of the potential of a point or polygon electrode or of its derivatives up to order five exceeds the voltage times the area times the size of the derivative of a surface element at the smallest distance, which falls with the power order + 2 of the distance; with a cover the images are added up. Leaving electrodes out of a system changes no entry of its tensors by more than twice the sum of these bounds. A cover at a height h above the plane changes nothing below it by more than 5/2 times the voltage times the area times that size at the distance h, so the potentials tend to those without cover when the cover is raised; and after n images on both sides further images change nothing by more than that size divided by 2n(2n+1)^order.", "quantifier": "all point and polygon electrodes, all voltages, distances, covers and numbers of images, all positions off the planes, all derivative orders up to five, all systems and choices of electrodes that are left out", "why_tests_cant": "a test leaves out some electrode of one layout and compares at some positions", "anchors": ["electrode/electrode.py: PolygonPixelElectrode.potential", "electrode/electrode.py: PointPixelElectrode.potential", "electrode/system.py: System.electrical_potential", "electrode/expressions.py: point_potential", "electrode/expressions.py: polygon_potential"]}
{"id": "C129", "title": "The unit of length does not matter and similar traps behave alike", "statement": "If every electrode, the cover and the position are enlarged by a factor s and the voltages are multiplied, each tensor of order n of the system is multiplied by the factor of the voltages divided by s^n. If the rf field, multiplied with the rf scale, grows by a factor kappa and the static voltages by its square, pseudopotential and combined potential grow by its square, their derivatives of order n by its square divided by s^n, and the curvatures modes returns by its square divided by s^2. With the coordinates in a unit s times smaller and the length given to rf_scale accordingly, the combined potential is the same. mathieu returns the very same result for a trap s times larger if voltage times squared scale grows with s^2.", "quantifier": "all systems of cover, point, polygon and mesh electrodes, all positive factors of length, all voltages, frequencies, masses and charges, all positions, all derivative orders the functions support", "why_tests_cant": "a test compares two sizes of one trap at some positions", "anchors": ["electrode/system.py: System.electrical_potential", "electrode/system.py: System.pseudo_potential", "electrode/system.py: System.potential", "electrode/system.py: System.rf_scale", "electrode/system.py: System.modes", "electrode/system.py: System.mathieu"]}
{"id": "C130", "title": "Small errors move a minimum only a little", "statement": "In a convex region off the electrodes where the combined potential curves upwards by at least lambda in every direction there is at most one point without force, and it is the minimum. A point is at most as far from it as the length of the gradient potential returns there divided by lambda, so that the position minimum returns is accurate to the tolerance of the minimiser for the gradient divided by lambda, and the potential to its square divided by 2 lambda. If voltages, stray fields, shapes or covers change the force by less than lambda times the radius of a ball around a minimum, a minimum remains in the ball, and it moves by at most the change of the force divided by lambda. The smallest curvature modes returns and a bound of the third derivatives give such a lambda; where all curvatures are positive there always is one.", "quantifier": "all systems of cover, point and polygon electrodes, all voltages and rf scales, all convex regions or balls off the electrodes, all changes of the system, all minimisers with a tolerance for the gradient, all starting points", "why_tests_cant": "a test compares the minimum with a known one for a few layouts and starts", "anchors": ["electrode/system.py: System.minimum", "electrode/system.py: System.modes", "electrode/system.py: System.potential"]}
{"id": "C131", "title": "An ion with less energy than the barrier stays in the trap", "statement": "For the motion of an ion in the combined potential the energy is constant as long as the ion touches no electrode. If the combined potential is nowhere on the boundary of a region lower than a value and the energy of the ion in the region is below it, the ion never leaves the region, its speed is bounded, and the motion goes on for any length of time; the height of the saddle point in the report of analyze_static is the kinetic energy needed if the saddle point is the lowest point of the boundary. Around a minimum with curvatures of at least lambda an ion with the energy e above the minimum moves no further away than the square root of 2 e / lambda (in suitable units).", "quantifier": "all systems of cover, point and polygon electrodes, all open regions whose closure is off the electrodes, all masses, charges and units, all starting positions and velocities below the barrier, all times", "why_tests_cant": "a test integrates one trajectory for some time", "anchors": ["electrode/system.py: System.potential", "electrode/system.py: System.saddle", "electrode/system.py: System.analyze_static", "electrode/system.py: System.modes"]}
{"id": "C132", "title": "The pseudopotential describes the motion in the rf drive", "statement": "The combined potential after rf_scale(m, q, l, Omega) depends on the rf voltages divided by Omega only. Take an ion in the oscillating field time_potential returns for the phase Omega t, and an ion with the same start in the combined potential. As long as both stay in a ball off the electrodes, during a given time their positions differ by at most C / Omega, and their velocities by the velocity of the micromotion and at most C / Omega more; C is the same for all frequencies (with rf voltages proportional to the frequency) and all motions with a bounded starting velocity. For high frequencies the ion in the oscillating field exists for the whole time and stays near the other one; so ions with little energy around a minimum of the combined potential with positive curvatures are trapped in the oscillating field for any given time.", "quantifier": "all systems of cover, point and polygon electrodes, all voltages, masses, charges and units, all balls off the electrodes, all times, starting positions and velocities, all frequencies", "why_tests_cant": "a test integrates one trajectory at one frequency for some time", "anchors": ["electrode/system.py: System.time_potential", "electrode/system.py: System.pseudo_potential", "electrode/system.py: System.rf_scale", "electrode/system.py: System.potential"]}
{"id": "C133", "title": "Bounded voltages give bounded potentials, fields and derivatives", "statement": "In front of polygon electrodes (above the plane and, if there is one, below the cover) the potential lies between the lowest and the highest voltage of the plane. At the height z the field is at most 2 V / z, and derivatives of order d at most 2 c V / z^d with fixed c, if no voltage exceeds V; a cover adds the same for each image. For electrodes that do not overlap, V can be the largest voltage of an electrode. So the pseudopotential is at most (2 c V / z)^2 whatever the shapes are, errors of at most delta of all voltages change the potential by at most delta and the field by at most 2 delta / z, and errors of the dc voltages move a minimum with curvatures of at least lam by at most 2 delta / (z lam), and it survives. If the curvatures at a point are at least lambda, those within the distance R are at least lambda minus 9 R times a bound of the third derivatives that follows from the largest dc and rf voltages and the smallest height.", "quantifier": "all systems of polygon electrodes with the same cover, all shapes (with holes, many polygons), voltages, errors of voltages, positions and orders of derivatives", "why_tests_cant": "a test compares the potentials of some shapes at some positions", "anchors": ["electrode/electrode.py: PolygonPixelElectrode.potential", "electrode/system.py: System.electrical_potential", "electrode/system.py: System.pseudo_potential", "electrode/system.py: System.minimum", "electrode/expressions.py: polygon_potential"]}
{"id": "C134", "title": "Rounding errors of the pseudopotential and of the combined potential are bounded", "statement": "Computed with floating point numbers, the pseudopotential and the combined potential with all derivatives up to the fourth order differ from those of exact arithmetic by at most a number of roundings times u (2^-53 for doubles) times the size of the terms: the sum of the electrode potentials' sizes for the dc part and the sums of their products for the pseudopotential. The number of roundings depends only on how well the position is placed relative to the electrodes (C122) and on the number of electrodes. So where a minimiser finds a computed gradient of at most eps, the true minimum is not further away than eps and these errors divided by the smallest curvature. The potential at an instant of the rf cycle, the static potential and the cosine of the phase times the rf potential, has an error of the same kind up to the fifth order.", "quantifier": "all arithmetics with relative error u, all orders of summation in the contraction of fields, all systems of point and polygon electrodes, positions, voltages and orders up to 4", "why_tests_cant": "a test compares the numbers at some positions with some tolerance", "anchors": ["electrode/system.py: System.potential", "electrode/system.py: System.pseudo_potential", "electrode/system.py: System.minimum", "electrode/utils.py: expand_tensor", "electrode/system.py: System.time_potential"]}
{"id": "C135", "title": "The derivatives at a position predict the potential nearby", "statement": "The values and derivatives that electrical_potential (up to order 5) and potential (up to order 4) return at a position are the coefficients of the expansion of the potential and of its derivatives around it: summed up to the order n in the displacement d, the error is at most M (|dx| + |dy| + |dz|)^(n+1) / (n+1)! with the largest derivative M of the next order on the way. For polygon electrodes that do not overlap, with voltages up to V, at heights of at least z0, it is at most 2 c V (sqrt(3) |d| / z0)^(n+1) / (n+1)! for the potential. Around a point without force the potential is that of springs with the curvatures from potential(x, 2), up to the third order.", "quantifier": "all systems of point, polygon and cover electrodes, voltages, positions off the electrodes, displacements, orders", "why_tests_cant": "a test compares some displacements", "anchors": ["electrode/system.py: System.electrical_potential", "electrode/system.py: System.potential", "electrode/electrode.py: PolygonPixelElectrode.potential", "electrode/electrode.py: PointPixelElectrode.potential"]}
{"id": "C136", "title": "Ions oscillate with the reported mode frequencies", "statement": "Near a point without force, the coordinate of an ion along an eigenvector that modes returns is that of a harmonic oscillator with the angular frequency sqrt(q w / (m l^2)) from its eigenvalue w. The deviation is at most a constant times the square of the amplitude times the time. The frequencies in the report of analyze_static are these. The motion in the oscillating rf field is the same up to a further error that falls with the frequency of the drive. With positive eigenvalues such motions exist for any length of time.", "quantifier": "all systems of point, polygon and cover electrodes, voltages, points without force, masses, charges, small amplitudes, times and initial conditions", "why_tests_cant": "a test follows some trajectories for some time", "anchors": ["electrode/system.py: System.modes", "electrode/system.py: System.analyze_static", "electrode/system.py: System.potential", "electrode/system.py: System.time_potential"]}
{"id": "C137", "title": "Small changes of the potential change the modes only a little", "statement": "If all second derivatives of the potential change by at most delta, each of the three curvatures that modes() returns in ascending order changes by at most 3 delta, and the sine of the angle by which a mode turns is at most 3 delta / (g - 3 delta), where g is the distance of its curvature from the others. So curvatures at two positions differ by at most 3 sqrt(3) M times the distance (M bounds the third derivatives), errors of dc voltages of polygons of at most delta change them by at most 108 delta / z^2 at the height z (plus the same for each image), and the modes at the minimum that the errors have moved differ by at most a constant times delta. A growing quadratic form lowers no curvature. The squares of the frequencies in reports change by at most 3 delta q / (m l^2). Rounding errors of modes() are at most nine times those of the second derivatives, plus the error of eigh.", "quantifier": "all systems, positions, voltages, errors of voltages, positions of minima, arithmetics of the given relative accuracy and routines for eigenvalues with the given error", "why_tests_cant": "a test compares the modes of two given systems; small errors can be amplified in others", "anchors": ["electrode/system.py: System.modes", "electrode/system.py: System.potential", "electrode/system.py: System.analyze_static", "electrode/system.py: System.minimum"]}
{"id": "C138", "title": "The constraint for potential differences means what it names", "statement": "An OffsetPotentialConstraint holds exactly if the potential at the reference position minus the potential at the point lies between pmin and pmax at every point it is for, with the fixed part or, with only_variable, without it. The voltages of the electrodes are as before afterwards.", "quantifier": "all systems, electrodes, reference positions, voltages, limits and paths", "why_tests_cant": "a test evaluates the constraint for some voltages", "anchors": ["electrode/constraints.py: OffsetPotentialConstraint.single_value", "electrode/electrode.py: Electrode"]}
{"id": "C139", "title": "Ions are still just where the static and the rf field vanish", "statement": "In the field of time_potential an ion can be at rest exactly where the gradients of electrical_potential for dc and for rf both vanish, and if it starts there it stays there. At another stationary point of potential() it moves with a micromotion whose velocity amplitude is the charge to mass ratio times the rf gradient there divided by the frequency, so it vanishes for high frequencies only if the rf gradient vanishes. Small errors of the dc voltages cause only a small rf gradient at the shifted minimum, with an explicit bound.", "quantifier": "all systems, positions off the electrodes, ion masses and charges, frequencies, durations and voltage errors", "why_tests_cant": "a test integrates one motion for some time at one frequency", "anchors": ["electrode/system.py: System.time_potential, System.electrical_potential, System.potential", "electrode/electrode.py: Electrode"]}
{"id": "C140", "title": "Ions in the drive follow the modes of mathieu", "statement": "Near a position where the static and the rf field vanish, an ion in the field of time_potential that starts in a mode returned by System.mathieu follows this mode: real part of the sum of its harmonics with its exponent. Its deviation is of second order in the amplitude, up to a term proportional to the highest harmonics kept, with an explicit bound and a constant that does not depend on the cutoff or the mode. These highest harmonics fall at least with the square of the distance of the cutoff to the exponent, so the modes converge to the motion of the ion as the cutoff grows and the amplitude falls.", "quantifier": "all systems, positions off the electrodes without field, ion masses and charges, frequencies, durations, cutoffs, modes and small amplitudes", "why_tests_cant": "a test integrates one motion for some time and some amplitude", "anchors": ["electrode/system.py: System.mathieu, System.time_potential, System.rf_scale", "electrode/utils.py: mathieu"]}
{"id": "C141", "title": "For weak drives mathieu and modes agree", "statement": "At a position without rf field, each mode of System.mathieu in the first zone is, for a weak drive, a mode of the pseudopotential as System.modes reports it with the scale of rf_scale: the square of its exponent, in units of the drive frequency, is minus the square of the frequency of one of these modes, its zeroth harmonic lies along the modes with this frequency, its first harmonics are the micromotion of the zeroth, and the other harmonics are small. All errors have explicit bounds of higher order in the strength of the drive.", "quantifier": "all systems, positions off the electrodes without rf field, ion masses and charges, frequencies, cutoffs of at least one, and modes, for drives weaker than a fixed bound", "why_tests_cant": "a test compares the two frequencies for one trap and one drive; the order of the error and its bound are statements about all", "anchors": ["electrode/system.py: System.mathieu, System.modes, System.rf_scale", "electrode/utils.py: mathieu"]}
{"id": "C142", "title": "The potential in any small region determines the voltages", "statement": "For polygon electrodes, with or without a cover: if the electrical potentials of two systems agree in a region above the plane, however small, they agree everywhere above the plane (and below the cover) and the plane has the same voltages off the edges. For electrodes that do not overlap, two sets of voltages with the same potential in such a region are therefore equal; equal fields, or equal second derivatives, in the region suffice. In every such region there are as many positions as electrodes at which the voltages can set any potentials, in exactly one way. For such electrodes the pseudopotential vanishes in no region unless all rf voltages are zero, and the combined potential is constant in no region unless all voltages are zero; hence potentials of dc or rf voltages have no minimum or maximum, not even a flat one, and the combined potential has no maximum.", "quantifier": "all systems of polygon electrodes, cover heights and numbers of images, dc and rf voltages, positions above the plane, sizes of the region, target potentials", "why_tests_cant": "no number of positions in a region shows that no other voltages give the same potential there, and regions can be arbitrarily small and far away", "anchors": ["electrode/electrode.py: PolygonPixelElectrode.potential", "electrode/expressions.py: polygon_potential", "electrode/system.py: System.electrical_potential"]}
{"id": "C143", "title": "A grid electrode approximates the potential it was sampled from with a known error", "statement": "Let the data of one derivative order of a grid electrode be within some tolerance of the values of a function at the voxels, and let the second derivatives of that function along the axes be bounded in the box of the voxels. Inside the box the potential of the grid electrode is the voltage times the function up to the tolerance plus an eighth of the sum of the bounds times the squares of the spacings; this cannot be improved. In particular a trap of polygon electrodes sampled with electrical_potential and loaded as a grid electrode has the potential, field and curvatures of the trap up to an explicit error that falls with the square of the spacing and with a power of the distance from the electrodes. Derivatives that are not loaded but generated from the order below have an error of at most the bound on the next derivative times the spacing, and the interpolation error.", "quantifier": "all grid data, origins, positive spacings, derivative orders, voltages, positions in the box; all traps of polygon electrodes of bounded voltage, all boxes away from the electrodes and their images", "why_tests_cant": "a comparison at sampled positions says nothing about the positions in between, and cannot show how the error depends on spacing, voltages and distance", "anchors": ["electrode/electrode.py: GridElectrode.potential", "electrode/electrode.py: GridElectrode.generate", "electrode/system.py: System.electrical_potential"]}
{"id": "C144", "title": "Motion in a static potential conserves energy", "statement": "A motion whose second derivatives are those that trajectory hands to its integrator, on any choice of axes, in a static potential off the electrodes, conserves the kinetic energy plus the electrical potential; with an rf drive their sum changes only through the change of the voltages.", "quantifier": "all systems of cover, point and polygon electrodes, all subsets and orders of axes, all such motions, all pairs of times", "why_tests_cant": "a numerical integration of some motions has its own errors and covers finitely many systems, starts and times", "anchors": ["electrode/system.py: System.trajectory", "electrode/system.py: System.time_potential"]}
{"id": "C145", "title": "The vectors of shims are knobs for the potential", "statement": "Adding t times the vector that shims returns for a derivative to the dc voltages changes that derivative of the electrical and of the combined potential, at its position, by t and leaves all other demanded derivatives as they are, whatever the voltages were before. So if the field at a minimum is demanded, the knobs for other derivatives leave the minimum where it is, and a knob for a component of the field moves it by at most t divided by the smallest curvature. Nearby, the change is the same up to an explicit error proportional to the distance. shims returns such vectors whenever each demanded derivative can be produced alone; for any polygon electrodes there are positions, as close together as one likes, at which the potentials can be demanded.", "quantifier": "all systems of electrodes, voltages, demanded derivatives up to the fifth order and positions, amounts t, pseudoinverses and solvers that do what they promise", "why_tests_cant": "tests check the vectors of some layouts to rounding errors, and not their effect at all amounts, voltages and positions nearby", "anchors": ["electrode/system.py: System.shims", "electrode/system.py: System.optimize", "electrode/pattern_constraints.py: PotentialObjective"]}
{"id": "C146", "title": "Voltages from solve hold an ion on a path", "statement": "If each set of local constraints demands derivatives of the electrical potential at points of a path, in the frame of the trap or in a rotated one, or weighted sums of them (equal to, at least, at most a number), and bounds of the voltages, row k of the voltages solve returns does all that is demanded at point k, the voltage differences stay below the bounds of the global constraints, and no other such voltages have a smaller weighted sum of differences. If the demanded field balances the pseudopotential, point k is an equilibrium of the combined potential with row k. If the voltages may differ by at most delta from row to row, then all the way from row k to the next there is a minimum within 2 delta / (z0 lambda) of point k, for polygon electrodes that do not overlap, heights of at least z0 and curvatures of at least lambda. solve succeeds whenever all voltages are bounded and there are voltages that do all that is demanded.", "quantifier": "all systems of electrodes, paths, demanded derivatives up to the fifth order, bounds, orders, norms and weights of voltage differences, and solvers that do what they promise", "why_tests_cant": "tests run single waveforms at their rows, not all layouts, paths and voltages in between", "anchors": ["electrode/system.py: System.solve", "electrode/pattern_constraints.py: PotentialObjective", "electrode/pattern_constraints.py: PatternRangeConstraint", "electrode/pattern_constraints.py: VoltageDerivativeConstraint", "electrode/pattern_constraints.py: MultiPotentialObjective"]}
{"id": "C147", "title": "Changing voltages change the energy of an ion by no more than the charge times the change", "statement": "For polygon electrodes that do not overlap, an ion above them, and forces from the gradient of the combined potential with the dc voltages of the moment: a jump of the voltages by at most delta changes the energy of the ion (kinetic energy plus charge times potential) by at most charge times delta; while the voltages change by at most r per unit of time, the energy changes by at most charge times r t in the time t; going straight from one row of voltages to another that differs by at most delta changes the energy by at most charge times delta, however fast. An ion that starts in a well (curvatures of at least lambda in a ball of the radius R around the minimum) with the energy e above the minimum is, at the time t, within the distance given by lambda d^2 / 2 = e / charge + 2 r t of the minimum as long as this is less than R. Such motions exist; for steadily changing voltages they last the whole time in which the ion is known to stay in the ball. For two consecutive rows of a table from solve under a VoltageDerivativeConstraint with order 1 and maximum delta: an ion in a well of the first row whose energy above the minimum, plus twice charge times delta, is below the height at the distance R has a motion while the voltages go straight to the next row, in whatever time, every such motion stays in the ball, and its energy changes by at most charge times delta. For a whole table of rows, each with a well at most a from the next: if the energy above the first minimum plus twice charge times delta per step is below the height at the distance R - a, the ion is carried along all rows (a motion exists, every motion stays within R of the well of the row), and its energy changes by at most charge times delta per step. The motions between the rows make up one motion for the whole time, while the voltages go straight from row to row. If all rows differ by at most Delta from voltages with a well, small Delta, each row has a well of half the radius and half the curvature at most 2 Delta / (z lambda) away.", "quantifier": "all layouts of polygon electrodes that do not overlap, rf voltages, courses of dc voltages, positions above the electrodes, velocities, times and charges", "why_tests_cant": "the motion during a change of voltages depends on all times in between and on arbitrary courses of the voltages; tests integrate single trajectories", "anchors": ["electrode/system.py: System.potential", "electrode/system.py: System.trajectory", "electrode/system.py: System.with_voltages", "electrode/system.py: System.solve", "electrode/electrode.py: PolygonPixelElectrode"]}
{"id": "C148", "title": "Voltages from solve give the ion the modes that were asked for", "statement": "If at a point of a path, off the electrodes, two curvatures and the three mixed second derivatives of the electrical potential in a frame of three axes at right angles are demanded, each less the part of the pseudopotential, then with the voltages solve returns for this point the axes of the frame are the principal axes of the combined potential, with the demanded curvatures; the third curvature is what the rf field makes it. modes reports these curvatures in ascending order, and where a curvature differs from the other two it reports the axis that was asked for or its opposite. Whatever modes a trap has with some voltages of at most M can be asked for together with the bound M, and solve finds voltages with these modes. If no force and three positive curvatures are demanded, the voltages of that row hold an ion there: the point is a strict minimum and the only point without force nearby, and an ion with little energy moves forever without leaving its surroundings; it oscillates along the demanded axes with the frequencies of the demanded curvatures, up to an error of the second order in the amplitude. If for each point of a path there are voltages of at most M that do this, asking for it with the bound M succeeds, and every row holds an ion at its point. With a VoltageDerivativeConstraint between the rows, the voltages, gone through in straight lines in any time, carry an ion along the whole path: an explicit condition on its energy, the curvatures asked for, the largest voltages, the height, the largest step of a voltage and the distance of the points is enough for a motion to exist and for none to leave the wells.", "quantifier": "all systems of electrodes, positions, frames, curvatures, rf scales and solvers and eigenvalue routines that do what they promise", "why_tests_cant": "tests run single traps with single frames, and compare with a tolerance", "anchors": ["electrode/system.py: System.solve", "electrode/system.py: System.modes", "electrode/pattern_constraints.py: PotentialObjective"]}
