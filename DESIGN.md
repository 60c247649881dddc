# Formal model of wwcphy/electrode in Lean 4

## Approach

The Python sources in `/repo/electrode` are modelled function by function as
total Lean functions in `lean/Verif/Model/*.lean`.  Each definition cites the
file and lines it models and says what it simplifies.  Specifications that do
not use the model's helpers live in `lean/Verif/Spec/*.lean`; helper lemmas in
`lean/Verif/Lemmas/*.lean`; property theorems, one group of properties per file
and each with a concrete instance of its hypotheses, in
`lean/Verif/Props/*.lean`.

General modelling decisions:

* floating point numbers are exact reals (`ℝ`), except in C122, where every
  operation of the potentials of points and polygons has a rounding error;
  index tables, names and control flow are exact.  Where only ring structure matters the model is polymorphic
  in the scalar ring.
* a numpy array of rows is a list of rows; in-place accumulation into `out` is
  a function from the old rows to the new rows.
* Python exceptions are values: `Except PyErr α`.  The message is dropped, the
  exception class is kept.
* mutable electrodes are a heap (a function or list of records indexed by
  electrode identity), so that sharing one electrode twice in a `System` is
  visible.
* scipy, cvxopt, shapely, gdsii and matplotlib are outside the model.  Where
  their results matter they are parameters, and what is assumed of them is a
  hypothesis of the theorem that uses it.

## Trusted base

* Lean 4.33.0's kernel; Mathlib's definitions of `ℝ`, `sqrt`, `arctan`, `π`,
  `deriv`, `HasDerivAt`, `Matrix`.
* Axioms: only `propext`, `Classical.choice`, `Quot.sound`.  No axiom of our own,
  no `sorry`, no `native_decide`, no `bv_decide`.
* The faithfulness of the hand transcription of the Python text to the Lean model,
  and of floating point to real arithmetic.  For the potentials of points and
  polygons the latter is replaced by the assumption of C122: every operation has
  a relative error of at most `u`, nothing overflows or underflows, the compiler
  keeps the order of the operations and does not fuse them.  A power is one
  operation; if it is computed by multiplications `u` is that of the product.

## Properties: plan

| id | modelled | proof method |
|----|----------|--------------|
| C01-C02 | `_derivative_names`, `_populate_maps`, `expand_tensor`, `select_tensor` | table facts by kernel evaluation over the whole finite table, lifted to all values generically |
| C03 | `find_laplace` on lists of any length | permutation reasoning on symmetric functions of lists |
| C04 | `idx_to_nidx`, `name_to_idx`, `idx_to_name` | induction on the tuple |
| C05-C07 | `name_to_deriv`, `deriv_to_name`, `construct_derivative`, `deriv_to_reduced_idx` | whole-table evaluation, lookup lemmas for unknown keys |
| C08-C09 | `rotate_tensor` as axis-by-axis contraction on nested tensors | induction on the number of axes |
| C10 | `area_centroid` on vertex lists | cyclic sum lemmas, induction; the integral of the winding number edge by edge |
| C11, C14 | `point_potential_expr`, `_point_potential` | `HasDerivAt` computations, field arithmetic, induction over the pixel list |
| C12-C14 | `edge_potential_expr`, `_polygon_potential` | per edge `HasDerivAt` plus a telescoping term; closed sums |
| C15-C25 | electrode classes | list inductions over the accumulate loops; algebra of the edge formulas |
| C26-C31, C34 | `System` methods | list inductions; state-passing model of `with_voltages` |
| C32-C33 | `pseudo_potential` | calculus of products; transposes as index permutations |
| C35 | objective/gradient closures of `minimum`, `saddle` | chain rule; counterexample for `saddle` |
| C36-C37 | `group` | induction; cover parameters kept as hypothesis |
| C38-C40 | matrix assembly of `optimize`, `shims`, `solve`; the LP solver is a parameter | linear algebra over finite sums |
| C41-C42 | Floquet block matrix | index arithmetic on the reshaped matrix |
| C43 | ordering step of `modes`; eigen-solver is a parameter | permutation lemma |
| C44 | the stepping loop; the integrator is a parameter | induction on steps |
| C45 | `rfo` loop with the eigen-solver as parameter | loop invariant |
| C46-C50 | `pattern_constraints.py` | linear algebra, finite differences |
| C51-C53 | `Grid`, `GridElectrode` with linear interpolation written out | algebra, convexity |
| C54-C57 | index map, discrete transforms, coordinate transforms | induction, trigonometric identities |
| C58-C59 | `Mathieu` class on finite coefficient lists | recurrences, calculus |
| C60-C63 | polygon bookkeeping with set operations as parameters | list inductions |
| C64-C66 | `adjust.py`, `adaptive.py`, `xic.py` control flow | state machine invariants, list inductions |
| C67-C68 | `euler_matrix`, `euler_from_matrix`, quaternion functions | relabelling of the axes, then two explicit matrices; the quaternions of Mathlib as specification |
| C82-C85 | `quaternion_from_euler`, `quaternion_from_matrix`, `quaternion_slerp`, elementary matrices | products of axis quaternions; the table of products of components has rank one; trigonometric identities |
| C69 | `cartesian_to_spherical_harmonics` with exact square roots; real solid harmonics defined from Legendre polynomials in spherical coordinates | solid harmonics are polynomials (all degrees); the Taylor term of a symmetric tensor and its derivatives by induction on the order; one polynomial identity per order up to 5; linear algebra for the bijection |
| C70 | `plot_contour` up to the call of matplotlib, with both behaviours of numpy for ragged arrays | inversion of the call, then cases on the plane |
| C86 | the polygon potential against surface integrals of winding numbers (Spec/Region) | each edge term is, up to a telescoping difference, an integral over the strip left of the edge; arguments of complex numbers for the limits |
| C87 | `cexpressions.pyx` polygon and mesh kernels; the Python kernels with divisions by zero made visible | `atan2` of a positive second argument is the arctangent of the quotient; positivity from the triangle inequality |
| C88 | `ions`: the three functions given to the minimiser, with numpy's masked arrays | sums over pairs, calculus; the shapes in the Hessian do not fit unless there are three ions |
| C89 | `_analyze_static` as a generator of lines with numbers, ended by an exception or not; the library and `saddle` are parameters | inversion of the run; each line against a small specification in SI units; counterexamples for heating rates, Euler angles, several ions, closing |
| C90 | `from_data` over a geometry library that is assumed to compute with plane regions (up to sets of measure zero) | induction over the polygons; the rest as a set; rounding with logarithms |
| C91 | `to_gds` and `from_gds` on the elements of a library, with any function for what the file does to coordinates | fold invariants; what is read as filters of the elements; the round trip composes both; counterexamples for holes, names, routes, missing structures |
| C92 | the methods over a geometry library that shrinks, intersects, unites as documented | midpoint argument for distances; the rest is elementwise |
| C93 | as C86 and C10 | Taylor's formula along the line from the centroid; the first order vanishes by the choice of the centroid; nothing is enclosed outside of the bounding box; the derivatives in the same way, with the integrals of C127 |
| C94 | the loop over the arrays of the file, the reshaping and `generate`; the reader and the file system are parameters | induction over the arrays; the index arithmetic; C52 and C53 |
| C95 | both grid classes; the harmonics of C55 | transposition; trigonometry; synthesis and analysis are inverse (C55) |
| C96 | what is handed to matplotlib: vertices and codes of paths, discs, texts, colors | parsing of paths by induction; winding numbers; the maximum as a fold |
| C97 | `projection_matrix` with its four cases | image of a point up to its homogeneous coordinate; polynomial identities modulo the length of the normal |
| C98 | `clip_matrix` | the image is an affine function of each coordinate (divided by depth) |
| C99 | `shear_matrix` | as C85 |
| C100 | `orthogonalization_matrix`; `math.sqrt` raises ValueError | scalar products of the columns; Lagrange's identity for the parts orthogonal to one edge |
| C101 | `compose_matrix`, `decompose_matrix` | the orthogonalisation of the rows has exactly one answer; the angles as in C67; the last row by the inverse matrix |
| C102 | the matrix functions of `transformations.c`, entry by entry | equality of the sixteen entries with the model of the Python function; counterexamples where they differ |
| C103 | `axis2tuple` with the numbers of its `switch`, the compiled Euler and quaternion functions, with the content of new arrays before as a parameter | the number of a string determines the string; the case of the 24 tuples; rows of the table of products as in C83 |
| C104 | the loops of `invert_matrix` for any size and the closed forms of sizes 1 to 4 | invariant of the elimination (permuted matrix = lower times upper triangle plus remainder, multipliers at most one), induction over both substitutions; a refused pivot gives a vector that shows how near to singular the matrix is |
| C105 | the state of an `Arcball` and one step per call, with both sets of functions | invariant over all histories (unit quaternions, unit axes, press point at right angles to the axis); the product of two pure unit quaternions is two half turns; the nearest axis by induction over the list |
| C106 | the five functions with `numpy.linalg.eig` as a parameter that satisfies `Spec.EigOf` (unit eigenvectors, real for real eigenvalues, all roots of the characteristic polynomial); such a function is shown to exist | all these maps but the rotation and the perspective move points along one direction (`along`), so their eigenvalues solve a quadratic equation; the chosen eigenvectors are then known up to a factor of absolute value one; for the rotation the eigenvalues are one or have the cosine as real part |
| C107 | `affine_matrix_from_points` for any number of dimensions and points; `svd`, `pinv`, `eigh` and `argmax` are parameters with their specifications (`Spec.IsRegLib`), and such functions are shown to exist (this includes that every real matrix has a singular value decomposition, `exists_isSvd`) | the sum splits into one about the centroids and one of the centroids; with the decomposition the covariance is a weighted trace of an orthogonal matrix, at most the sum of the weights, and less by twice the last weight if the determinant is -1 (the matrix reverses a direction); the method of Horn is the largest eigenvalue of a quadratic form in the quaternion; with shear the first rows of `vh` have the form (x, L x) |
| C108 | the exponent as a function of the last value of the integration, which is taken to be exact: the solution of the equation (`Spec.SolvesMathieu`), shown to exist for all times and to be unique; accuracy of `solve_ivp` is not modelled; that of the expansions in q is C113 | `Lemmas/LinearOde` has existence and uniqueness; symmetry under reflection and shift gives y(t+π)+y(t-π) = 2 y1(π) y(t) for every solution; from this an invariant quadratic form (bounded) or a growing sequence (unbounded) |
| C109 | the expressions of cvxopt by their values and by whether they are known to be convex; slices as in Python; the arrays `pots` as a state that a constraint may change; the specification has finite differences by recursion on the order, on a path that is mirrored at both ends | each list of windows is compared with the recursion, index by index; the points are visited by induction |
| C110 | `random_quaternion` as a function of its three numbers, which are distributed by the product of three uniform measures; the uniform distribution of rotations is specified by invariance | polar coordinates in two planes turn the volume of the unit ball in four dimensions into the integral over the three numbers; the volume is invariant; left and right multiplication by unit quaternions gives the rotations; uniqueness by exchanging two integrals |
| C111 | vectors of any dimension, arrays with two dimensions and broadcasting of columns; nan as `none`; the specification is the norm and the angle of Mathlib's Euclidean space | inequality of Cauchy and Schwarz for `arccos`; the triangle inequality for lines from that for all choices of directions; components for the vector product; induction on the list of matrices |
| C112 | the Householder steps, the bisection (with fuel), the four candidates for the eigenvector and the two functions of the compiled extension, in real arithmetic | orthogonal similarity of the tridiagonal matrix up to the tolerance; Sylvester's law by completing squares along the pivots; the candidates are the columns of the adjugate, so that the residual is the determinant; Rayleigh quotients against the optimal rotation of C107; explicit points for the failures |
| C113 | the two closed formulas of `Model/Mathieu` against the exact solution of the equation (`Spec.SolvesMathieu`, see C108) | explicit expansions of the solution in q (and in a, of the order of q²) to second and to fourth order; Gronwall's inequality bounds the distance of the solution from the expansion over a period; the arc cosine is Lipschitz away from its ends, and near 1 its square is |
| C114 | `nu_exp_det` and `nu_tolerance` of `Model/Mathieu`, with the division by zero of the code, against the exact solution of the equation (`Spec.SolvesMathieu`, see C108) | Hill's theorem. `Lemmas/Continuant`: determinants of tridiagonal matrices and their limits; `Lemmas/HillTail`: the two tails of the infinite determinant Δ(v) and its period; `Lemmas/HillFormula`: Δ(v) (cos πv − cos π√a) − cos πv is constant by Liouville's theorem, the poles being removed; `Lemmas/HillFloquet`, `Lemmas/HillSeries`: where Δ vanishes, the recurrence has a decaying solution whose Fourier series solves the equation, which gives the constant; `Lemmas/HillLimit`: odd squares by continuity in a (Gronwall) |
| C115 | `Model/AdjustMove`: `set_move_init`, `xm_freq_change`, `propose_move`, with the exceptions of the comparisons with `None` and the state they leave behind; minimiser, `eigh`, `argsort` and linear solver are parameters (`MoveLib`) | axes: from C43 and the permutation of the sorting; labels: for every valid `eigh` there is one with the opposite signs; proposals: the voltages of a second configuration of the same electrodes override the first (`setFirst`); histories: induction on the sequence of calls with the invariant `Ready` |
| C116 | `Model/SelfCheck`: `check_orthogonality`, `check_identity`, the grids, `sum_c`; a failed `assert` is an exception; the coefficients come from the model of C58 | the check unfolds to a statement on all pairs; exactness of the quadrature (C55) and the single-harmonic round trip give the passes; `sum_c`: telescoping of the recurrence (C58) |
| C117 | `Model/Smooth`: `smooth`, `Polygons.smooth`; `splprep`/`splev` are a parameter (`SplineLib`); `arctan2` is the argument of a complex number, `%` is the floored remainder | lengths and parameters: sums of distances; weights: the remainder of a difference of arguments is the angle of turn in [0, 2π); contracts of the spline (`Periodic`, `Interpolates`) are shown satisfiable by `exSpline` |
| C118 | `Model/Orient`: `orientations` of all classes | the potential and the area are integrals of the winding number (C10, C86) with positive weights, so that they vanish or are positive together; explicit path for the counterexample |
| C119 | `Model/Helpers`: `shaped`, `shaper`, `norm`, `DummyPool`, the substitute for `minimize`, `_import_module`; arrays with any number of dimensions in row-major order; calls as functions that change a state; global names as a partial function | row-major positions by induction on the shape; induction on the sequence of calls and on the list of names |
| C120 | `Model/VectorsC`: both versions of `vector_norm` and `unit_vector` for arrays of any shape, with `axis` and `out`; the random numbers as a function of two words; compiled random quaternions and rotations. The words of the generator are assumed uniform and independent | row-major positions by induction on the shape; counting pairs of words; algebra |
| C121 | the images of `Model/Expressions` (C11, C86) | the potential of a surface element is an integral of `x/(x²+σ²)²`, whose sum over all images is known from the series of the cotangent and positive; the images first add and then subtract, so that finitely many give at least the smaller of none and all; a cover at h is one at 2h minus a positive term, which gives the screening; the error from the derivative in z |
| C122 | `point_potential`, `polygon_potential`, `mesh_potential`, `CoverElectrode.potential` and the sum over the electrodes of a system with every operation replaced by one of an arithmetic that is a parameter | the standard model of rounding errors: values are equal up to a factor between b^-k and b^k, or up to (b^k - 1) times the size of the terms; the polynomials of the source are walked through by a recursion that counts the roundings and bounds the terms; the loops by induction; `(r1+r2)^2-l^2`, which cancels, by the clearance; rounding to the nearest with t digits is shown to be such an arithmetic |
| C123 | the model of C13 and C86; the electrostatic problem is a specification of its own (`Spec/Problem`): Laplace equation, decay, values on the plane off the edges | existence: each edge term is continuous up to the plane off the edge and falls with the distance; uniqueness: a maximum principle for the half space, in which the edges are kept away by logarithms of the distances from the lines through them |
| C124 | the same with images | the maximum principle between the planes compares the images with any solution: on the cover all images cancel but one, which is bounded by area over height squared; existence: the series of images is differentiated term by term, by bounds of the derivatives of the surface integral |
| C125 | the models of C26, C31 to C34 and C43; nothing new is modelled | the expanded tensors are derivatives and traceless (C13, C14, C33); a weak maximum principle for bounded regions and, with the barrier of Hopf, the strong one; the trace of the pseudopotential tensor is a sum of squares because the third derivatives are traceless |
| C126 | the models of C10, C14, C26, C31 to C34; motions of the plane are a small specification (`Spec/Layout.lean`) | the order zero terms of pixels and edges depend only on lengths, scalar and cross products; the higher orders follow because the tensors are derivatives (C13, C14, C33): a tensor field whose first member is invariant turns with the position |
| C127 | the models of C10, C14, C26, C31, C86, C91; distances, boundary lengths and near electrodes are a small specification (`Spec/Tolerance.lean`) | derivatives of the integral of C86 under the integral sign (`Lemmas/ShapeError.lean`), bounded with the numerators of the pixels; two closed paths with near corners differ by two triangles per side, whose areas bound the area between them (`Lemmas/Corners.lean`) |
| C128 | the models of C10, C14, C26, C31, C86; distances and areas are a small specification (`Spec/Distant.lean`) | the integrals of C127 with the bound of the kernel at the distance of the region; images in the cover are at least (2m-1)h away, telescoping sums |
| C129 | the models of C14, C34, C43, C73 and of rf_scale; enlarged electrodes are a small specification (`Spec/Similar.lean`) | homogeneity of the kernels (C19) for all shapes, then of the products in the pseudopotential; sorted curvatures are the roots of the characteristic polynomial |
| C130 | the models of C34, C35, C43; lengths, balls and curvatures in a region are a small specification (`Spec/Robust.lean`); the minimiser is a parameter with a tolerance for the gradient | mean value theorem along lines with the derivative theorems of C34; compactness for existence |
| C131 | the models of C34 and C89; the equations of motion in the pseudopotential are a specification (`Spec/Motion.lean`), they are not part of the code, whose trajectories use the rf drive itself (C74) | derivative of the energy, first time of leaving; Picard-Lindelöf with a common step over a compact set |
| C132 | the models of C31, C33, C34 (`time_potential`, `pseudo_potential`, `rf_scale`); the equations of motion in the oscillating field are a specification (`Spec/Averaging.lean`) | averaging: change of variables that removes the terms of order 1 in the fast phase, then Gronwall; first time of leaving and Picard-Lindelöf for existence |
| C133 | the models of C01, C03, C29, C31 (polygon electrodes, sums over electrodes, pseudopotential); `Spec/Limits.lean` has the voltage as a map of the plane | potentials and derivatives are integrals of the voltage times those of a surface element; its potential is positive with the integral 1, its gradient and derivatives are at most 2 / z times and 2 c / z^d times its potential; minima with C130. `Props/RingTrap.lean` has a trap of polygons that meets the hypotheses; reach of a well: mean value theorem for second derivatives along a segment, third derivatives bounded by those of C133 and the product rule of the pseudopotential (`c133_well`) |
| C134 | `Model/RoundedSystem.lean`: `expand_tensor`, `pseudo_potential`, `potential` and `time_potential` with the arithmetic of C122 as a parameter; the contraction of two fields by einsum is a parameter too, with an error bound that the plain loop meets (`c134_loop`) | errors are followed through the expansion, the products and the sums with the calculus of C122; the minimum with C130. Underflow and overflow are outside the arithmetic |
| C135 | the models of C29 and C34; `Spec/Expansion.lean` has the polynomial as a sum over all sequences of axes | a chain of derivatives along the segment (C29, C34), Taylor's theorem by induction on the order, bounds of C133 |
| C136 | the models of C34, C43 and C89; equations of motion as in C131 and C132; `Spec/Oscillation.lean` has the harmonic motion | the force along a mode is that of a spring up to the second order (C135); variation of constants bounds the effect of the rest; existence from C131, the driven motion with C132. Times are finite, the bound grows with time |
| C137 | the models of C43, C89, C134 and `Model/RoundedModes.lean` (`modes` with rounding errors); `Spec/ModeShift.lean` says what is assumed of `eigh` in floating-point arithmetic | eigenvalues of symmetric matrices by comparing quadratic forms on a vector common to two subspaces; directions from the components of the changed eigenvector; with C133 (voltages), C135 (positions) and C134 (rounding) |
| C138 | `Model/TraitOffset.lean`: `OffsetPotentialConstraint`; the electrodes are objects with the attribute `voltage_dc`, if they have it, and the method `electrical_potential` | the loop over the electrodes by induction, then as C109. Violated: the electrodes of the package have no such attribute, so the constraint always raises AttributeError (`c138_attribute_counterexample`), and a failure in the loop leaves an electrode at one volt (`c138_restored_counterexample`) |
| C139 | no new definitions of the code; motion in the oscillating field as in C132 | rest: the force at two phases; staying at rest: Grönwall; micromotion: C132 for the ion that rests in the combined potential, and the rf field is Lipschitz; voltage errors: C130, C133 and C135 |
| C140 | no new definitions of the code; modes as in C73, motion in the oscillating field as in C132 | C73 gives the residual of a mode in the linear equation, C135 the nonlinear part of the force; Grönwall; existence by continuation as in C132; the recurrence of C41 bounds the harmonics; the case with a mode is built from a solution of the recurrence for the cutoff 1 |
| C141 | no new definitions of the code; modes of `mathieu` as in C41 and C73, of the pseudopotential as in C43 | the recurrence of C41 bounds the harmonics other than the zeroth by it; eliminating the first harmonics leaves the equation of the pseudopotential for the zeroth, with a bounded residual; an approximate eigenvalue of a symmetric matrix is close to an eigenvalue |
| C142 | no new definitions of the code; `Spec/Determine` | the closed formula of the potential is analytic off the planes (`Lemmas/PolyAnalytic`), so that equality continues from a region to the whole space, and its limits at the plane are the voltages (C86); a constant or affine difference is zero because potentials vanish far away to the side (C128); the sum of the second derivatives of the combined potential is a sum of squares (C125), so where it is constant the second derivatives of the rf potential vanish; linearly independent functions are independent at finitely many positions |
| C143 | no new definitions of the code | linear interpolation between the ends of an interval differs from a function by at most an eighth of the bound on its second derivative times the square of the length, because the function plus or minus a parabola is convex; interpolation along three axes adds the three errors, since it never enlarges differences; the bounds for traps come from C133, the error of generated data from the mean value theorem of C53 |
| C144 | no new definitions of the code; the motions are specified in `Props/TrajEnergy` (`FollowsCode`) | chain rule along the motion from smoothness of the potentials (`Lemmas/SysSmooth`), the acceleration from C74. The sign in `trajectory` is wrong (C74), so that the code conserves kinetic energy minus potential; counterexample to the stated property proved |
| C145 | no new definitions of the code | linearity in the voltages (C26) with the rows of C48 and C39; existence of an optimum of the linear problem by compactness, where a small multiple of the pseudoinverse solution is feasible (`Props/ShimsSucceed`, also C38 and C39); the shift of the minimum by C130, the error nearby by C135. `optimize` ignores the last objective (C38), so the theorems leave it out; counterexample proved |
| C146 | `solve` with the real constraints (`Model/SolveSets`): the loop over sets with its exceptions, the numpy array that ends up as objective, what cvxopt refuses | the meaning of each constraint from C46 to C50, the union from C40; the equilibrium from C27 and C28, the motion between rows from C133; existence of an optimum by compactness, where the differences are continuous because `voltDeriv` commutes with linear maps |
| C147 | `withDc`, `totalAt` (System.lean), the motion as a differential equation (`RampPath`) | the potential is linear in the dc voltages, so the energy changes at the rate charge times potential with the voltages' rates of change (`energy_ramp`), and this is at most the largest rate (C133); first exit from the ball as in C131; existence by Picard-Lindelöf with time as a further coordinate; a motion that cannot leave the ball is continued in steps of one length, which a compact set of states allows (`lasts`), so it lasts (`c147_lasts`); the bound on the steps between rows is read off what `solve` keeps, C146 (`c147_table`); a table is followed by induction on its rows, the energy above the minimum growing by at most 2 charge delta per row (`c147_journey`, `c147_carried`); the legs are joined to one solution (`c147_whole`); wells of the rows from one well by the bounds on minima and curvatures of C133 (`c147_wells`) |
| C148 | the models of C43 (`modes`), C48 (`PotentialObjective` with a rotation) and C146 (`solve`) | five demands make the second derivatives diagonal in the frame, the sixth follows from the Laplace equation (C125); equal matrices have equal curvatures and axes (C137 with no difference); existence from C146; that the ion is held follows from the curvatures near the point (C130) and the conservation of energy (C131), the frequencies from C136; transport (`c148_carries`): the axes and curvatures of each row give a bound of the quadratic form at the point, `c133_well` a ball, and `c147_carried` the motion |
| C71 | order dispatch of `pseudo_potential` | case analysis; the documented error is unreachable |
| C72 | closures of `saddle` | chain rule; counterexample for non-symmetric matrices |
| C73 | `System.mathieu`, `rf_scale` | corollary of C41 by rescaling time |
| C74 | `ddx` closure in `trajectory` | the value of the rotated gradient; counterexample for the sign |
| C76 | `nu_exp_det` with its divisions by zero, `nu_tolerance` | writes into the matrix, inverse sine |
| C75 | mode coordinates in `rfo` | orthonormality of the eigenvectors |
| C79 | `volt_change` with the linear solver as parameter | linearity of the gradient in the voltages |
| C77-C78 | `unify_by_name` (union is a parameter), `filter` | list inductions |
| C80 | `transformed_copy` on 4x4 matrices | algebra, shoelace formula |
| C81 | the loop of `adapt_mesh`; triangulation and optimisation are parameters | induction on rounds |

## What is modelled

| module | code |
|--------|------|
| `Model/Tensor`, `Model/Rotate` | `utils.py`: derivative tables, `expand_tensor`, `select_tensor`, `rotate_tensor`, names and indices |
| `Model/Expressions`, `Model/PExpr`, `Model/ExprNum` | `expressions.py` and the generated `_point_potential`, `_polygon_potential` kernels, `area_centroid` |
| `Model/Electrode` | `electrode.py`: voltages, covers, point, polygon, mesh and grid electrodes |
| `Model/System` | `system.py`: item access, `with_voltages`, potentials, `minimum`, `saddle`, `group`, `rf_scale` |
| `Model/Constraints` | `pattern_constraints.py`, `optimize`, `shims`, `solve` |
| `Model/Grid` | `grid.py`: `Grid`; `GridElectrode.from_result` |
| `Model/Spherical` | `spherical_harmonics.py`: coordinates, derivatives, index map, analysis and synthesis |
| `Model/Polygons` | `polygons.py`: pads, overlaps, conversion from and to systems, `filter`, `unify_by_name`; set operations are a parameter |
| `Model/Adjust` | `adjust.py`: voltage histories, `construct_config`, `volt_change`, `next_step` |
| `Model/AdjustMove` | `adjust.py`: `set_move_init`, `xm_freq_change`, `propose_move` |
| `Model/Orient` | `electrode.py`: `orientations` |
| `Model/Rounded` | `expressions.py`, `cexpressions.pyx`: `point_potential`, `polygon_potential`, `mesh_potential`; `electrode.py` `potential` of covers, points, polygons and meshes; `system.py` `electrical_potential`; all in floating-point arithmetic |
| `Model/RoundedSystem`, `Model/RoundedModes` | `utils.py` `expand_tensor`; `system.py` `pseudo_potential`, `potential`, `modes`; in floating-point arithmetic |
| `Model/SelfCheck` | `spherical_harmonics.py`: `check_orthogonality`, `check_identity`, grids; `mathieu.py` `sum_c` |
| `Model/Smooth` | `polygons.py`: `smooth`, `Polygons.smooth`; the spline routines are parameters |
| `Model/Helpers` | `utils.py`: `shaped`, `norm`, `DummyPool`; `system.py` substitute for `minimize`; `transformations.py` `_import_module` |
| `Model/VectorsC` | `transformations.c`: `py_vector_norm`, `py_unit_vector`, `random_doubles`, `py_random_quaternion`, `py_random_rotation_matrix`; `transformations.py`: `vector_norm`, `unit_vector` |
| `Model/Adaptive` | `adaptive.py`: all functions; `triangulate` and `System.optimize` are parameters |
| `Model/Xic` | `xic.py`; `float` is a parameter, Python 2 and Python 3 are told apart |
| `Model/SphDeriv` | `utils.py` `cartesian_to_spherical_harmonics`, column by column |
| `Model/Contour` | `system.py` `plot_contour`: the arguments of the call of matplotlib |
| `Model/Kernels` | `cexpressions.pyx`: polygon and mesh kernels (the point kernel has the same text as the Python one); `expressions.py` polygon kernel with divisions by zero and IndexError as failure |
| `Model/Ions` | `system.py` `ions`; `fmin_ncg` and `eigh` are parameters |
| `Model/Analyze` | `system.py` `analyze_static`, `_analyze_static`: which lines with which numbers; the text of the lines and the logging are left out |
| `Model/PolyData` | `polygons.py` `from_data`, `from_gds`, `to_gds`, `add_gaps`, `simplify`, `unify`, `restrict`, `within`, `validate`, `gaps_union`; the geometry library and the file format are parameters; logging is left out |
| `Model/Vtk` | `electrode.py` `GridElectrode.from_vtk`; `grid.py` `UnstructuredGrid`, `SphericalGrid`; `tvtk` and files are parameters |
| `Model/Plot` | `electrode.py` `plot` of all electrodes; `system.py` `plot`, `plot_voltages`; `colors.py`; line styles, transparency and what matplotlib does are left out |
| `Model/Project` | `transformations.py` `projection_matrix`, `clip_matrix`, `shear_matrix`, `orthogonalization_matrix`, `compose_matrix`, `decompose_matrix` |
| `Model/TransformC` | `transformations.c` `is_same_transform`, `reflection_matrix`, `rotation_matrix`, `projection_matrix`, `clip_matrix`, `scale_matrix`, `shear_matrix`, `orthogonalization_matrix` |
| `Model/QuatC` | `transformations.c` `axis2tuple`, `euler_matrix`, `euler_from_matrix`, `quaternion_from_euler`, `quaternion_about_axis`, `quaternion_matrix`, `quaternion_multiply`, `quaternion_conjugate`, `quaternion_inverse`, `quaternion_from_matrix` (precise), `quaternion_slerp` |
| `Model/InverseC` | `transformations.c` `inverse_matrix`, `invert_matrix`, `invert_matrix22`, `invert_matrix33`, `invert_matrix44` (not: the choice whether the array is copied first) |
| `Model/Arcball` | `transformations.py` class `Arcball`, `arcball_map_to_sphere`, `arcball_constrain_to_axis`, `arcball_nearest_axis`, and the compiled versions of the first two (not: sharing of arrays between attributes) |
| `Model/FromMatrix` | `transformations.py` `reflection_from_matrix`, `rotation_from_matrix`, `scale_from_matrix`, `projection_from_matrix`, `shear_from_matrix` (`numpy.linalg.eig` is a parameter; a result with nan is `none`) |
| `Model/Register` | `transformations.py` `affine_matrix_from_points`, `superimposition_matrix` (the functions of numpy are parameters; the compiled version of `superimposition_matrix` is in `Model/EigenC`) |
| `Model/TraitCon`, `Model/TraitOffset` | `constraints.py`; `OffsetPotentialConstraint` uses an attribute `voltage_dc` that electrodes do not have (the module needs `np.int` and `traits` and is not imported by the package) |
| `Model/Vectors` | `transformations.py`: `random_quaternion`, `random_rotation_matrix`, `vector_norm`, `unit_vector`, `angle_between_vectors`, `vector_product`, `concatenate_matrices`, `is_same_quaternion` (not: the argument `out`) |
| `Model/EigenC` | `transformations.c`: `tridiagonalize_symmetric_44`, `max_eigenvalue_of_tridiag_44`, `eigenvector_of_symmetric_44`, `superimposition_matrix`, `quaternion_from_matrix` without `isprecise` (not: conversion of arguments, memory) |
| `Model/Transform` | `transformations.py`: Euler matrices and angles, quaternions, slerp, rotation, reflection, scale and translation matrices; `eigh` and `argmax` are parameters |
| `Model/Mathieu` | `mathieu.py`: exponents by determinant, by expansion, and from the exact solution (`solve_ivp` is not modelled), coefficients, solutions |
| `Model/Dynamics` | `utils.mathieu`, `System.mathieu`, `modes`, `trajectory`, `saddle.rfo` |

External code that appears as a parameter, with what is assumed of it: `scipy.linalg.eig` (`IsEig`), `eigh` (`IsEigh`),
`argsort` (`IsArgsort`), `pinv` (`IsPinv`), the linear and quadratic program solvers, the integrator `qc.theory.gni`.  `scipy.special.p_roots` is assumed to be an exact quadrature (`GaussLegendre`), `lpmn` to be the associated Legendre functions,
`numpy.fft` to be the discrete Fourier transform, `shapely` to compute set operations up to area zero (`Spec.Faithful`), `scipy.linalg.solve`
to return solutions (`Spec.Solves`).  For each of these hypotheses a function that meets it is exhibited (`exists_isEig` and so on).

Not modelled: three-dimensional plots, file formats other than those named above,
the numexpr variant of the kernels beyond the expressions it shares, logging, printing.

## Where the code does not do what a user would expect

Each item is a theorem about the model unless it says "noted".

* C25: electrical potentials of order 6 and above of point and polygon electrodes are zeros instead of an error
  (`c25_silently_wrong`).
* C30: when assigning dc voltages fails on entry of `with_voltages`, the rf voltages stay changed (`c30_dc_failure_leaks_rf`).
* C35: an integer start position truncates the points (`c35_integer_start_truncates`).
* C38, C39: `optimize` drops the last row of the projected equations (`c38_last_objective_ignored`, `c39_last_objective_leaks`).
* C40: `solve` overwrites its objective with every local constraint (`c40_objective_overwritten`); the term of a
  `PotentialObjective` with a `value` is an array of coefficients, not a function of the voltages, and ends in TypeError
  (`c40_value_counterexample`).
* C50: `VoltageDerivativeConstraint(min=...)` with absolute values (the default) ends in TypeError (`c50_lower_raises`).
* C45: `rfo` makes one step more than `maxiter` (`c45_one_more`), and its Hessian becomes nan when it was exact along the step
  (`c45_hessian_lost`).
* C53: a grid electrode extended by differences lacks the last order it should have (`c53_last_order_missing`).
* C55: with numpy 1.12 or newer `SphericalHarmonics(nmax)` raises ValueError for `nmax >= 2`, because of an integer array to a
  negative power (`c55_new_numpy`).
* C57: `derivatives_spherical_cartesian` converts displacements, not gradients (`c57_not_gradient`), and orders the spherical
  components `(r, phi, theta)`, not `(r, theta, phi)` as documented (`c57_rates_partial`).
* C59: `Mathieu.init_value` raises TypeError for every start time other than zero (`c59_init_value_fails`); `init_sol` without
  `nc` raises UnboundLocalError unless the mode is `det` (`c59_init_modes`).
* C61: `remove_overlaps` leaves overlaps with an area of at most 2^-23 (`c61_tiny_overlap`).
* C62: conversion to `Polygons` and back resets voltages and covers (`c62_defaults`), and drops electrodes without exterior
  (`c62_no_exterior`) and holes outside every exterior (`c62_free_hole`).
* C63: `square_pads` with `odd=True` yields pads that stick out of the square (`c63_odd_outside`).
* C64: `next_step(accept=False)` always raises AttributeError and resets nothing (`c64_reject_fails`); with voltages of the user it
  raises after saving them (`c64_userown_fails`); the first saved change must name all electrodes (`c64_first_save`).
* C115: the axis called `axial` is the one with the largest signed `x` component, and the sign of an eigenvector is arbitrary: there is a valid `eigh` for which it is always the axis farthest from `x` (`c115_sign`). The array `System.minimum` returns cannot be passed as `xm` (`ValueError`), nor an array or tuple as `axis_order`; the history of minima is lost then (`c115_array`). A proposal whose search of the minimum fails leaves its voltages in the system (`c115_failed`). Proposing the same move by position twice undoes it: the second changes are computed from the changed system, but added to the recorded voltages (`c115_repeat`).
* C116: both numbers `sum_c` prints as residuals are zero, up to the coefficients at the end of the range, for every `nu`, be it a characteristic exponent or not (`c116_sums`).
* C117: `smooth` takes the angle of turn modulo a full turn and its absolute value after that: a clockwise turn, however small, is never straight, so on a clockwise curve the rounding of the angles alone decides (`c117_clockwise_counterexample`). At the closing point, which is listed twice, the direction of the missing edge counts as that of the x axis: whether a straight run through it is found depends on its direction (`c117_start_counterexample`).
* C118: points made by `to_points` from a clockwise path have orientation 1, but keep its negative potential (`c118_to_points_counterexample`); a path that runs around parts of its region in different senses has the orientation of the larger part (`c118_eight_counterexample`).
* C119: `shaped` takes a single point for three points of one coordinate (`c119_one_point_counterexample`); `norm` ignores `axis` (`c119_norm_axis_counterexample`); `DummyPool` makes a call not when it is handed in but each time its result is asked for (`c119_pool_counterexample`); importing the compiled module twice loses the Python functions (`c119_import_twice_counterexample`).
* C120: the compiled `vector_norm` accepts an `out` of the wrong size; if it is too small, memory beyond its end is overwritten (`c120_out_counterexample`). For vectors the Python functions ignore `axis`, and `unit_vector(v, axis=0, out=o)` raises ValueError (`c120_vector_counterexample`). A first random number outside [0, 1] gives nan without an error (`c120_random_counterexample`). Noted only: `quaternion_to_sphere_points` (transformations.c:743-770), which nothing calls, takes the length from the wrong two components.
* C121: with finitely many images the potential far from the electrode, beyond about 1.5 (2n+1) heights, is larger than without cover, although a cover screens (`c121_far_counterexample`).
* C79: `volt_change` with `method='force'` moves the ion against the requested direction (`c79_force_direction`).
* C78: `filter(deep=False)` without a test raises TypeError (`c78_default`).
* C65: `paths_to_mesh([])` raises ValueError (`c65_empty`).
* C81: triangles at the outer boundary have neighbour -1, which is read as the last triangle of the mesh (`c81_boundary`).
* C66: with Python 3 `xic_to_list` raises TypeError for every text with a record and never returns a path (`c66_python3_fails`,
  `c66_python3_no_path`); a blank line raises IndexError (`c66_blank_line`), a continuation line before the first record
  UnboundLocalError (`c66_continuation_first`).
* C68: the product of two quaternions that are long enough can be too short for `quaternion_matrix` (`c68_short`); for an axis shorter
  than `_EPS`, `quaternion_about_axis` does not turn (`c68_short_axis`).
* C84: with an odd `spin`, as in the docstring, `quaternion_slerp` leaves the unit sphere (`c84_odd_spin`).
* C69: rows of order 6 and above are not rejected but returned scaled (`c69_high`).
* C70: for a constant nonnegative potential all default levels are equal, which matplotlib rejects (`c70_flat`); non-cubic grids fail
  with a recent numpy (`c70_not_cubic`), also the default grid of a non-cubic data set.
* C71: orders above 4 of the pseudopotential raise IndexError, not the documented ValueError (`c71_index_error`).
* C72: `saddle` rotates tensors with the transposed matrix (`c72_saddle_gradient_wrong`).
* C74: `trajectory` accelerates up the gradient (`c74_uphill`, `c74_wrong_sign`).
* C144: therefore its motion conserves kinetic energy minus potential, not the energy (`c144_conserved_partial`, `c144_energy_counterexample`).
* C67: for odd sequences with a repeated axis, such as `sxzx`, `euler_from_matrix` returns middle angles in [-pi, 0] (`c67_odd_negative`).
* C87: at positions in the plane of the electrodes the compiled kernel returns zero, also on an electrode (`c87_plane_compiled`); the
  Python kernel divides by zero (`c87_plane`).
* C88: `ions` raises for every number of ions other than three (`c88_fails`): with one ion the energy is a masked value
  (`c88_single`), with others the arrays in the Hessian have shapes that do not fit (`c88_hessian_fails`).  For three ions the Hessian is wrong
  (`c88_hessian_wrong`).  The charges multiply the Coulomb energy but not the trap potential.
* C89: with more than one ion `analyze_static` always raises (`c89_ions`).  The argument `axis` is ignored (`c89_axis_ignored`).  The mode
  vectors of the motion with rf are not normalised, so heating rates come out too low (`c89_heating_low`).  The matrix of the modes may have
  determinant -1; the Euler angles are then those of another frame (`c89_improper`).  A caller that stops at the lines about the saddle
  point gets `RuntimeError` (`c89_close`).  The lines called force give the gradient, the negative of the force.  Everything but the
  positions is evaluated at the given position, not at the minimum found.
* C90: without gaps and routes the rest of the square is not returned (`c90_no_gaps`).  Bridges have no effect without routes
  (`c90_bridges`).  Coordinates of the rest are rounded to between 10 and 100 times the buffer; the comment says 10 (`c90_rounding`).  The
  docstring describes `polys` as arrays, but pairs of name and array are needed.
* C91: `to_gds` writes no holes into the polygons: they are lost, or come back as gaps that do not cut the polygon (`c91_holes_lost`,
  `c91_round_trip`).  A piece without name that touches the first point of a later electrode gets its name (`c91_wrong_name`).  Unless gap
  layers are given, route and bridge layers are ignored (`c91_routes_ignored`).  For a name that does not occur, the last structure is read
  without notice (`c91_missing`); without any structure `UnboundLocalError` is raised (`c91_no_structure`).
* C92: an electrode that cannot be shrunk is left as it is without notice (`c92_invalid`), and a too small one stays in the list without
  area (`c92_vanish`).
* C94: the arrays of a VTK file are taken in the order of the file: with the field first `AssertionError` is raised
  (`c94_field_first`); without potential and field `UnboundLocalError` (`c94_no_data`).
* C95: `UnstructuredGrid.to_mgrid` raises `NotImplemented`, which is a `TypeError`; inherited methods raise `AttributeError`
  (`c95_not_implemented`).
* C96: points with negative area (holes) cannot be drawn (`c96_negative`); electrodes without paths raise `ValueError` in `plot`
  (`c96_polygons_ok`), and so does `plot_voltages` of a system without electrodes (`c96_empty`); electrodes for which no voltage is given
  are left out (`c96_short`).  `PointPixelElectrode.plot` ignores the transparency that `System.plot` hands on (not modelled).
* C101: `decompose_matrix` drops a last row whose entries are all below `_EPS` (`c101_close`; exact otherwise, `c101_roundtrip`).
* C102: the compiled `scale_matrix` does not normalise the direction: a direction of length 2 and the factor 3 scale by 9 (`c102_scale_counterexample`; what it does in general is `c102_scale_factor`).
* C102: the compiled `orthogonalization_matrix` returns nan for angles that no cell has, where the Python function raises ValueError (`c102_orthogonalization_counterexample`).
* C102: `is_same_transform` is not symmetric (`c102_same_counterexample`).
* C103: the compiled functions accept the names of axes written backwards, such as "zyxs", and refuse capital letters, which the Python functions accept (`c103_names`, `c103_names_counterexample`).
* C103: the compiled `quaternion_matrix` normalises the array of the caller in place (`c103_matrix_counterexample`).
* C103: the compiled precise `quaternion_from_matrix` may return a negative real part (`c103_precise_counterexample`); it is the right rotation all the same (`c103_precise`).
* C103: the compiled `quaternion_slerp` returns the second quaternion for the fraction -1 (`c103_slerp_counterexample`).
* noted: the error branches of the compiled `quaternion_from_matrix` and `quaternion_slerp` restore a thread state that was never saved and release references that may be NULL.
* C104: above size four the last pivot is not tested: a singular matrix may give inf or nan with no exception (`c104_singular_counterexample`). Up to size four the test is on the determinant alone, so a ten thousandth of the identity is refused (`c104_refused_counterexample`).
* noted: `inverse_matrix` reads the second dimension before it checks that there is one; it works in place on an array whose `__array__` returned it without a copy.
* C105: an axis that points straight away from the viewer, or no axes at all, makes nan or an exception when the button is pressed (`c105_nan_counterexample`). The Python functions may choose an axis that is not the nearest; the compiled ones do not (`c105_nearest_counterexample`).
* noted: `Arcball.setaxes()` cannot remove the axes as its docstring suggests: the arguments are a tuple and never None. `next` does not go on from nearly equal orientations.
* C106: `eig` may choose eigenvectors at infinity as basis of the fixed space; then the point is nan (`c106_not_finite`). A rotation by less than about 1e-4 is taken for one about another axis, with angle zero (`c106_small_angle`; for the x axis this happens with the natural order of the eigenvalues). A perspective projection whose centre is at distance one from the plane raises ValueError (`c106_distance_one`). One onto a plane through the origin gives nan (`c106_origin`). A pseudo depth projection can give a different one (`c106_pseudo`). A shear by zero gives nan (`c106_no_shear`).
* C107: as many points as dimensions pass the check, but by default points in a line or plane may be mapped to anything; in `c107_few_points` all points go to one. With scale=True the factor is the ratio of the distances from the centroids, which is not the best one (`c107_scale_not_best`), although the documentation says that the deviations are minimised. If the first points are all the same the result with scale has nan (`c107_scale_nan`).
* C76, C114: `nu_exp_det`, the default method, divides by zero for all q and all large orders if `a` is the square of an even number (`c76_defined`, `c114_fails`): ZeroDivisionError for Python numbers, nan for those of numpy. `a = 0` (`c76_zero`) is the usual case of a trap without static field. For negative `a`, where traps can be stable, it gives nan.
* C108: `nu_exp_d0ap`, documented as fast and precise, gives nan for all q if `a` is 0 or 1 (`c108_d0ap_nan`), and `a = 0` is the usual case of a trap without static field. For y1(π) = ±1 there is no warning although there may be unbounded solutions (`c108_edge`).
* C109: with `smooth` only the windows about the very first and last point are added; for order 4, and for a step above 1, other windows at the ends are missing (`c109_smooth_gap`). With `coord` the force and curvature constraints rotate the axis of the electrodes: they fail unless there are three electrodes (`c109_coord_refused`) and are wrong for three (`c109_coord_wrong`). `only_variable` zeroes the array of the caller, so that later constraints do not see the fixed part (`c109_alias`). Orders above 4 raise UnboundLocalError (`c109_bad_order`), and a step of 0 or a negative weight is silently no constraint (`c109_ignored`).
* C111: `is_same_quaternion` depends on the order of its arguments for unit quaternions at the tolerance (`c111_same_order`).
* C112: the compiled `superimposition_matrix` works only in a window of scales, because its tolerances are absolute: it raises ValueError for all points whose squared distances from their centroid add up to `2e-5` or less (`c112_small`), and for example for six points on the axes at the distance 1000 or more (`c112_large`), where the Python version is exact. Points measured in metres or in nanometres are affected.
* C112: the search for the largest eigenvalue replaces a negative pivot above `-1e-18` by a positive one and may then end far below the largest eigenvalue (`c112_max_wrong`); the result is right whenever this does not happen (`c112_max_partial`), and never too large (`c112_max_le`).
* C112: the compiled version ignores `usesvd` (`c112_usesvd`).
* noted: the docstring of `System.mathieu` gives `scale = q/((l o)^2 m)`; the equation of motion needs `rf_scale`, whose square is a
  quarter of that (C73).  It says the modes are rows; they are columns.
* noted: `group` with `thresholds=None` raises TypeError; `shims` leaves a constraint changed if `optimize` raises.

Not expressed: rounding errors apart from those of C122, overflow and underflow, speed, plotting output,
behaviour inside compiled third-party libraries.
