{"id": "C01", "title": "Constituent relations are evaluated in dependency order", "statement": "Whenever the generator orders the constituent relations of an equation set (so that e.g. pressure is computed before temperature), the produced order is a permutation of the given relations and every relation only reads quantities that are already known or that were computed earlier in the order.", "quantifier": "every finite set of relations, every dependency graph between them, every set of already known quantities, every iteration order of the dictionaries involved", "why_tests_cant": "The dependency graph is arbitrary user input; tests only exercise a handful of small graphs.", "anchors": ["opensbli/equation_types/opensbliequations.py:NonSimulationEquations.sort_dictionary"]}
{"id": "C02", "title": "Ordering of constituent relations succeeds exactly on resolvable systems", "statement": "The ordering routine returns an order iff the relations are resolvable from the known quantities within the iteration budget hard-coded in the routine; cyclic or undefined dependencies always raise, never yield a wrong order, and a chain deeper than the budget raises spuriously.", "quantifier": "every finite dependency graph and known set", "why_tests_cant": "Needs an argument over all graphs (progress of a fixpoint iteration); the budget of 1000 rounds is never reached by tests.", "anchors": ["opensbli/equation_types/opensbliequations.py:NonSimulationEquations.sort_dictionary"]}
{"id": "C03", "title": "Default Runge-Kutta step is a third order Runge-Kutta method", "statement": "For any residual function and any state, the three generated stages of the default RungeKutta scheme perform exactly one step of an explicit 3-stage Runge-Kutta method satisfying all order conditions up to order 3; on linear problems the amplification factor is 1+z+z^2/2+z^3/6.", "quantifier": "all residual functions (linear or not), all initial states, all time steps, systems of any size", "why_tests_cant": "The statement quantifies over all right-hand-side functions.", "anchors": ["opensbli/schemes/temporal/rk_sbli.py:RungeKutta"]}
{"id": "C04", "title": "Time advance bookkeeping of the default Runge-Kutta scheme", "statement": "After any number of completed time steps the working array holds the step result; the saved array is refreshed at the beginning of each step, so its earlier contents never influence the solution, and a state with zero residual is preserved exactly for ever.", "quantifier": "all step counts, all initial contents of the work arrays, all residual functions", "why_tests_cant": "Induction over unbounded number of steps.", "anchors": ["opensbli/schemes/temporal/rk_sbli.py:RungeKutta", "opensbli/code_generation/algorithm/algorithm.py:TraditionalAlgorithmRK"]}
{"id": "C05", "title": "Low-storage Runge-Kutta is consistent, order-accurate and ignores stale storage", "statement": "The low storage scheme of order 3 satisfies the order-3 conditions exactly, and so do the coefficients of its SSP formulation, computed from a parameter with a formula, in exact arithmetic; its order-4 coefficients satisfy the order conditions up to the printed precision; the result of a step never depends on the contents of the increment register before the step; steady states are preserved.", "quantifier": "all residual functions, states, register contents, step counts", "why_tests_cant": "Quantifies over all functions and register contents.", "anchors": ["opensbli/schemes/temporal/rk_LS.py:RungeKuttaLS"]}
{"id": "C06", "title": "ENO candidate reconstructions are exact on polynomials", "statement": "For every k and every candidate stencil, the reconstruction coefficients generated for a WENO scheme of order 2k-1 sum to one and reproduce the interface value from cell averages of every polynomial of degree below k.", "quantifier": "all k, all candidate stencils r<k, all polynomials of degree < k, both reconstruction sides", "why_tests_cant": "The generator accepts any order; tests check orders 3 and 5 at most.", "anchors": ["opensbli/schemes/spatial/weno.py:ConfigureWeno.generate_eno_coefficients"]}
{"id": "C07", "title": "WENO linear weights combine candidates to full order, are unique, positive and sum to one", "statement": "For every k the generated optimal weights are the unique weights that merge the k candidate reconstructions into the (2k-1)-point reconstruction; they sum to one, are strictly positive and the merged formula is exact on all polynomials of degree below 2k-1.", "quantifier": "all k", "why_tests_cant": "Requires an identity for all k.", "anchors": ["opensbli/schemes/spatial/weno.py:ConfigureWeno.generate_optimal_weights"]}
{"id": "C08", "title": "Left and right biased WENO reconstructions are mirror images", "statement": "The coefficients, linear weights and point lists generated for the left-biased reconstruction are the mirror image of the ones generated for the right-biased reconstruction at the same interface.", "quantifier": "all k, r, j and all data", "why_tests_cant": "All orders.", "anchors": ["opensbli/schemes/spatial/weno.py:ConfigureWeno", "opensbli/schemes/spatial/weno.py:WenoJS", "opensbli/schemes/spatial/weno.py:WenoZ"]}
{"id": "C09", "title": "WENO nonlinear weights form a convex combination", "statement": "For any data, the nonlinear weights of WenoJS and WenoZ are well defined (no zero denominators), positive and sum to one, so the reconstructed value lies between the smallest and the largest candidate value; constant data are reconstructed exactly.", "quantifier": "all cell data, all k, all positive linear weights and nonnegative smoothness indicators", "why_tests_cant": "All real data values.", "anchors": ["opensbli/schemes/spatial/weno.py:WenoJS", "opensbli/schemes/spatial/weno.py:WenoZ", "opensbli/schemes/spatial/weno.py:Weno.generate_reconstruction"]}
{"id": "C10", "title": "WENO smoothness indicators vanish on constants and are never negative", "statement": "The smoothness indicator generated by integrating squared derivatives of the candidate polynomial is nonnegative for all data, is zero for constant data, and the coefficient-extraction performed by the generator reproduces that integral exactly.", "quantifier": "all k>=2, candidates r, all data", "why_tests_cant": "All data; all orders.", "anchors": ["opensbli/schemes/spatial/weno.py:JS_smoothness"]}
{"id": "C11", "title": "TENO cut-off selects stencils sharply and normalises the weights", "statement": "For any data the TENO cut-off functions are 0 or 1, at least one candidate always survives, the final weights are nonnegative and sum to one, and when all candidates survive the scheme is the underlying linear scheme.", "quantifier": "all data, order 5 and 6", "why_tests_cant": "All real data.", "anchors": ["opensbli/schemes/spatial/teno.py:Teno5", "opensbli/schemes/spatial/teno.py:Teno6", "opensbli/schemes/spatial/teno.py:TenoReconstructionVariable", "opensbli/schemes/spatial/teno.py:LLFTeno"]}
{"id": "C12", "title": "TENO linear weights are consistent and attain their order", "statement": "The linear (smooth-flow) TENO schemes have weights summing to one and are exact on cell averages of polynomials up to the degree implied by the scheme order.", "quantifier": "all polynomials up to the degree, both sides", "why_tests_cant": "All polynomials.", "anchors": ["opensbli/schemes/spatial/teno.py:ConfigureTeno"]}
{"id": "C13", "title": "TENO smoothness indicators are mirror symmetric and nonnegative", "statement": "The left-biased indicators are the mirror image of the right-biased ones and all are nonnegative, zero for constant data.", "quantifier": "all data; order 5 and 6", "why_tests_cant": "All data.", "anchors": ["opensbli/schemes/spatial/teno.py:Teno5", "opensbli/schemes/spatial/teno.py:Teno6"]}
{"id": "C14", "title": "Shock-capturing discretisation is conservative", "statement": "Because the divergence is computed as difference of interface fluxes, the discrete integral of a conserved quantity over any set of consecutive points changes only by the end fluxes, and over a periodic direction is exactly conserved by every Runge-Kutta step.", "quantifier": "all interface fluxes, all grid sizes, all steps", "why_tests_cant": "All N, all data.", "anchors": ["opensbli/core/opensblifunctions.py:WenoDerivative", "opensbli/core/opensblifunctions.py:TenoDerivative", "opensbli/schemes/spatial/shock_capturing.py:ShockCapturing.evaluate_residuals"]}
{"id": "C15", "title": "Local Lax-Friedrichs flux splitting is consistent and upwind", "statement": "The positive and negative characteristic fluxes sum to the flux, and for smooth (identical) neighbouring states the resulting interface flux equals the physical flux; the splitting speed bounds every eigenvalue of the stencil so that the split parts have one-signed wave speeds.", "quantifier": "all states, all eigenvalues, all stencil widths", "why_tests_cant": "All states.", "anchors": ["opensbli/schemes/spatial/shock_capturing.py:LLFCharacteristic"]}
{"id": "C16", "title": "Euler eigenvector matrices are inverse and diagonalise the flux Jacobian", "statement": "In 1D, 2D and 3D (with any metric direction) the left and right eigenvector matrices used for characteristic decomposition are mutually inverse and diagonalise the Euler flux Jacobian with the listed eigenvalues.", "quantifier": "all states with nonzero density/sound speed, all direction cosines", "why_tests_cant": "Rational identities over all real states.", "anchors": ["opensbli/physical_models/euler_eigensystem.py:EulerEquations"]}
{"id": "C17", "title": "Interface averaging is consistent", "statement": "Simple and Roe averages of two identical states return that state; the Roe averaged velocity and enthalpy lie between the two states, and averages are symmetric in left and right.", "quantifier": "all physically admissible states", "why_tests_cant": "All states.", "anchors": ["opensbli/schemes/spatial/averaging.py:SimpleAverage", "opensbli/schemes/spatial/averaging.py:RoeAverage"]}
{"id": "C18", "title": "Central difference formulas are exact on polynomials of the scheme order", "statement": "For every even order, the generated central weights for first and second derivatives differentiate every polynomial of degree up to the order exactly; first-derivative weights are antisymmetric, second-derivative symmetric, and both annihilate constants.", "quantifier": "all even orders, all polynomials, all grid points and spacings", "why_tests_cant": "All orders.", "anchors": ["opensbli/schemes/spatial/scheme.py:Central", "opensbli/core/opensblifunctions.py:CentralDerivative"]}
{"id": "C19", "title": "Central derivatives conserve on periodic grids; skew-symmetric split keeps conservation", "statement": "On a periodic grid, sums of central first derivatives vanish and the central difference operator is skew-adjoint; hence the Skew form of a convective term conserves both its integral and (for the quadratic split) the energy-like quadratic invariant.", "quantifier": "all N, all grid data, all even orders", "why_tests_cant": "All sizes and data.", "anchors": ["opensbli/core/parsing.py:Skew", "opensbli/schemes/spatial/scheme.py:Central"]}
{"id": "C20", "title": "Skew splitting is analytically equivalent to the conservative derivative", "statement": "Replacing Conservative(a*b,x) by Skew(a*b,x) never changes the continuous equation: by the product rule the two are equal, for one and two factors; for more factors an error is raised.", "quantifier": "all differentiable fields / all derivations", "why_tests_cant": "All fields.", "anchors": ["opensbli/core/parsing.py:Skew"]}
{"id": "C21", "title": "Carpenter closure with 4th order central interior satisfies summation by parts", "statement": "On every grid with at least 8 points, the derivative matrix assembled from Carpenter boundary rows at both ends and the fourth order central interior satisfies the summation-by-parts identity with a positive-definite norm, so that discrete energy estimates hold; boundary rows are exact on cubic polynomials and mirrored at the two ends.", "quantifier": "all N>=8, all grid functions", "why_tests_cant": "All N; symbolic identity with irrational coefficients.", "anchors": ["opensbli/core/boundary_conditions/Carpenter_scheme.py:Carpenter"]}
{"id": "C22", "title": "Alternative one-sided closures are exact on polynomials on both sides", "statement": "The reduced-access and reduced-order closures differentiate polynomials of their design order exactly at each boundary point, for first and second derivative, on both sides.", "quantifier": "all polynomials of the design degree, both sides, all spacings", "why_tests_cant": "All polynomials; mirrored side is never tested.", "anchors": ["opensbli/core/boundary_conditions/reduced_access_scheme.py", "opensbli/core/boundary_conditions/reduced_order_scheme.py"]}
{"id": "C23", "title": "Boundary closure is applied exactly at boundary points and never reads outside the domain", "statement": "With a one-sided closure on a side, the generated piecewise derivative uses the boundary row at precisely the closure points of that side and the interior formula elsewhere, and every selected branch only reads points inside the domain when both sides are closed.", "quantifier": "all grid sizes at least the closure size, all indices", "why_tests_cant": "All grid sizes.", "anchors": ["opensbli/core/opensblifunctions.py:CentralDerivative", "opensbli/core/boundary_conditions/Carpenter_scheme.py:Carpenter.expr_cond_pairs"]}
{"id": "C24", "title": "Periodic exchange makes every halo equal to its periodic image", "statement": "After applying the periodic exchanges of all directions in the generated order, every halo point including edges and corners equals the interior value at the index reduced modulo the grid size (for symmetric halos); interior values are unchanged.", "quantifier": "all dimensions, all grid sizes not smaller than the halo, all halo depths, all data", "why_tests_cant": "Any dimension, corners, any N.", "anchors": ["opensbli/core/boundary_conditions/periodic.py:PeriodicBC", "opensbli/core/block.py:SimulationBlock.apply_boundary_conditions"]}
{"id": "C25", "title": "Symmetry boundary reflects the velocity", "statement": "The symmetry boundary fills each halo point with the mirror image: scalars copied, momentum reflected about the wall normal; reflection is an involution preserving kinetic energy and the tangential component; the inviscid wall additionally has zero normal momentum at the wall.", "quantifier": "all dimensions, normals, data, halo depth", "why_tests_cant": "All data.", "anchors": ["opensbli/core/boundary_conditions/symmetry.py:SymmetryBC", "opensbli/core/boundary_conditions/inviscid_wall.py:InviscidWallBC"]}
{"id": "C26", "title": "Extrapolation boundaries fill the halos with constant / linear extension", "statement": "Zeroth order extrapolation makes all halo points equal to the first interior point; first order extrapolation makes the halo the linear continuation of the last two points, for both sides and every halo depth; other orders raise.", "quantifier": "all depths, both sides, all data", "why_tests_cant": "Any depth needs induction.", "anchors": ["opensbli/core/boundary_conditions/extrapolation.py:ExtrapolationBC"]}
{"id": "C27", "title": "Isothermal wall imposes no-slip, wall temperature and wall pressure", "statement": "At an isothermal wall the wall momentum is zero, and every halo point is filled such that its pressure equals the wall pressure, its temperature is the linear extrapolation through wall temperature and interior temperature, and its velocity is the negated interior velocity.", "quantifier": "all admissible states, halo depths, sides", "why_tests_cant": "All states.", "anchors": ["opensbli/core/boundary_conditions/isothermal_wall.py:IsothermalWallBC"]}
{"id": "C28", "title": "Adiabatic walls impose no-slip and zero discrete temperature gradient", "statement": "At an adiabatic wall momentum vanishes at the wall, the wall energy corresponds to a temperature for which the one-sided discrete normal temperature derivative is zero, and halos mirror density and energy while negating momentum.", "quantifier": "all admissible states, sides", "why_tests_cant": "All states.", "anchors": ["opensbli/core/boundary_conditions/adiabatic_wall.py:AdiabaticWallBC", "opensbli/core/boundary_conditions/adiabatic_wall_Carpenter.py"]}
{"id": "C29", "title": "Pressure outlet and inlets impose the requested state", "statement": "After applying the pressure outlet, the pressure computed from the conservative variables at the boundary and each halo point equals the prescribed back pressure; the inlet conditions write only from the documented locations and reject the wrong side.", "quantifier": "all admissible states and halo depths", "why_tests_cant": "All states.", "anchors": ["opensbli/core/boundary_conditions/pressure_outlet.py:PressureOutletBC", "opensbli/core/boundary_conditions/inlet_transfer.py", "opensbli/core/boundary_conditions/inlet_pressure_extrapolate.py"]}
{"id": "C30", "title": "Multi-block interface exchange copies matching points", "statement": "The interface exchange between two matching blocks fills the halo of the receiving block with exactly the neighbouring interior points of the donor (shifted by one when the interface point is shared), for each combination of sides.", "quantifier": "all grid sizes, halo depths, side combinations, all dimensions", "why_tests_cant": "All sizes.", "anchors": ["opensbli/core/boundary_conditions/multi_block.py:InterfaceBC"]}
{"id": "C31", "title": "Boundary kernels iterate exactly over the boundary plane", "statement": "The iteration range of each boundary-condition kernel is exactly the one-point thick plane at the requested side, extended into the halos in the other directions; the planes of the sides of a direction are disjoint for grids with at least two points.", "quantifier": "all dims, sizes, sides, halos", "why_tests_cant": "All sizes and dims.", "anchors": ["opensbli/core/boundary_conditions/bc_core.py:BoundaryConditionBase"]}
{"id": "C32", "title": "Kernel call arguments match kernel definition parameters", "statement": "In the generated OPS program the i-th argument passed at a kernel call denotes the same object, with the same kind, as the i-th parameter in the kernel's definition.", "quantifier": "all kernels, i.e. all sets of read/written arrays, indexed constants, reduction globals and grid-index use", "why_tests_cant": "Depends on arbitrary combination of argument kinds.", "anchors": ["opensbli/core/kernel.py:Kernel.opsc_code", "opensbli/code_generation/opsc.py:OPSC.kernel_computation_opsc"]}
{"id": "C33", "title": "Declared access modes are sound", "statement": "An array passed as read-only is never written by the kernel, one passed as write-only is never read, every accessed array is passed exactly once, and arrays both read and written are passed as read-write.", "quantifier": "all kernels (all equation lists)", "why_tests_cant": "All kernels.", "anchors": ["opensbli/core/kernel.py:Kernel"]}
{"id": "C34", "title": "Declared stencils cover every access and have unique names", "statement": "For every array argument of a kernel the declared stencil contains exactly the relative offsets used in the kernel, and two different stencils on a block never share a name.", "quantifier": "all kernels and all sequences of kernels on a block", "why_tests_cant": "Arbitrary history of kernels.", "anchors": ["opensbli/core/kernel.py:Kernel.get_stencils", "opensbli/core/kernel.py:Kernel.update_block_datasets"]}
{"id": "C35", "title": "Kernel iteration range is the grid plus the deepest requested halo", "statement": "Merging and setting halo requests makes the iteration range the smallest box containing the grid and every requested halo, independent of the order of requests.", "quantifier": "all sequences of halo requests", "why_tests_cant": "All sequences.", "anchors": ["opensbli/core/kernel.py:Kernel.total_range", "opensbli/core/kernel.py:Kernel.merge_halo_range", "opensbli/utilities/helperfunctions.py:get_min_max_halo_values"]}
{"id": "C36", "title": "Generated kernels stay inside the declared array halos", "statement": "All array accesses of derivative, reconstruction and boundary kernels stay inside the allocated array including its declared halos, for the supported scheme orders; orders beyond are out of bounds.", "quantifier": "all grid sizes and points, all scheme orders", "why_tests_cant": "All orders and sizes.", "anchors": ["opensbli/core/block.py:SimulationBlock.get_all_scheme_halos", "opensbli/schemes/spatial/scheme.py:CentralHalos_defdec", "opensbli/schemes/spatial/weno.py:WenoHalos"]}
{"id": "C37", "title": "Generated kernels are free of data races when arrays are written and read only at the same point", "statement": "If a kernel reads each array it writes only at the written point, the result of the parallel loop is independent of the order in which grid points are visited.", "quantifier": "all kernels meeting the condition, all visiting orders, all data", "why_tests_cant": "All schedules.", "anchors": ["opensbli/core/kernel.py:Kernel", "opensbli/code_generation/opsc.py:OPSC"]}
{"id": "C38", "title": "Every constant is declared exactly once", "statement": "Registering constants, in any order and with repetitions, yields a list without duplicates containing exactly the registered constants, each declared before use.", "quantifier": "all registration sequences", "why_tests_cant": "All histories.", "anchors": ["opensbli/core/kernel.py:ConstantsToDeclare"]}
{"id": "C39", "title": "Rational constants get unique names and keep their values", "statement": "Each distinct rational number (and inverse constant) in the equations gets a unique generated name, equal numbers share one, and the declared value of that name is the original number.", "quantifier": "all sequences of rationals", "why_tests_cant": "All histories.", "anchors": ["opensbli/code_generation/opsc.py:RationalCounter"]}
{"id": "C40", "title": "Line wrapping never changes the generated code", "statement": "Wrapping long lines in the generated source only changes whitespace: the non-blank characters and their order are preserved, wrapping never fails, and short lines are untouched.", "quantifier": "all source texts", "why_tests_cant": "All strings.", "anchors": ["opensbli/code_generation/opsc.py:OPSC.wrap_long_lines"]}
{"id": "C41", "title": "Max of several arguments is printed as correct nested binary maxima", "statement": "The printed nested fmax expression evaluates to the maximum of all arguments.", "quantifier": "all argument lists and values", "why_tests_cant": "All lists.", "anchors": ["opensbli/code_generation/opsc.py:OPSCCodePrinter._print_Max"]}
{"id": "C42", "title": "Generated time loop runs the prescribed computation sequence", "statement": "The generated program performs exactly niter time steps; each runs the begin-of-step kernels once, then for each stage the stage kernels in order, then the end-of-step kernels; nothing is run out of order.", "quantifier": "all niter, all numbers of stages, all kernel lists", "why_tests_cant": "All iteration counts.", "anchors": ["opensbli/code_generation/algorithm/algorithm.py:TraditionalAlgorithmRK", "opensbli/code_generation/algorithm/algorithm.py:DoLoop"]}
{"id": "C43", "title": "Periodic output happens at exactly the requested iterations", "statement": "With save_every=n, output is written exactly at iterations that are multiples of n, i.e. floor(niter/n) times, plus once at the end when requested.", "quantifier": "all niter, n", "why_tests_cant": "All counts.", "anchors": ["opensbli/core/io_hdf5.py:iohdf5", "opensbli/code_generation/algorithm/algorithm.py:Condition"]}
{"id": "C44", "title": "Every distinct kernel is emitted once", "statement": "Collecting kernels from the whole nested algorithm emits the definition of each kernel appearing anywhere in it, and no kernel definition is emitted twice.", "quantifier": "all algorithm trees", "why_tests_cant": "All trees.", "anchors": ["opensbli/code_generation/opsc.py:OPSC.loop_alg"]}
{"id": "C45", "title": "Substituting simulation parameters sets exactly the named constant", "statement": "Substituting parameter values into the generated source assigns each named constant its value and leaves every other constant untouched.", "quantifier": "all parameter lists and source texts", "why_tests_cant": "All names; suffix collisions.", "anchors": ["opensbli/utilities/helperfunctions.py:substitute_simulation_parameters"]}
{"id": "C46", "title": "Kernel names are unique within a block and across blocks", "statement": "Two distinct kernels created on the same or different blocks never get the same generated function name.", "quantifier": "all creation sequences", "why_tests_cant": "All histories.", "anchors": ["opensbli/core/block.py:KernelCounter", "opensbli/core/kernel.py:Kernel"]}
{"id": "C47", "title": "Residuals are the sum of all discretised terms", "statement": "The residual used by the time integrator equals the sum of all discretised convective, viscous and source terms of the equation, independent of what the residual array held before.", "quantifier": "all equations (all term lists), all schemes combinations", "why_tests_cant": "All equation structures.", "anchors": ["opensbli/schemes/spatial/scheme.py:Central", "opensbli/schemes/spatial/shock_capturing.py:ShockCapturing.evaluate_residuals"]}
{"id": "C48", "title": "Temporary work arrays never clobber live values", "statement": "Replacing derivatives by reused temporary arrays never changes the computed residual compared to evaluating the derivatives in place.", "quantifier": "all equation lists and derivative sets", "why_tests_cant": "All histories of allocate/reset.", "anchors": ["opensbli/core/grid.py:WorkDataSet", "opensbli/schemes/spatial/scheme.py:Central"]}
{"id": "C49", "title": "Index notation expands to the right system of equations", "statement": "Expanding an equation in index notation produces one scalar equation for each assignment of the free indices (row-major order), and each repeated index pair is summed over exactly all dimensions.", "quantifier": "all expressions, all dimensions", "why_tests_cant": "All expressions; structural induction.", "anchors": ["opensbli/core/opensblifunctions.py:EinsteinStructure", "opensbli/core/parsing.py:EinsteinEquation"]}
{"id": "C50", "title": "Substituting an index value affects only that index", "statement": "Applying index values to an indexed term replaces precisely the named indices; distinct components get distinct names.", "quantifier": "all names, index lists, values", "why_tests_cant": "All strings; prefix collisions.", "anchors": ["opensbli/core/opensbliobjects.py:EinsteinTerm"]}
{"id": "C51", "title": "Kronecker delta and Levi-Civita obey their identities", "statement": "The expanded Kronecker delta and Levi-Civita symbols satisfy contraction, antisymmetry, and cross-product identities.", "quantifier": "all index tuples, all dims", "why_tests_cant": "All tuples.", "anchors": ["opensbli/core/opensblifunctions.py:KD", "opensbli/core/opensblifunctions.py:LC"]}
{"id": "C52", "title": "Selective frequency damping contracts to the filtered state", "statement": "Each application of the SFD filter preserves the weighted total of state and filtered state and contracts their difference by exp(-(chi+omega)dt); iterating any number of steps they converge to each other; a state equal to its filter is unchanged.", "quantifier": "all parameters >0, all states, any number of applications", "why_tests_cant": "Any number of steps.", "anchors": ["opensbli/filters/SFD.py:SFD"]}
{"id": "C53", "title": "Binomial filter preserves constants and respects the maximum principle", "statement": "The filter weights sum to one and are positive, so constant and linear fields are preserved and no new extrema appear; invalid orders raise. The result must not depend on the grid traversal order.", "quantifier": "all even orders up to 10, all data, all traversal orders", "why_tests_cant": "All data and schedules.", "anchors": ["opensbli/filters/binomial_filter.py:BinomialFilter"]}
{"id": "C54", "title": "Shock sensors are bounded", "statement": "The Ducros sensor lies in [0,1] for all data and the WENO filter wall control is 0 near walls and 1 in the interior.", "quantifier": "all data, all grid indices", "why_tests_cant": "All data.", "anchors": ["opensbli/schemes/spatial/shock_sensors.py", "opensbli/filters/WENO_filter.py"]}
{"id": "C55", "title": "Metric terms invert the grid Jacobian", "statement": "The generated metric derivatives form the inverse of the Jacobian matrix of the coordinate map whenever its determinant is nonzero, so that transformed first derivatives of any field obey the chain rule.", "quantifier": "all coordinate maps, 1-3 dims", "why_tests_cant": "All Jacobians.", "anchors": ["opensbli/equation_types/metric.py:MetricsEquation"]}
{"id": "C56", "title": "Oblique shock relations satisfy Rankine-Hugoniot", "statement": "The post-shock density, pressure and velocity computed by the oblique-shock utility satisfy conservation of mass, momentum and energy across the shock; and wave angles below the Mach angle are rejected.", "quantifier": "all Mach numbers, wave angles, gamma", "why_tests_cant": "All reals.", "anchors": ["opensbli/utilities/oblique_shock.py:ShockConditions"]}
{"id": "C57", "title": "Spline construction solves the natural-spline system and interpolates", "statement": "The spline routine's forward/backward sweep solves the tridiagonal natural-spline system; evaluation at a knot returns the knot value; evaluation uses the bracketing interval.", "quantifier": "all knot counts and data with increasing abscissae", "why_tests_cant": "All n.", "anchors": ["opensbli/utilities/numerical_functions.py:spline", "opensbli/utilities/numerical_functions.py:splint"]}
{"id": "C58", "title": "Halo stripping recovers exactly the interior points", "statement": "Reading a dataset back with halos removed yields exactly the interior points, as described by the stored metadata.", "quantifier": "all sizes, dims, halo depths", "why_tests_cant": "All sizes.", "anchors": ["opensbli/postprocess/removehalos.py", "opensbli/utilities/helperfunctions.py:set_hdf5_metadata"]}
{"id": "C59", "title": "Boundary conditions are attached to the right face", "statement": "A list of 2*ndim boundary conditions is assigned pairwise to directions and sides; any other length raises.", "quantifier": "all lists, all dims", "why_tests_cant": "All lists.", "anchors": ["opensbli/core/boundary_conditions/bc_core.py:BoundaryConditionTypes"]}
{"id": "C60", "title": "Equation classes are ordered constituent relations first", "statement": "Registering equation classes yields a list with all constituent relations first, all other classes in their original order and none lost.", "quantifier": "all lists of classes, repeated registrations", "why_tests_cant": "All lists.", "anchors": ["opensbli/core/block.py:SimulationBlock.sort_equation_classes"]}
{"id": "C61", "title": "Relocating an expression moves every dataset access consistently", "statement": "Moving an expression to another relative location in a direction yields the same expression with every dataset access displaced by that amount in that direction, all other accesses and directions untouched.", "quantifier": "all expressions, directions and displacements", "why_tests_cant": "All expressions; the tests relocate single accesses.", "anchors": ["opensbli/utilities/helperfunctions.py:increment_dataset"]}
{"id": "C62", "title": "Stencils only read halo points that boundary conditions fill", "statement": "Every grid point a generated kernel reads outside the interior lies within the halo depth that the block's schemes declare, so it is a point the boundary conditions are asked to fill.", "quantifier": "all block sizes, dimensions, directions, scheme orders", "why_tests_cant": "All sizes and orders; an off-by-one in the declared depth silently reads stale halo values.", "anchors": ["opensbli/schemes/spatial/scheme.py:CentralHalos", "opensbli/schemes/spatial/weno.py:WenoHalos", "opensbli/schemes/spatial/teno.py:TenoHalos", "opensbli/schemes/spatial/shock_capturing.py:ShockCapturing.create_reconstruction_kernel"]}
{"id": "C63", "title": "Inner derivatives are evaluated wherever the outer derivative reads them", "statement": "When a derivative of an expression containing other derivatives is evaluated numerically, each stored inner derivative has been evaluated at every point at which the outer stencil reads it.", "quantifier": "all nestings of derivatives, block sizes, dimensions and orders", "why_tests_cant": "All expression shapes.", "anchors": ["opensbli/schemes/spatial/scheme.py:Central.traverse", "opensbli/schemes/spatial/scheme.py:Central.general_discretisation"]}
{"id": "C64", "title": "Forced wall has the prescribed momentum, temperature and halos", "statement": "At a forcing strip wall the wall-normal momentum is the prescribed one, all other momentum components vanish, the wall has the prescribed temperature, the halo states have the wall pressure and mirror the flow about the wall state, and nothing else is changed.", "quantifier": "all interior states, prescribed values, dimensions, halo depths", "why_tests_cant": "All states and halo depths; the repository has no test of this condition.", "anchors": ["opensbli/core/boundary_conditions/forcing_strip_wall.py:ForcingStripBC.apply"]}
{"id": "C65", "title": "Dirichlet conditions set exactly the prescribed points, also on split boundaries", "statement": "A Dirichlet condition assigns the prescribed values on the boundary plane and on every halo layer behind it, corners included, and nowhere else. Boundaries cut into several segments cover every point of the face exactly once, and different segments use different range arrays.", "quantifier": "all block sizes, halo depths, directions, sides, segmentations, stores", "why_tests_cant": "All sizes and segmentations.", "anchors": ["opensbli/core/boundary_conditions/dirichlet.py:DirichletBC", "opensbli/core/boundary_conditions/bc_core.py:SplitBC", "opensbli/core/boundary_conditions/bc_core.py:BoundaryConditionBase"]}
{"id": "C66", "title": "Inviscid wall on a curvilinear grid is impermeable and consistent", "statement": "At a curvilinear inviscid wall in two dimensions the momentum set at the wall is parallel to the wall, the pressure is that at the foot of the wall normal through the first interior point, halo values continue linearly, and a uniform flow along a straight wall is unchanged, whatever the inclination of the wall.", "quantifier": "all fields, wall inclinations, grid spacings, sides and directions", "why_tests_cant": "All grids; tests use one grid.", "anchors": ["opensbli/core/boundary_conditions/inviscid_wall2D.py:InviscidWall2DBC"]}
{"id": "C67", "title": "Physics object returns the perfect-gas relations", "statement": "The pressure, temperature, velocity, momentum, speed of sound and viscosity relations offered to users are those of a perfect gas, in primitive and in conservative form, and agree with each other.", "quantifier": "all states with nonzero density, 1-3 dims", "why_tests_cant": "All states.", "anchors": ["opensbli/physical_models/ns_physics.py:NSphysics"]}
{"id": "C68", "title": "Monitors report the probe value, one column each", "statement": "Each printed row of the simulation monitor contains iteration, time and the value of each monitored array at its probe point, independently of the distribution of the grid over processes; arrays containing mean are divided by the number of iterations; names of different monitors do not clash; the header has as many columns as the rows; without an output file the rows go to the screen.", "quantifier": "all arrays, probe lists, dimensions, process layouts", "why_tests_cant": "All layouts and lists.", "anchors": ["opensbli/core/diagnostics/simulation_monitors.py:SimulationMonitor", "opensbli/code_generation/opsc.py:OPSC.ops_exit"]}
{"id": "C69", "title": "Store-some optimisation computes the same residuals", "statement": "Choosing which derivatives are stored in work arrays and which are evaluated in place does not change the residual computed for the simulation equations: it is that of the equations written by the user; no derivative is left undiscretised; constituent relations needed by the residual are provided.", "quantifier": "all equations, all sets of stored functions, any difference operators", "why_tests_cant": "All expressions and all choices of stored functions.", "anchors": ["opensbli/optimisations/StoreSome.py:StoreSome"]}
{"id": "C70", "title": "User defined equations", "statement": "The equations a user adds to a block are evaluated in the order given, each seeing the results of the earlier ones, on the grid plus the halo depths requested.", "quantifier": "all lists of equations with or without derivatives, all values of arrays, all derivative operators, all grids and visiting orders, all orders of the set of derivatives", "why_tests_cant": "Generated kernels are compared textually in tests at best; whether a list of equations with and without derivatives is evaluated completely depends on the whole pipeline.", "anchors": ["opensbli/utilities/user_defined_kernels.py: UserDefinedEquations.spatial_discretisation", "opensbli/schemes/spatial/scheme.py: Central.discretise, general_discretisation, traverse"]}
{"id": "C71", "title": "Post-processing equations", "statement": "After the simulation the post-processing equations are evaluated with current values of all constituent relations they use, in the order given.", "quantifier": "all equations, relations, arrays, orders of dictionaries and sets", "why_tests_cant": "The order of evaluation of relations is the order of a dictionary; a test sees one order.", "anchors": ["opensbli/postprocess/post_process_eq.py: PostProcessEquations.spatial_discretisation, sort_constituents", "opensbli/equation_types/opensbliequations.py: ConstituentRelations.spatial_discretisation"]}
{"id": "C72", "title": "Initialisation fills grid and halos", "statement": "Grid based initialisation assigns, at every element in memory of the arrays (halos, edges and corners included), the value of the equation given, using the arrays initialised before it.", "quantifier": "all block sizes and dimensions, all lists of equations, all array names", "why_tests_cant": "Halo corners are only visible in cross derivatives at run time.", "anchors": ["opensbli/initialisation/gridbasedinit.py: GridBasedInitialisation.spatial_discretisation", "opensbli/code_generation/opsc.py: declare_dataset"]}
{"id": "C73", "title": "Several blocks advance together and see each other's current values", "statement": "In a problem with several blocks, every stage evaluates the residuals of all blocks before any block is advanced, then applies the boundary conditions and interfaces of all blocks; afterwards the halo of every interface holds the values the neighbouring block has. Output objects of any block write at the steps they ask for, and those of different blocks which save equally often write into the same files.", "quantifier": "all numbers of blocks, dimensions, grid sizes, halo depths, arrangements of blocks, own boundary conditions, equation classes, numbers of steps and stages", "why_tests_cant": "A test has one arrangement of few blocks; staleness of halo values depends on the order of pushes over all blocks.", "anchors": ["opensbli/multiblock/algorithm.py: TraditionalAlgorithmRKMB.spatial_solution, get_io_mb, check_temporal_scheme", "opensbli/multiblock/blockcollection.py: MultiBlock.discretise, apply_interface_bc", "opensbli/core/boundary_conditions/multi_block.py: InterfaceBC.apply_interface"]}
{"id": "C74", "title": "Boundary-layer initialisation sets a similarity profile at uniform pressure", "statement": "The initial state for a laminar boundary layer comes from the compressible similarity equations with the free stream met to the tolerance; on the grid density, momentum and energy belong to uniform pressure, side walls give a symmetric state, and the wall-normal momentum satisfies continuity.", "quantifier": "all Mach, Prandtl and Reynolds numbers, ratios of specific heats, solvers, profiles, polynomial coefficients, coordinates, numbers of points", "why_tests_cant": "Tests would compare one profile at one Mach number; the algebra holds or fails for all parameters.", "anchors": ["opensbli/utilities/katzer_init.py: Boundary_layer_profile.compbl, generate_boundary_layer_profile, integrate_boundary_layer, Initialise_Katzer.form_equation, form_mixed_equation, generate_one_wall_equations, generate_two_wall_equations, solve_continuity, find_edge_of_bl", "opensbli/utilities/simple_katzer_init.py: Initialise_Katzer"]}
{"id": "C75", "title": "The C text of a kernel computes the kernel's equations", "statement": "Calling a generated kernel function at a grid point leaves in the arrays exactly what carrying out the kernel's equations in order gives, a grouped piecewise carrying out the equations of the first pair whose condition holds; named constants that replace rational numbers and inverse powers have the value they replace.", "quantifier": "all kernels, expressions, conditions, earlier and later kernels, array contents, grid points, values of constants", "why_tests_cant": "Tests compare printed strings of a few expressions; whether the printed program means the same as the equations for all expressions and data needs a semantics of both.", "anchors": ["opensbli/code_generation/opsc.py: OPSCCodePrinter, pow_to_constant, ccode, OPSC.kernel_computation_opsc, OPSC.write_kernels, OPSC.define_constants", "opensbli/core/opensbliobjects.py: GroupedPiecewise"]}
{"id": "C76", "title": "The WENO filter adds exactly the weighted difference between the WENO and the central flux", "statement": "One application of the WENO filter at the end of a time step replaces every grid point of the solution by itself plus wall control times filter control times sensor times time step times the negative divergence of the filter fluxes of the solution before the step; the filter flux of a wave is its own sensor, in [0, 1] and zero exactly where both reconstructions use their ideal weights, times the WENO flux minus the flux of the central scheme of one order higher. Uniform flow is unchanged, totals on periodic meshes are preserved for a constant sensor, no array holding values of an earlier stage is read, and the fluxes of the base scheme are not affected.", "quantifier": "all dimensions, orders, sensors, boundary conditions, meshes, solutions, eigensystems, contents of work arrays", "why_tests_cant": "No application in the repository uses the filter and its kernels only exist as generated code; tests of weights on a few data do not show what is added for all solutions or that kernels do not overwrite each other's arrays.", "anchors": ["opensbli/filters/WENO_filter.py: WENOFilter", "opensbli/schemes/spatial/shock_capturing.py: LLFCharacteristic.post_process, central_diff_formula", "opensbli/schemes/spatial/weno.py: Weno.compute_sensor, LLFWeno.discretise", "opensbli/schemes/spatial/shock_sensors.py: ShockSensor"]}
{"id": "C77", "title": "A program generated with central differences computes the Runge-Kutta iterates of the equations the user wrote", "statement": "For simulation equations and constituent relations discretised with the central scheme, the generated program - constituent relations sorted and evaluated on their ranges, derivatives grouped by direction and stored in work arrays, convective and viscous terms accumulated, stage and solution updates, boundary conditions, time loop and output - leaves in the solution arrays, after niter iterations, exactly the solution advanced by niter Runge-Kutta steps of the right hand sides of the equations, and every file with a number holds the solution after that number of steps. On periodic boxes the grid values are those of the Runge-Kutta method, the sum over the grid of every equation in conservation form is constant in time, and uniform flow is preserved exactly.", "quantifier": "all dimensions, grids, orders, numbers of equations, right hand sides and relations (within the stated form), loop and set orders, boundary conditions, initial arrays, iteration counts, both Runge-Kutta schemes", "why_tests_cant": "Each part can be tested alone, but whether the kernels, their ranges, the reuse of work arrays, the sorting and the time loop together compute the equations is a statement about all programs, arrays and numbers of steps.", "anchors": ["opensbli/equation_types/opensbliequations.py: SimulationEquations.spatial_discretisation, sort_constituents, all_spatial_kernels", "opensbli/schemes/spatial/scheme.py: Central.sbli_rhs_discretisation, update_range_of_constituent_relations, classify_terms_in_equations, traverse", "opensbli/schemes/temporal/rk_sbli.py: RungeKutta", "opensbli/schemes/temporal/rk_LS.py: RungeKuttaLS", "opensbli/core/algorithm.py: TraditionalAlgorithmRK", "opensbli/core/boundary_conditions/exchange.py: ExchangeSelf, periodic.py: PeriodicBC"]}
{"id": "C78", "title": "A program generated with a shock capturing scheme computes the Runge-Kutta iterates of the Lax-Friedrichs discretisation of the equations and conserves", "statement": "For simulation equations discretised with WENO or TENO and a central scheme for the remaining derivatives, the generated program - constituent relations on merged ranges, one reconstruction kernel for every direction, residuals, viscous terms, stage and solution updates, boundary conditions, time loop and output - leaves in the solution arrays, after niter iterations, exactly the solution advanced by niter Runge-Kutta steps of the sum of the differences of the characteristic Lax-Friedrichs fluxes and the remaining terms, and every file with a number holds the solution after that number of steps. On periodic boxes the sum over the grid of every equation in conservation form is constant in time, uniform flow is preserved exactly, and the results do not depend on the contents of the halos before the start.", "quantifier": "all dimensions, grids, orders, numbers of equations, fluxes, eigensystems, averages, remaining right hand sides and relations (within the stated form), WENO and TENO schemes, loop and set orders, initial arrays, iteration counts, both Runge-Kutta schemes", "why_tests_cant": "Discrete conservation and exact uniform flow are properties of all runs: every kernel range, halo, work array and the order of the kernels must fit together for all grids and step counts.", "anchors": ["opensbli/schemes/spatial/weno.py: LLFWeno.discretise", "opensbli/schemes/spatial/teno.py: LLFTeno.discretise", "opensbli/schemes/spatial/shock_capturing.py: ShockCapturing.evaluate_residuals, create_reconstruction_kernel, check_constituent_relations; LLFCharacteristic", "opensbli/schemes/spatial/averaging.py: SimpleAverage, RoeAverage", "opensbli/schemes/spatial/scheme.py: Central", "opensbli/equation_types/opensbliequations.py: SimulationEquations.spatial_discretisation", "opensbli/core/boundary_conditions/bc_core.py: get_halo_values", "opensbli/core/algorithm.py: TraditionalAlgorithmRK"]}
{"id": "C79", "title": "On stretched and curvilinear grids generated programs preserve uniform flow exactly and conserve totals weighted with the Jacobian", "statement": "For equations transformed with metric terms, the generated program leaves uniform flow uniform and equal to the initial values, exactly and for all values of the metric arrays, whenever every term of the equations is a product with a derivative that contains no metric term (the chain rule form written by MetricsEquation.apply_transformation). On periodic boxes the sum over the grid of a component times a weight (the determinant of the Jacobian for equations in conservation form, the inverse metric term on stretched grids) is constant in time, at the end and in every file with a number, whenever weight times coefficient does not change along the direction of each derivative.", "quantifier": "all dimensions, grids, orders, numbers of equations, right hand sides and relations of the stated form, central, WENO and TENO schemes, metric arrays, weights, loop and set orders, initial arrays, iteration counts, both kinds of Runge-Kutta schemes", "why_tests_cant": "Free stream preservation and conservation on curvilinear grids are properties of all runs and all grids; a test checks one grid up to a tolerance that hides small sources.", "anchors": ["opensbli/equation_types/metric.py: MetricsEquation.apply_transformation", "opensbli/schemes/spatial/scheme.py: Central", "opensbli/schemes/spatial/weno.py: LLFWeno.discretise", "opensbli/schemes/spatial/shock_capturing.py: ShockCapturing.evaluate_residuals", "apps/euler_wave_curvilinear/euler_wave_curvilinear.py"]}
{"id": "C80", "title": "Metric terms are continued across block interfaces in the coordinates of the receiving block", "statement": "After the metric kernels of a multi-block program have run, every halo point facing a block interface holds, for every stored metric term and the determinant of the Jacobian, the value in the index coordinates of the receiving block at the facing point of the donor: unchanged where the direction continues (a lower side joined to an upper side), with the signs of the direction and of the determinant changed where it reverses (two lower or two upper sides).", "quantifier": "all dimensions, flags of curvilinear and stretched directions, numbers and sizes of blocks, arrangements of interfaces, shared or separate interface points, halo depths, coordinates", "why_tests_cant": "A sign error in the halo of one face shows only as a wrong second derivative next to that interface; tests would have to cover every combination of sides and dimensions.", "anchors": ["opensbli/equation_types/metric.py: MetricsEquation.apply_interface_bc, fd_interface_factors; MetricInterfaceBC.apply", "opensbli/core/boundary_conditions/multi_block.py: InterfaceBC.set_kernel_range, apply_interface; SharedInterfaceBC", "opensbli/multiblock/algorithm.py: metric kernels", "opensbli/multiblock/blockcollection.py: apply_interface_bc"]}
{"id": "C81", "title": "The equations of a reconstruction kernel compute the interface fluxes", "statement": "The list of assignments put into the kernel of a shock capturing scheme for one direction (averages, inverses, left eigenvectors, characteristic fluxes and solution, wave speeds, adaptive cut-off, weights and reconstructions of both sides of every component, return to physical variables), executed in its order with variables identified by the names they have in the generated C and starting at 0.0, stores in the work arrays the interface fluxes of the characteristic local Lax-Friedrichs scheme.", "quantifier": "all dimensions, flux functions, eigensystems, simple and Roe averages, WENO-JS of any order, WENO-Z up to order 13, TENO 5 and 6 with fixed or adaptive cut-off, up to ten components, all states without singular powers, all points and orders of the loop, all value preserving simplifications", "why_tests_cant": "The kernel has hundreds of assignments which share scratch variables between sides and components; an assignment out of order, a name used twice or an unset variable changes the values only for some states and schemes.", "anchors": ["opensbli/schemes/spatial/shock_capturing.py: Characteristic.get_characteristic_equations, LLFCharacteristic.pre_process, post_process, create_LEV_inverses, create_characteristic_matrices, create_max_characteristic_wave_speed, characteristic_flux_splitting; ShockCapturing.interpolate_reconstruction_variables", "opensbli/schemes/spatial/averaging.py: SimpleAverage.average, RoeAverage.average", "opensbli/schemes/spatial/weno.py: WenoReconstructionVariable.update_quantities, evaluate_quantities", "opensbli/schemes/spatial/teno.py: TenoReconstructionVariable.evaluate_quantities, create_adaptive_CT", "opensbli/code_generation/opsc.py: grid variables declared as 0.0"]}
{"id": "C82", "title": "Equations are read as they are written", "statement": "In the text of an equation the names of coordinates, time, declared constants, index symbols and data are recognised as such; the derivatives handed to the numerical schemes have the same value as those written with Der, Conservative and Skew (taking all derivatives as exact), also after substitutions; Conservative keeps its argument under one derivative and Der leaves derivatives of single data only, inner derivatives first; each derivative is handed to the scheme that was asked for, Temporal for time and Central otherwise.", "quantifier": "all names, coordinate symbols and declared constants; all expressions built from data, constants, coordinates, numbers, sums, products and functions, with any number of derivatives; all values of data in any algebra with commuting derivations; all substitutions; all schemes", "why_tests_cant": "The reading works by substring tests and by replacing equal subexpressions in an order given by tree traversals; whether a derivative is dropped, differentiated twice or given another scheme depends on how derivatives are nested and on the names used.", "anchors": ["opensbli/core/parsing.py: convert_coordinate, set_args, Der.differentiate, Conservative.differentiate, Skew.applys, ParsingSchemes.set_schemes, EinsteinEquation.expand"]}
{"id": "C83", "title": "Equations placed on a block read and write the arrays of this block", "statement": "Setting equations or output arrays on a block turns every data object in them into the array of that name on this block at the current point, so that each equation has the value it had with the objects read from this block; equations keep their number, order and grouping in lists; the constants registered for declaration are those that occur in the equations; placing again, on this or another block, changes nothing.", "quantifier": "all blocks and dimensions, all lists of equations, SymPy equalities, grouped equations with conditions and data objects, in lists or single; all values of arrays and constants", "why_tests_cant": "The conversion flattens the lists, substitutes names one after the other and cuts the flat list into pieces again; whether an equation is lost or moved depends on how the user nests lists.", "anchors": ["opensbli/core/block.py: SimulationBlock.dataobjects_to_datasets_on_block, location_dataset, set_equations, add_io", "opensbli/equation_types/opensbliequations.py: OpenSBLIEquation.convert_to_datasets", "opensbli/core/opensbliobjects.py: GroupedPiecewise.convert_to_datasets, _eval_subs"]}
{"id": "C84", "title": "Every name in the generated program is declared once, before its use, as what it is used for", "statement": "In the program written for a block every name of the headers, the constants, the kernel functions, the reductions, the main program and its loops is declared in an enclosing block of text before it is used, as the kind of thing it is used as (value, array of constants, array accessor, stencil, halo group, range, block, loop counter, file, ...), and no name is declared twice in the same block of text.", "quantifier": "all dimensions, sets of kernels, exchanges, constants with values, arrays of constants, monitors, output objects and program structures, in particular those of the time integration; all sets of header names", "why_tests_cant": "Names are produced in a dozen places (registry of constants while printing, kernel numbers, stencils, exchanges, monitors, outputs) and written in an order that differs from the order of registration; tests compile a few fixed programs.", "anchors": ["opensbli/code_generation/opsc.py: OPSC.__init__, before_main, opsc_def_decs, define_constants, ops_stencils_declare, declare_block, declare_dataset, bc_exchange_call_code, write_kernels, kernel_computation_opsc, kernel_header, loop_alg", "opensbli/core/kernel.py: Kernel.opsc_code, update_block_datasets", "opensbli/code_generation/algorithm/algorithm.py: MainPrg, DoLoop, Condition, Timers, DefDecs", "opensbli/core/diagnostics/simulation_monitors.py: SimulationMonitor", "opensbli/core/io_hdf5.py: iohdf5.opsc_code"]}
{"id": "C85", "title": "The C text of a generated simulation computes the Runge-Kutta iterates of the equations", "statement": "When the generated program is run with its kernels as printed C functions, called at every grid point in turn with the constants the program defines, it compiles, and the solution arrays hold, at the end and in every numbered output file, the iterates of the Runge-Kutta scheme applied to the user's right hand sides, with derivatives replaced by central differences of the chosen order and the grid spacings of the input file; on periodic boxes the totals of conserved components stay the same.", "quantifier": "all dimensions, orders of the scheme, numbers of equations, relations, steps, stages (low storage), grid sizes, values of the constants, boundary conditions and initial arrays; all libraries of C functions in which powers are powers", "why_tests_cant": "The meaning of the printed text depends on constants generated while discretising and while printing, on their order, on names of arrays and on the point by point execution; tests compare snippets of text or a few numbers of a run.", "anchors": ["opensbli/code_generation/opsc.py: OPSC.write_kernels, kernel_computation_opsc, define_constants, OPSCCodePrinter", "opensbli/core/opensblifunctions.py: CentralDerivative.formula, _discretise_derivative", "opensbli/utilities/helperfunctions.py: get_inverse_deltas, increment_dataset", "opensbli/core/grid.py: work_array", "opensbli/schemes/spatial/scheme.py: Central.discretise", "opensbli/schemes/temporal/rk_sbli.py: RungeKutta", "opensbli/schemes/temporal/rk_LS.py: RungeKuttaLS"]}
{"id": "C86", "title": "The C text of a simulation with a shock capturing scheme computes the Runge-Kutta iterates of the flux differences", "statement": "When a program with WENO or TENO reconstruction, characteristic decomposition and local Lax-Friedrichs splitting is run with its kernels as printed C functions (the reconstruction kernel with its hundreds of declared variables, the residual kernel, the relations, central derivatives and updates), called at every grid point in turn, it compiles, every call of the reconstruction kernel stores the interface fluxes of the scheme and changes nothing else, and the solution arrays hold, at the end and in every numbered output file, the Runge-Kutta iterates of the differences of these fluxes over the spacing plus the other terms; on periodic boxes the totals of conserved components stay the same.", "quantifier": "all dimensions, schemes and orders, averaging procedures, eigensystems, numbers of components up to ten, relations, steps, stages (low storage), grid sizes, values of constants, boundary conditions and initial arrays that meet no singular state; all ways SymPy may rewrite the equations that keep their values and printability", "why_tests_cant": "The kernel assigns scratch variables again and again for every component and side, its numbers are printed as digits or quotients, and variables, constants and arrays are identified by their names only; tests compare a few lines of text or one run with a tolerance.", "anchors": ["opensbli/schemes/spatial/shock_capturing.py: ShockCapturing, EigenSystem, Characteristic, LLFCharacteristic", "opensbli/schemes/spatial/weno.py: Weno, WenoReconstructionVariable", "opensbli/schemes/spatial/teno.py: Teno, TenoReconstructionVariable", "opensbli/schemes/spatial/averaging.py: SimpleAverage, RoeAverage", "opensbli/core/opensblifunctions.py: WenoDerivative, TenoDerivative", "opensbli/code_generation/opsc.py: OPSC.write_kernels, kernel_computation_opsc, OPSCCodePrinter"]}
{"id": "C87", "title": "Discretised equations agree with the differential equations to the design order of the scheme", "statement": "For smooth fields the first and second derivatives of the central scheme of order 2m differ from the true derivatives by at most a constant times the spacing to the power 2m, those of the boundary closures by their design order; and the right hand sides of a problem, computed from the solution arrays through its constituent relations with products, powers and nested derivatives, differ from the right hand sides of the differential equations by at most C h^(2m) at every grid point, with a constant that is the same for all grids and all times.", "quantifier": "all dimensions, even orders, spacings (different ones per direction), grid sizes, systems of equations and relations of the kind C77 admits, smooth fields with bounded derivatives (for example all smooth periodic fields), grid points", "why_tests_cant": "A test measures errors on two or three grids for one function; that the measured slope is the order of the scheme for every smooth solution and every equation built from derivatives, products and relations is a statement about limits.", "anchors": ["opensbli/schemes/spatial/scheme.py: Central", "opensbli/core/opensblifunctions.py: CentralDerivative", "opensbli/core/boundary_conditions/Carpenter_scheme.py: Carpenter", "opensbli/core/boundary_conditions/reduced_access_scheme.py: ReducedAccess", "opensbli/core/boundary_conditions/reduced_order_scheme.py", "opensbli/equation_types/opensbliequations.py: SimulationEquations, ConstituentRelations"]}
{"id": "C88", "title": "Simulations of linear waves converge to the solution of the differential equations", "statement": "For a symmetric linear hyperbolic system with constant coefficients on a periodic box, discretised with central differences of order 2m and advanced with the three stage Runge-Kutta scheme, and a time step within the limit of stability: the sum of the squares of the solution never grows, whatever the number of steps; and the values in the solution arrays, at the end and in the files with a number, differ from the exact solution at the time of the step in the root mean square by at most C (dt^3 + h^(2m)), with one constant for all grids, time steps and numbers of steps up to a given time. So it is with the low storage schemes of order three; with that of order four the time step may be larger, and the difference is at most C (dt^4 + h^(2m)) + 10^-13 T S, where S bounds the sum of the first four derivatives in time of the solution, the last term owing to the decimals in the source. In particular the program of apps/wave, with its initial conditions, computes a wave that travels with the speed c0.", "quantifier": "all dimensions, systems of any size, even orders, grids and spacings, time steps within the limit of stability, numbers of steps up to the time, smooth periodic solutions, contents of the arrays before the program starts and orders in which points are visited", "why_tests_cant": "Convergence is a statement about limits over all grids, and stability one about any number of steps; a test compares one or two grids with a tolerance. The whole chain from the equations to the printed program has to be right for it to hold.", "anchors": ["apps/wave/wave.py", "opensbli/schemes/spatial/scheme.py: Central", "opensbli/schemes/temporal/rk_sbli.py: RungeKutta", "opensbli/core/boundary_conditions/periodic.py: PeriodicBC", "opensbli/initialisation/gridbasedinit.py: GridBasedInitialisation", "opensbli/code_generation/algorithm/algorithm.py: TraditionalAlgorithmRK", "opensbli/code_generation/opsc.py: OPSC"]}
{"id": "C89", "title": "Simulations follow the solutions of the discretised equations to third order in the time step", "statement": "Consider discretised equations, linear or not, whose right hand sides are smooth where the solution stays, and a solution of these ordinary differential equations for the values on the grid up to some time. There is a constant C and a largest time step, such that with every smaller time step and any number of steps up to that time, the values of the solution arrays differ from the solution by at most C dt^3. This holds for the default three stage scheme and for the low storage schemes of order three, the default one and 'SSP'. For the low storage scheme of order four the difference is at most C (dt^4 + 10^-13), where C and the largest time step belong to the problem and serve all methods that satisfy the conditions of order four as closely as its decimals do. The right hand sides built from central differences, constituent relations and exchanges of periodic boundaries are smooth wherever their powers and functions are, and from any initial values in that set there is a solution for some time.", "quantifier": "all dimensions, numbers of equations, grids, even orders, right hand sides and relations, solutions, time steps below the bound, numbers of steps up to the time, and initial contents of the arrays and registers", "why_tests_cant": "A statement about a limit and about all numbers of steps; a test computes with a few time steps and looks at the slope. Coefficients that satisfy the conditions of order are not enough: the program also has to evaluate the right hand sides on updated relations and boundary values at every stage.", "anchors": ["opensbli/schemes/temporal/rk_sbli.py: RungeKutta", "opensbli/schemes/temporal/rk_LS.py: RungeKuttaLS", "opensbli/code_generation/algorithm/algorithm.py: TraditionalAlgorithmRK", "opensbli/schemes/spatial/scheme.py: Central", "opensbli/core/boundary_conditions/periodic.py: PeriodicBC", "opensbli/code_generation/opsc.py: OPSC"]}
{"id": "C90", "title": "The time integration preserves what single steps of Euler's method preserve", "statement": "If single steps v + tau F(v) of Euler's method do not leave a convex set (positive densities, bounds of a scalar) or do not increase a convex function (a maximum, a total variation), the default scheme does not either, for any number of steps, if its time step is at most 3/5 tau, and this limit cannot be raised; nor does the low storage scheme in its 'SSP' formulation with at most 0.32 tau. A simulation of diffusion therefore obeys the maximum principle. The default low storage scheme of order 3 should have the property for some time step too.", "quantifier": "all right hand sides, convex sets and functions, states, time steps up to the limit, numbers of steps; for the negative results: all time steps above the limit", "why_tests_cant": "Quantifies over all right hand sides and all convex functions; a test integrates one equation and looks at one norm. The counterexamples need right hand sides made for the purpose.", "anchors": ["opensbli/schemes/temporal/rk_sbli.py: RungeKutta", "opensbli/schemes/temporal/rk_LS.py: RungeKuttaLS", "opensbli/code_generation/algorithm/algorithm.py: TraditionalAlgorithmRK", "opensbli/code_generation/opsc.py: OPSC"]}
{"id": "C91", "title": "The printed kernels of boundary conditions impose the conditions of the model", "statement": "The generated kernel of a boundary condition, as a C function with its stencils, called over the plane (or the points) of the condition, changes the arrays of the solution as the equations of the condition say along every line normal to the boundary, and nothing else; a complete printed program with such kernels advances the solution as the scheme with these conditions. From the first time step on the program has the conditions' values at the boundary and in the halos, at its end and in the files it writes: zero momentum at isothermal walls, mirrored values at a symmetry boundary.", "quantifier": "all setups, dimensions, grids, orders and boundary conditions of the forms of the model, array contents, library implementations of the numerical functions and numbers of time steps", "why_tests_cant": "Relates the text of a kernel, the range of its call and the meaning of its offsets to equations about whole lines, for all data; a test compares the generated file with a stored one.", "anchors": ["opensbli/core/boundary_conditions/bc_core.py: BoundaryConditionBase", "opensbli/core/boundary_conditions/isothermal_wall.py: IsothermalWallBC", "opensbli/core/boundary_conditions/symmetry.py: SymmetryBC", "opensbli/core/boundary_conditions/periodic.py: PeriodicBC", "opensbli/core/kernel.py: Kernel", "opensbli/code_generation/opsc.py: OPSCCodePrinter, OPSC"]}
{"id": "C92", "title": "Programs compute what the equations in index notation say", "statement": "The complete printed program generated for a system of equations and relations written in index notation advances the solution by the Runge-Kutta scheme applied to right hand sides whose values are those of the expressions as written, with the summation convention, the Kronecker delta, first, second and mixed derivatives as difference formulas of the scheme; every component of the solution has exactly its equation, and the relations hold between the arrays. The letters chosen for the indices do not matter.", "quantifier": "all systems of equations and relations in index notation (of the kinds of the model), dimensions, orders in which free indices are listed, grids, orders of schemes, boundary conditions, array contents and numbers of time steps", "why_tests_cant": "Tests compare the expansion of sample equations with stored expressions; that the numbers in the arrays at the end are those of the equations as written is a statement about all equations, all programs and all data.", "anchors": ["opensbli/core/parsing.py: EinsteinEquation.expand, apply_functions", "opensbli/core/opensblifunctions.py: KD, CentralDerivative._sanitise, expand_free_indices", "opensbli/core/opensbliobjects.py: apply_index", "opensbli/equation_types/opensbliequations.py: SimulationEquations, ConstituentRelations", "opensbli/code_generation/opsc.py: OPSC"]}
{"id": "C93", "title": "Dividing a domain into blocks does not change the results", "statement": "A program generated for several blocks advances all blocks together by the chosen Runge-Kutta scheme, with the interfaces exchanged after every stage. When the blocks tile the domain of a one-block program with the same equations, spacings, time step and number of steps, the arrays of the blocks hold at the end, and in every file both programs write for the same step, exactly the values of the one block at the same points of the grid.", "quantifier": "all systems of equations with central schemes without derivatives of derivatives, all dimensions, orders, grids, numbers and sizes of blocks and ways in which they tile a periodic box, own boundary conditions which look the same from blocks and whole, array contents and numbers of steps", "why_tests_cant": "Tests run one layout of two blocks and compare a picture or an error norm; the claim is about all layouts, all equations and all data, and holds exactly, not up to an error.", "anchors": ["opensbli/multiblock/blockcollection.py: MultiBlock.set_equations, discretise, apply_interface_bc", "opensbli/multiblock/algorithm.py: TraditionalAlgorithmRKMB", "opensbli/core/boundary_conditions/multi_block.py: InterfaceBC.apply_interface", "opensbli/schemes/temporal/rk_sbli.py: RungeKutta", "opensbli/schemes/temporal/rk_LS.py: RungeKuttaLS"]}
{"id": "C94", "title": "The program of the Taylor-Green vortex integrates the compressible Navier-Stokes equations and conserves mass and momentum", "statement": "The equations written in apps/taylor_green_vortex, with their substitutions and the skew-symmetric form of the convective terms, expand to the five compressible Navier-Stokes equations; the program generated from them starts from the vortex, advances it by the three stage Runge-Kutta scheme with fourth order differences on a periodic box, and stores in every file the solution after the respective number of steps. The total mass and the three components of the total momentum on the grid are in every file exactly the initial ones. In general every equation whose right hand side is made of derivatives and of skew-symmetric pairs f*Der(g) + g*Der(f) conserves the sum over a periodic grid.", "quantifier": "all grids of at least two points in every direction, spacings, Reynolds, Prandtl and Mach numbers, ratios of specific heats, time steps, numbers of steps and contents of the arrays before the start; for the conservation all systems of equations with central schemes, dimensions, orders and both Runge-Kutta schemes", "why_tests_cant": "Tests compare the enstrophy of a run with reference data, on one grid and up to a tolerance; whether every term of the expanded equations is right, and whether the skew-symmetric form conserves exactly, is a statement about all data.", "anchors": ["apps/taylor_green_vortex/taylor_green_vortex.py", "opensbli/core/parsing.py: EinsteinEquation.expand, Skew", "opensbli/core/opensblifunctions.py: CentralDerivative", "opensbli/schemes/spatial/scheme.py: Central", "opensbli/code_generation/opsc.py: OPSC"]}
{"id": "C95", "title": "The text of an equation is read as its grammar says", "statement": "The text of an equation is read by the rules of Python's arithmetic expressions: what the reader finds is what the rules derive, a text has at most one meaning, products bind before sums, powers before minus signs, sums and products group to the left and powers to the right, spaces do not matter. The texts in apps/taylor_green_vortex and apps/wave are read as the equations whose programs are the subject of C94 and C92.", "quantifier": "all sequences of tokens; all texts whose tokens are separated by spaces; the texts of the two applications", "why_tests_cant": "Tests parse single equations; a wrong rule of precedence shows only for the expressions that depend on it.", "anchors": ["opensbli/core/parsing.py: EinsteinEquation.expand, convert_coordinate", "apps/taylor_green_vortex/taylor_green_vortex.py", "apps/wave/wave.py", "apps/euler_wave/euler_wave.py"]}
{"id": "C96", "title": "A simulation goes on from its files as if it had not been interrupted", "statement": "A program writes its solution every so many steps and at the end. Another program of the same equations, generated with an object that reads the file of step j and without the kernels of the initial condition, computes in its steps exactly what a single program with as many more steps computes: the arrays at the end are the same, and its file number k has the solution of file number j + k. The files hold the solution of the step whose number they have; the arrays listed by the reading objects, and no others, are read, each from the file of the last object that lists it.", "quantifier": "all central and shock capturing problems on one block with three stage or low storage time stepping, all boundary conditions that are functions of the solution, all numbers of steps and frequencies of output, all contents of memory and files before; all lists of reading objects and datasets", "why_tests_cant": "Tests would have to compare a long run with two short ones for every scheme; that no state besides the solution is carried from step to step (the second register of the time scheme) holds for all problems or for none.", "anchors": ["opensbli/core/io_hdf5.py: iohdf5.__new__, get_algorithm_location, set_read_from_hdf5_arrays, hdf5write_opsc_code", "opensbli/core/block.py: SimulationBlock.discretise, setio", "opensbli/code_generation/opsc.py: declare_dataset", "opensbli/code_generation/algorithm/algorithm.py: TraditionalAlgorithmRK", "apps/kelvin_helmholtz/kelvin_helmholtz.py"]}
{"id": "C97", "title": "Contact waves are carried like a passive scalar and gas at rest stays at rest", "statement": "States that differ by multiples of one eigenvector belonging to the flow velocity, for the Euler equations gases of the same velocity and pressure and any density, are carried by the shock capturing program as by a scalar upwind scheme for the density alone: velocity and pressure stay exactly uniform, and the density of every step and file is the one of the scalar scheme with the same reconstruction and the same time stepping. When the gas is at rest nothing changes, whatever jumps the density has.", "quantifier": "all shock capturing problems on a periodic box with such states, all WENO orders and formulations and both TENO orders, all positive densities, any numbers of points and steps, three stage and low storage schemes", "why_tests_cant": "Whether eigenvectors, averages, flux splitting and nonlinear weights together leave velocity and pressure alone shows only as rounding errors or small oscillations in tests, and only for the densities tried; an error of one sign or index is easily taken for the dissipation of the scheme.", "anchors": ["opensbli/schemes/spatial/shock_capturing.py: LLFCharacteristic, pre_process, post_process, solution_vector_to_characteristic, flux_vector_to_characteristic", "opensbli/schemes/spatial/weno.py: LLFWeno.discretise", "opensbli/schemes/spatial/teno.py: LLFTeno.discretise", "opensbli/schemes/spatial/averaging.py: SimpleAverage", "opensbli/physical_models/euler_eigensystem.py: EulerEquations.generate_eig_system", "apps/euler_wave/euler_wave.py"]}
{"id": "C98", "title": "Shock capturing derivatives written in equations are the ones that are computed", "statement": "In equations with derivatives of the schemes Weno and Teno, written as text in index notation, every right hand side is the sum over the directions of a coefficient times the derivative of a flux, plus other terms; coefficients, fluxes, their order over the equations and the directions handed to the scheme are those of the text, and the right hand sides the program advances have the values of those written when the derivatives are the differences of the scheme's numerical fluxes. The texts of the Euler wave application give the Euler equations in two dimensions; its program conserves mass, momentum and energy, and moves the density wave with uniform velocity and pressure.", "quantifier": "all equations in index notation and all operators standing for the derivative; all contents of the arrays before the program; the application with the parameters it sets", "why_tests_cant": "The way from a text to a flux goes through the parser, the expansion of indices, the grouping by direction and the scheme; tests compare single outputs, not the meaning of what was written.", "anchors": ["opensbli/schemes/spatial/shock_capturing.py: ShockCapturing.evaluate_residuals, LLFCharacteristic.direction_flux_vector", "opensbli/schemes/spatial/weno.py: Weno.group_by_direction", "opensbli/schemes/spatial/teno.py: Teno.group_by_direction", "opensbli/core/parsing.py: EinsteinEquation.expand", "opensbli/physical_models/euler_eigensystem.py: EulerEquations", "apps/euler_wave/euler_wave.py"]}
{"id": "C99", "title": "On mapped grids uniform flow is kept, cell-weighted sums are conserved where the metric identities hold, and derivatives have the order of the scheme", "statement": "When equations are transformed to a grid given by arrays of coordinates, the metric terms computed before the time loop are exactly the inverse of the matrix of finite differences of the coordinates, and detJ its determinant. A uniform solution then stays uniform, exactly, on every mapping. The sum over the grid of each component written with derivatives, each point weighted by detJ, is conserved on periodic boxes in two dimensions for every mapping, in any number of dimensions for grids stretched direction by direction, and in general where the metric identities hold for the differences. Derivatives of smooth fields on smooth mappings have the order of the scheme.", "quantifier": "all mappings with invertible cells, all combinations of curvilinear, stretched and plain directions in up to three dimensions, all orders, numbers of points and steps, all initial arrays, three stage and low storage schemes", "why_tests_cant": "Tests use a few grids on which derivatives of the mapping are nearly exact; whether sums are conserved on others depends on discrete identities between products of differences, and the order of accuracy is a statement about all grids.", "anchors": ["opensbli/equation_types/metric.py: MetricsEquation.generate_transformations, apply_transformation, generate_fd_metrics_equations, spatial_discretisation", "opensbli/core/opensblifunctions.py: CentralDerivative.classical_strong_differentiabilty_transformation", "opensbli/schemes/spatial/scheme.py: Central.discretise, general_discretisation", "apps/katzer_SBLI/katzer_SBLI.py"]}
{"id": "C100", "title": "Second derivatives on mapped grids: uniform flow is kept, on stretched and curvilinear grids they have the order of the scheme, and at sides which are not periodic they do not converge", "statement": "When equations with second derivatives are transformed to a grid given by arrays of coordinates, the arrays SDijk computed before the time loop are the finite differences of the entries of the inverse of the matrix of finite differences of the coordinates, continued to the halos periodically or by reflection. A uniform solution then stays uniform, exactly, on every mapping. On stretched and on curvilinear grids given by smooth mappings the transformed first and second derivatives of a smooth function, and whole right hand sides, have the order of the scheme at all points of periodic directions and away from the sides of the others, for all grids with one constant. At the boundary points of directions which are not periodic, where the central formulas are used, the arrays SDijk are zero whatever the mapping, and the second derivative is wrong by an amount that does not depend on the spacing.", "quantifier": "all mappings with invertible cells, all combinations of curvilinear, stretched and plain directions in up to three dimensions, all orders, numbers of points and steps, all initial arrays, three stage and low storage schemes; all smooth stretchings with slope bounded below and bounded derivatives; all smooth mappings with determinant bounded away from zero and bounded derivatives", "why_tests_cant": "The order is a statement about all grids and spacings, and the derivatives of metric terms are composed of three difference formulas and a fill of halos whose errors can only be compared by analysis; tests use a grid or two, and an error confined to the boundary points is below their tolerances.", "anchors": ["opensbli/equation_types/metric.py: MetricsEquation.generate_transformations, generate_sd_metrics_equations, full3D_SD_transformation, metric_boundary_condition, spatial_discretisation; MetricBoundaryCondition.apply", "opensbli/core/opensblifunctions.py: CentralDerivative.classical_strong_differentiabilty_transformation_sd, _sanitise", "opensbli/schemes/spatial/scheme.py: Central.discretise"]}
{"id": "C101", "title": "A scheme has the order it is asked for, or the request is refused", "statement": "Creating a spatial or temporal scheme with an order either raises an exception or gives formulas of that order and no less: a central scheme differentiates, a WENO or TENO scheme with its optimal weights reconstructs, exactly for the polynomials this order calls for, and a time step meets the conditions of that order. Central schemes keep this for even orders, for first and second derivatives; odd orders are accepted, and are met by first derivatives in Python 2 only, with a one sided formula. WENO keeps it for odd orders from three on (WENO-Z up to 13); an even order silently gives the scheme of the order below. TENO has one order less than asked for. Runge-Kutta schemes keep it, but any formulation other than the letters SSP is ignored without notice.", "quantifier": "all integers as orders, all formulation names, both divisions of integers (Python 2 and 3), first and second derivatives, both sides of a reconstruction, all polynomials, origins and spacings", "why_tests_cant": "The order is a statement about all polynomials and grids, that no higher order is reached needs a counterexample for every order, and requests range over all integers; tests create the handful of orders in use.", "anchors": ["opensbli/schemes/spatial/scheme.py: CentralHalos, Central.__init__, Central._generate_weights", "opensbli/schemes/spatial/weno.py: Weno.__init__, WenoHalos, JS_smoothness.generate_smoothness_coefficients, WenoZ.global_smoothness_indicator", "opensbli/schemes/spatial/teno.py: Teno.__init__", "opensbli/schemes/temporal/rk_sbli.py: RungeKutta.__init__", "opensbli/schemes/temporal/rk_LS.py: RungeKuttaLS.__init__, get_coefficients"]}
{"id": "C102", "title": "Simulations of advection and diffusion keep the bounds of their initial values and converge at every grid point", "statement": "For equations of advection and diffusion with constant coefficients on a periodic box, differences of second order and any of the Runge-Kutta schemes: when the time step times the sum of 2 K/\u03b4\u00b2 is at most one and no cell P\u00e9clet number |A| \u03b4/K exceeds two, no component ever leaves the interval of its initial values, and from the values of a smooth solution the program computes, at every grid point, at every time up to T, values at most C(dt\u00b3 + h\u00b2) from the solution, with one constant C for all grids and time steps, and with the low storage scheme of order four C(dt\u2074 + h\u00b2) and a term of the size of the last digit of its coefficients. The limit of the time step is close to the best: with 1.26 times it, diffusion on two points leaves the interval. Diffusion in a rod between two symmetry planes converges in the same way and keeps the heat exactly, the points at the ends counting half, so that all values tend to the average of the initial ones.", "quantifier": "the default scheme and the low storage schemes of orders three and four, all numbers of dimensions, components, points and steps, all coefficients, spacings and time steps within the limits, all smooth periodic solutions, all initial values for the bounds", "why_tests_cant": "Convergence compares a program with a solution in continuous space and time, with one constant for infinitely many grids; a test runs a few grids for a few initial values and cannot bound all values at all points.", "anchors": ["opensbli/schemes/spatial/scheme.py: Central.discretise", "opensbli/schemes/temporal/rk_sbli.py: RungeKutta", "opensbli/schemes/temporal/rk_LS.py: RungeKuttaLS", "opensbli/core/boundary_conditions/periodic.py: PeriodicBC", "opensbli/core/boundary_conditions/symmetry.py: SymmetryBC", "opensbli/core/boundary_conditions/exchange.py: ExchangeSelf", "opensbli/code_generation/opsc.py: OPSC"]}
{"id": "C103", "title": "LaTeX documents contain every equation and every string once, in order, and can be read", "statement": "A document written with write_string and write_expression, or with write_latex of a class of equations, is a well formed LaTeX file: the paragraphs and displayed formulas TeX finds in it are the strings and the expressions given, in their order, whatever their number and length and however the text is wrapped; brackets and environments are closed, formulas are not nested, and no script is misplaced or doubled. The document of the algorithm contains the equations of all kernels in the order of the program.", "quantifier": "all titles, strings and lists of expressions of any depth, all line breaks textwrap may choose, all programs (trees of loops, timers, kernels, exchanges, input and output)", "why_tests_cant": "Whether a document can be compiled depends on the nesting of all parts of all expressions and on where lines break; a test compares the text of a few documents and does not run LaTeX.", "anchors": ["opensbli/code_generation/latex.py: LatexWriter", "opensbli/equation_types/opensbliequations.py: write_latex", "opensbli/core/kernel.py: Kernel.write_latex", "opensbli/code_generation/algorithm/algorithm.py: Condition.write_latex", "opensbli/core/boundary_conditions/exchange.py: write_latex"]}
