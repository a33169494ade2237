{
 "C11": [
  "partial",
  "C11_weights_any_data_partial, C11_between_any_data_partial: all data, both orders and both sides, although the indicator of order 6 can be negative (C13_six_right_indicator_negative). Missing: the data for which order 6 divides by zero (C13_six_zero_denominator)."
 ],
 "C12": [
  "partial",
  "The design order claimed by the code is not met: the linear schemes are exact one degree lower (C12_linear_scheme_exact_partial), and C12_five_not_fifth_order / C12_six_not_sixth_order prove the full claim false."
 ],
 "C13": [
  "partial",
  "Holds for every indicator except the right-biased order 6 one, which misses a square; the negation is proved with witnesses."
 ],
 "C20": [
  "partial",
  "Proved for products of two factors and single function applications; rejection characterised. The full claim is false for powers and sums: C20_power_wrong and C20_sum_wrong are concrete witnesses."
 ],
 "C22": [
  "partial",
  "Exact on both sides for all closures except the reduced order second derivative at the right end, which has the wrong sign (C22_reduced_order_right_second_wrong)."
 ],
 "C23": [
  "partial",
  "Selection of formulas is fully characterised. Reads stay inside the domain exactly when the interior stencil is not wider than the number of closed points (C23_in_domain_partial); otherwise they leak (C23_wide_interior_leaks)."
 ],
 "C24": [
  "partial",
  "Proved for every grid, dimension and halo depth when all directions request the same depth (also the first layers for asymmetric WENO halos). The code uses direction 0's depth everywhere and the lower depth for upper halos: C24_direction_dependent_halos_wrong, C24_asymmetric_halo_not_filled."
 ],
 "C25": [
  "partial",
  "Symmetry and mirror formulas proved for every dimension and halo depth. The inviscid wall removes the normal momentum with the metric of the interior point: tangency at the wall is proved when the metric is the same at both points (C25_wall_tangential_partial) and refuted otherwise (C25_wall_not_tangential)."
 ],
 "C29": [
  "partial",
  "Outlet, transfer and isentropic inlets proved. The pressure-extrapolation inlet copies total energy, so the halo pressure equals the boundary pressure only when density and momentum agree (C29_inlet_halo_pressure_partial); C29_inlet_halo_pressure_wrong refutes the general claim."
 ],
 "C61": [
  "partial",
  "Proved for expressions whose accesses sit at one location along the direction; with several locations the sequential replacement captures already moved accesses (C61_increment_captures)."
 ],
 "C32": [
  "partial",
  "Proved exactly when the argument lists agree (C32_match_iff): always, unless a kernel uses both indexed constants and globals (C32_mixed_mismatch). Literal indices and duplicate parameters are refuted separately."
 ],
 "C33": [
  "partial",
  "Soundness of read, write and read-write modes proved for all equation lists, except that a conditional write is passed as write-only although it keeps the old value (C33_conditional_write_keeps_old) and written globals are passed read-only (C33_global_output_read_only)."
 ],
 "C38": [
  "proved",
  "Declared before use is conditional on registration order; C38_use_before_declaration shows the condition is needed."
 ],
 "C39": [
  "partial",
  "Proved for every printing history when no user constant is named like a generated one; C39_user_constant_collision refutes the claim without that condition."
 ],
 "C46": [
  "partial",
  "Proved for every history without a counter reset; C46_reset_duplicates shows that resetting the counter, which the API offers, gives two kernels one name."
 ],
 "C30": [
  "partial",
  "Proved for blocks whose directions are aligned and whose orientation is given explicitly. Refuted elsewhere: the three-entry match uses the side as the flip flag (layers reversed for a lower donor side), rotated blocks are not filled, asymmetric halo depths on upper-upper faces are wrong."
 ],
 "C36": [
  "partial",
  "Exact characterisation: accesses are in bounds iff the order is at most 11 (central) or 7 (WENO); counterexamples for higher orders, nested same-direction derivatives and arrays named *Residual*."
 ],
 "C62": [
  "partial",
  "Proved for single-level central, pointwise and reconstruction kernels; C62_same_direction refutes it for nested derivatives in one direction."
 ],
 "C63": [
  "partial",
  "Proved for two-level nestings with a single inner derivative direction sequence; sums of inner derivatives and three levels are refuted by witnesses."
 ],
 "C42": [
  "partial",
  "Proved for every block with one system of simulation equations (any other equation classes, outputs, steps, stages); C42_two_systems_lose_kernels refutes it for two systems on one block."
 ],
 "C43": [
  "proved",
  "Iterations, counts, file names and saved states proved for all inputs; named periodic output raises and two unnamed outputs declare one variable twice (both characterised exactly)."
 ],
 "C45": [
  "partial",
  "Exact behaviour proved for all files; the intended claim holds when no substituted name is a proper suffix of a declared name and fails otherwise (C45_suffix_collision)."
 ],
 "C59": [
  "partial",
  "Pairing and length check proved; a condition's own direction and side are never compared with its position (C59_order_not_checked)."
 ],
 "C53": [
  "partial",
  "Constant and linear fields (C53_in_place_linear) and the maximum principle (C53_in_place_maximum) are proved for the emitted kernel, which overwrites the array it reads, for all orders of the points; the response to waves is proved for simultaneous update. The result does depend on the order of the points (C53_order_dependence), which refutes the last sentence of the claim; C53_in_place_partial says what the first point visited gets."
 ],
 "C56": [
  "partial",
  "The jump conditions, the Mach number and the temperature are proved for free-stream velocity one. The acceptance check compares degrees with radians (C56_check_units) and the pressure is not scaled for other velocities (C56_velocity_not_scaled)."
 ],
 "C47": [
  "partial",
  "Proved: residuals equal the sum of all discretised terms for the central scheme alone, a shock capturing scheme alone, and the usual pair, under conditions on where derivatives and Re occur. The general claim is false; the seven findings prove the exceptions (stale residual, dropped source terms, double counting, overwriting, scheme order)."
 ],
 "C48": [
  "partial",
  "Proved: convective work arrays for any groups and start index; sorted viscous kernels when inner derivatives have fewer directions; replacement never changes values. False in general: same-direction nesting reads stale arrays, and the substitution order may leave a derivative in place (both proved)."
 ],
 "C49": [
  "proved",
  "Expansion of index notation against a separately stated meaning; symbols, sums, products, two-argument functions. The order of the free indices is that of a set (finding)."
 ],
 "C50": [
  "partial",
  "Proved when no index name of a term begins with another index name. False otherwise, and names of components of different terms may collide (both proved)."
 ],
 "C55": [
  "partial",
  "Proved: metric terms are the inverse Jacobian for every pattern of flags and any dimension; first and second derivative transformation; interface signs; equations without nested derivatives. False for nested derivatives (order of a set), proved as finding."
 ],
 "C58": [
  "partial",
  "Proved: exactly the interior is read iff lower and upper halo depths agree (2D, 3D). Findings: one dimension raises, three dimensional metadata describes two directions only."
 ],
 "C64": [
  "partial",
  "Proved: momenta, halo pressure/mirror relations, frame. False: where the strip is forced the wall is colder than prescribed, and the halo velocities average to zero instead of the prescribed wall velocity (both proved)."
 ],
 "C65": [
  "partial",
  "Proved on one block for all sizes and segmentations. False across blocks: range arrays of split boundaries carry no block number and are shared (proved)."
 ],
 "C66": [
  "partial",
  "Proved: impermeability, wall pressure, linear halos, uniform flow; foot of the normal for rising walls. False for falling walls and for walls of direction 0 with slanted lines (both proved)."
 ],
 "C67": [
  "partial",
  "Proved except: the speed of sound relation is the square of the speed of sound, and the viscosity accessor returns the momentum components (both proved)."
 ],
 "C68": [
  "partial",
  "Proved: values for every distribution over processes, rows, names, placeholders. False: header columns for tuple probes, one dimensional tuples, output to the screen (all proved)."
 ],
 "C69": [
  "partial",
  "Proved for equations whose convective and viscous parts each keep a derivative that is not stored. False otherwise: with every derivative stored no residual kernel is generated; a part with only stored derivatives is dropped; an unstored derivative inside another stays undiscretised; the scheme object works once (all proved)."
 ],
 "C70": [
  "partial",
  "Exact description of what is computed; holds when all or none of the equations have derivatives. Equations without derivatives are dropped when another one has them; halos are then ignored; nested derivatives depend on set order."
 ],
 "C71": [
  "partial",
  "Proved when there is a derivative, derivatives do not involve arrays of the class, and the dictionary lists relations in dependency order; the other cases are shown to fail."
 ],
 "C72": [
  "partial",
  "Proved for arrays with halos. Arrays whose name makes them be declared without halos are written outside their memory (C72_outside_memory)."
 ],
 "C73": [
  "partial",
  "Order of execution and acceptance fully; interface halos for all arrangements of aligned blocks except points in the halos of two directions, where four blocks meeting at a point are shown to leave a stale corner; metrics ignore their order. C73_periodic_output, C73_saved_together: when the objects of all blocks write; C73_declarations: the names of their buffers."
 ],
 "C74": [
  "partial",
  "For adiabatic walls; convergence of the shooting is proved only for affine dependence, and an unconverged profile is accepted silently; a given wall temperature divides by zero; a second boundary layer is always taken in the third direction. Quality of the polynomial fit, odeint and rounding are not modelled."
 ],
 "C75": [
  "partial",
  "Holds when no condition of a grouped piecewise is an equality, no integer is divided by an integer, moduli have operands of the same sign and no global values, no constant is hidden by a grid variable, and negative powers of constants have constant exponents; theorems show the text wrong or not compiling otherwise. Constants may be registered and inverse powers requested in any order before the kernels are written (`Registered`). SymPy's own printing rules (sums, products, powers, functions) are assumed as described in Model/CCode.lean; double arithmetic is that of an ordered field."
 ],
 "C76": [
  "partial",
  "The flux, the step for the constant sensor, and the step for the Ducros sensor are proved in full generality, the latter with the arrays actually read. The claim fails where the work arrays of the sensor and of the fluxes coincide (`Central`), for a base scheme with characteristic reconstruction, and for central schemes reaching further than the filter; separate theorems. Conservation is shown for the constant sensor only. General curvilinear equations are not modelled."
 ],
 "C77": [
  "partial",
  "Proved end to end under the hypotheses of `Setup.Valid`. Each hypothesis excludes equations the code accepts and gets wrong or drops: relations using relations which are not differentiated in the same direction (C77_stale_constituent), functions in right hand sides and right hand sides which are not sums or products (C63), several levels of nested viscous derivatives (C63), viscous terms without any derivative. One spatial scheme, one block, relations without derivatives; the kernels of the boundary conditions are one function on the solution arrays, instantiated with the periodic exchange of C24."
 ],
 "C78": [
  "partial",
  "Proved end to end under the hypotheses of `Shock.Valid`, the conservation theorems for blocks whose direction 0 has shock capturing derivatives. The hypotheses exclude problems the code accepts and gets wrong: terms with the Reynolds number but no derivative next to viscous derivatives (C78_counted_twice), blocks without shock capturing derivatives in direction 0 (C78_first_direction), relations whose constituents have smaller ranges (C77_stale_constituent). The grid variables inside the reconstruction kernel are one function (their values are C18-C22); TENO without the adaptive sensor; eigensystems as given expressions."
 ],
 "C79": [
  "proved",
  "Metric terms are arrays the program reads and does not assign in the time loop (their evaluation is C55). Uniform flow is not claimed for fluxes that contain metric terms (conservation form on general curvilinear grids), where it depends on discrete metric identities."
 ],
 "C80": [
  "partial",
  "Proved for interfaces which reverse the direction, for all arrangements of blocks. False for interfaces between a lower and an upper side, the usual case: the signs are changed all the same (C80_opposite_sides_wrong). Corner halos as in C73; rotated blocks as in C30."
 ],
 "C81": [
  "partial",
  "Proved for at most ten components and dataset names which collide with no variable; with twelve components or a dataset inv_rho names coincide (C81_names_collide). With simple averages and an eigensystem without density the kernel divides by a variable which is never assigned (C81_unset_average); the quotient is not used. SymPy's factor and subs enter by a contract that values are kept at states without singular powers; real arithmetic. The filter branch is C76."
 ],
 "C82": [
  "partial",
  "Proved for derivatives nested at most twice, of the same kind, where inner Der and derivatives touched by a substitution have the default scheme. Outside of that the code differs: names containing the coordinate and an underscore are coordinates (C82_names_coordinate), rebuilt derivatives lose their scheme (C82_rebuilt, C82_substitution_scheme, C82_inner_scheme), inner schemes are ignored (C82_inner_scheme_conservative), three levels are refused or left undone (C82_three_conservative, C82_three_der), Der inside Conservative is left (C82_der_in_conservative), coordinates with indices are differentiated as plain symbols (C82_coordinates), Skew of a sum is wrong and of a symbol refused (C82_skew_sum, C82_skew_symbol). SymPy's diff, subs and xreplace are modelled by their rules; MetricDer is not modelled."
 ],
 "C83": [
  "partial",
  "Proved for lists whose elements are equations or lists of equations. Lists in lists and tuples lose or move equations (C83_nested_lost, C83_tuple_lost) or stop the code (C83_nested_empty); expressions that are no equations are not placed and their constants not registered (C83_expression)."
 ],
 "C84": [
  "partial",
  "Proved (C84_scoped_partial, C84_algorithm_partial) when constants are registered and not called like arrays or header names, no kernel is placed twice outside the time loop, at most one output has no name, monitors concern arrays of kernels, and stage coefficients are used in the stage loop. Each of these conditions is needed: the generator writes ill-scoped programs otherwise. Block numbers other than 0 raise. Inverse powers requested while the equations are discretised are included."
 ],
 "C85": [
  "partial",
  "Proved (C85_text_run_partial, C85_rk_partial, C85_ls_partial, C85_conservation_rk_partial, C85_conservation_ls_partial) under the conditions of C77 on the problem and of C75 on its expressions, both stated on the problem (`Text.Suits`), when different arrays have different names. Names can clash (C85_name_clash). Other kernels, for example initial conditions with the indices of points, may come with any text that says what they compute (`Text.Says`, used in C88_wave). The kernels of boundary conditions are functions on the arrays, not text; those of shock capturing schemes are the subject of C86; boundary closures are in the text (C85_closures_program, C85_closure_formulas, C85_closure_exact_partial, C85_no_halo), the first derivative of Carpenter with its printed digits (C85_closure_rounding); the factorisation SymPy applies to the closure formulas is not modelled. The reduced order closure prints a second derivative of the wrong sign on the right (C85_reduced_order_wrong)."
 ],
 "C86": [
  "partial",
  "Proved (C86_reconstruction for one call, with the adaptive TENO scheme too; C86_text_run_partial, C86_rk_partial, C86_ls_partial, C86_conservation_rk_partial, C86_conservation_ls_partial for programs without a sensor) under the conditions of C78 on the problem, of C81 on the kernel and of C75 on its expressions, when different arrays have different names, no constant is called like a grid variable, and no singular state is met (C86's `NeverSingular`). The order in which SymPy writes terms and the kernels of boundary conditions are not part of the text."
 ],
 "C87": [
  "partial",
  "Proved for derivatives (C87_central), expressions with nested derivatives (C87_expressions) and right hand sides from the solution arrays (C87_right_hand_sides). Closures (C87_closure_partial): not the second derivative of the reduced order closure on the right, which has the wrong sign (C22_reduced_order_right_second_wrong); the decimals printed for Carpenter are the subject of C85_closure_rounding. Functions and powers other than natural ones may be applied to expressions without derivatives only, as in constituent relations."
 ],
 "C88": [
  "partial",
  "Stability (C88_stability) and convergence (C88_convergence) are proved for the operator of C77, and for the run of the printed program (C88_text_convergence_partial) whose boundary conditions are the exchanges of periodic ones. C88_stability_ls, C88_convergence_ls and C88_text_convergence_ls_partial are the low storage schemes of order three, C88_wave_ls the program of apps/wave with them. C88_stability_ls4, C88_convergence_ls4, C88_text_convergence_ls4_partial and C88_wave_ls4 are the low storage scheme of order four with the decimals of the source: its limit of stability is wider, and its error C (dt^4 + h^(2m)) + 10^-13 T S, where S bounds the first four derivatives in time of the solution and the last term is that of the decimals. C88_wave is the whole program of apps/wave: its initialisation kernel, with the indices of the grid, is part of the printed text; M_PI is treated as a constant of the program. Arithmetic is that of the reals. Not proved: equations that are not linear, other boundary conditions."
 ],
 "C89": [
  "partial",
  "C89_default and C89_low_storage are about the schemes and any smooth right hand side in a finite dimensional space; C89_simulation and C89_simulation_ls about the operator of C77 with boundary conditions that fill the halos from the grid; C89_text_partial and C89_text_ls_partial about the run of the printed program. C89_smooth proves the smoothness that these assume for central schemes on periodic boxes, and C89_flow is a nonlinear program from its initial values to its error, with no assumption but non-vanishing density. C89_order_four gives, for each problem, constants C, h0 and eta0 that serve all explicit methods whose coefficients add up to at most sigma and meet the eight conditions of order four up to eta <= eta0: the error is at most C (dt^4 + eta); C89_order_four_lipschitz needs no eta0. C89_ls4_method shows that the low storage scheme of order four, with the decimals of the source, is such a method with eta = 10^-13, so that C89_low_storage4, C89_simulation_ls4 and C89_text_ls4_partial apply these constants to it, if 10^-13 <= eta0; C89_smooth4 is the smoothness they need. Arithmetic is that of the reals, and the coefficients of 'SSP' are those of their exact formula. Not proved: shock capturing schemes, whose right hand sides are not smooth."
 ],
 "C90": [
  "partial",
  "C90_default, C90_monotone and C90_ssp are about the schemes, with the coefficients of 'SSP' in exact arithmetic; C90_simulation and C90_simulation_ssp about the operator of C77 with boundary conditions that fill the halos from the grid; C90_text_partial about the run of the printed program, and C90_heat is a program with nothing assumed about it. C90_default_sharp and C90_ssp_limit bound the limits from above: the formulation called SSP allows a time step of less than a third of that of Euler's method, the default scheme three fifths. The default low storage scheme has the property for no time step (C90_low_storage_not). Not proved: that a given shock capturing scheme has the property for Euler's method."
 ],
 "C91": [
  "partial",
  "C91_text_partial, C91_kernel: the printed kernel against the equations of C25-C31; C91_program and C91_rk_partial / C91_ls_partial: complete programs with any number of printed conditions, the operator B of C77 being their composition; C91_boundary_values_partial, C91_no_slip_partial: the values after the first step. C91_symmetry and C91_isothermal_partial instantiate them; C91_wall_names: the grid variables of a wall have different names if there are at most ten momenta. C91_rod is a complete printed program of diffusion in an insulated rod, with nothing assumed about it, which obeys the maximum principle. C91_tube is the same for a gas between isothermal walls (no slip and wall temperature), C91_wall_and_outlet for a gas between an adiabatic wall and a pressure outlet; C91_wall_temperature_partial, C91_adiabatic_no_slip_partial and C91_outlet_pressure_partial are the general statements. C91_plain with C91_zero_gradient, C91_extrapolation, C91_inlet_transfer, C91_inlet_pressure covers the other conditions; C91_shock_rk_partial / C91_shock_ls_partial are programs of shock capturing schemes. Partial: as C85; the Carpenter adiabatic wall (rounded coefficients), conditions which read other arrays than the solution (metrics, coordinates) and those with general powers are not covered."
 ],
 "C92": [
  "partial",
  "C92_equations, C92_relations: the equations with component numbers against the meaning of index notation of C49 (Spec/Einstein, Spec/Notation); C92_rk_partial, C92_ls_partial: the printed programs of C85. C92_wave and C92_tube: the programs of apps/wave and of a gas between isothermal walls from their equations in index notation, with nothing assumed about them. C92_renaming, C92_letters: other letters for the indices. C92_constant_letters_not_free: constants are declared with their letters. Partial: as C85; the equations are taken after parsing and differentiation (C82); numbers are symbols; SymPy's order of terms and factors and the collection of equal ones, LC, and functions other than powers are left out."
 ],
 "C93": [
  "partial",
  "C93_program_rk_partial, C93_program_ls_partial: the arrays and files of the program of several blocks are the iterates of a joint Runge-Kutta step (Spec/SimulationMB). C93_split_rk_partial, C93_split_ls_partial: equality with the program of one block for any layout meeting Splits. C93_tiling_rk, C93_tiling_ls: periodic boxes cut into blocks in any dimension. C93_wave: the wave equation on a ring of any number of blocks of any sizes, both programs being generated. C93_chain_rk, C93_chain_ls: intervals with any boundary conditions at the ends, as chains of blocks; C93_wave_chain an instance. C93_mixed_derivatives_differ, C93_mixed_derivatives_not_same: with a mixed derivative and four blocks meeting at a point, the generated programs give different values after one step. Partial: as C77 for the equations of one block; equations with derivatives of derivatives read corners of halos, where interfaces leave old values (C73_corner_stale), and are excluded by hreads; the interfaces join whole faces of opposite sides with the same direction."
 ],
 "C94": [
  "partial",
  "C94_equations, C94_relations: the expansion of the written equations (Model/FrontEnd). C94_navier_stokes: their values are those of Spec/NavierStokes, which is written without the code generator. C94_taylor_green: the printed program, nothing assumed about it. C94_skew_rk, C94_skew_ls: conservation for all equations made of derivatives and skew-symmetric pairs. C94_energy_lost: the total energy of a viscous flow is not conserved. Partial: the conservation of energy fails; SymPy's rearrangement of sums and products is not modelled beyond numbers; real numbers instead of floating point. The texts themselves are read in C95."
 ],
 "C95": [
  "partial",
  "C95_grammar: the parser accepts a list of tokens as an expression if and only if the rules of Spec/Grammar derive it. C95_unambiguous: no list of tokens has two meanings. C95_read_joined: from characters, with spaces or without (C95_read: with spaces between all tokens). C95_spaces: spaces do not matter. C95_value: the expression made of a text has the value of what is written, in any calculus (commutative algebra with commuting derivations). C95_side_partial: and so has the expression that is brought to index notation, with substitutions, differentiation of products and combination of numbers. C95_whole_number, C95_decimal: numbers are what their digits write. C95_derivative: the coordinates and the scheme of a derivative as written. C95_indices: a name is its base and its indices in the order written. Tgv.C95_equations, Tgv.C95_relations: the texts of apps/taylor_green_vortex give the equations and relations of C94. C95_wave: the text of apps/wave gives the equation of C92_wave. Partial: C95_value asks that `Skew` is written of products of two names, C95_side_partial the conditions of C82; the tokenizer and the grammar are Python's, modelled from its language reference; of it only what equations use (no comparisons, lists, strings, exponents of numbers, unary plus)."
 ],
 "C96": [
  "proved",
  "C96_restart_rk, C96_restart_ls (central schemes), C96_restart_shock_rk, C96_restart_shock_ls (WENO and TENO): Continues. C96_numbered_file, C96_final_file: which file has the solution of which step. C96_files_continue: the files of the second program. C96_objects_write_later: objects write in or after the loop. C96_sources: which arrays are read from which file. C96_initial_conditions_win: initial conditions replace what was read. C96_lower_case, C96_unknown_first, C96_unknown_later: findings on the objects. The theorems are for programs whose other kernels are placed before the time loop (no filters, no statistics) and ask that the arrays that are neither solution nor given by relations (coordinates, metric terms) are made again as they were."
 ],
 "C97": [
  "partial",
  "C97_contact_rk_partial, C97_contact_ls_partial: the arrays are those of the scalar scheme, at the end and in the files, for all WENO and TENO schemes. C97_at_rest, C97_at_rest_ls: with velocity zero nothing changes. C97_gas_at_rest: the Euler equations in two dimensions; C97_gas_at_rest_roe: with Roe averages. Missing: data for which TENO of order 6 divides by zero (C13_six_zero_denominator) are not told apart; the moving wave is followed while the scalar scheme keeps the densities positive, which WENO schemes need not do."
 ],
 "C98": [
  "partial",
  "C98_right_sides: the value of right hand sides taken apart, for any operator. C98_flux_vectors: directions and fluxes handed to the scheme. C98_rk_partial: from index notation to the program. C98_texts: the texts of apps/euler_wave. C98_euler_wave_conserves: its program conserves. C98_density_wave_partial: and moves the wave as the scalar scheme does. Missing: as C78 and C92; powers and products of shock capturing derivatives, and derivatives of one direction twice in an equation, are left out; positivity of the scalar scheme is assumed."
 ],
 "C99": [
  "partial",
  "C99_metrics: metric terms and detJ at the beginning of the time loop. C99_conservation_rk, C99_conservation_ls: weighted sums, given the metric identities; C99_two_dimensions, C99_stretched: where they hold always. C99_defect, C99_three_dimensions: without them the sums change, and there are such grids in three dimensions. C99_uniform_flow, C99_uniform_flow_ls: uniform solutions. C99_accuracy: order of the derivatives. Second derivatives: C100. Missing: grids of several blocks."
 ],
 "C100": [
  "partial",
  "C100_second_metrics, C100_derivatives: the metric terms and SDijk at the beginning of the time loop. C100_uniform_flow, C100_uniform_flow_ls: uniform solutions. C100_accuracy: order of second derivatives in a stretched direction. C100_curvilinear: order of first and second derivatives on curvilinear grids. C100_right_hand_sides: order of whole right hand sides on curvilinear grids. C100_mirrored, C100_boundary_inconsistent: the boundary points of sides which are not periodic. Missing: Carpenter's formulas at the sides; grids of several blocks (C80)."
 ],
 "C101": [
  "partial",
  "C101_central, C101_weno, C101_teno, C101_runge_kutta, C101_low_storage: requests accepted, and the exact order of what is built. C101_central_halos: the halos cover the formula for every order. The property fails for odd orders of Central (C101_central, C101_order_one_has_no_second_derivative), even orders of WENO (C101_weno_even), TENO (C101_teno) and misspelt formulations (C101_formulation_ignored). Order of WENO and TENO is that of the linear scheme; the nonlinear weights are in C09, C10, C13."
 ],
 "C102": [
  "partial",
  "C102_principle, C102_principle_ls, C102_principle_ls4: the bounds, for the default scheme and the low storage schemes of orders three and four, with the limit of Euler's method; C102_text_principle_partial, C102_text_principle_ls_partial, C102_text_principle_ls4_partial: for the printed programs, at their end and in the files with a number. C102_convergence, C102_convergence_ls, C102_convergence_ls4: convergence in the maximum norm, of order four in time up to the last digit of the decimals of the source; C102_text_partial, C102_text_ls_partial, C102_text_ls4_partial: of what the printed programs compute. C102_heat, C102_heat_ls4, C102_heat_principle, C102_heat_principle_ls, C102_heat_principle_ls4, C102_decay: whole programs, about which nothing is assumed. C102_rod: the same with symmetry conditions at both ends, whose kernels are part of the program; C102_rod_heat: it keeps the heat; C102_rod_equilibrium, C102_rod_limit: its values tend to the average. C102_limit: beyond the limit a step leaves the bounds. Partial: as C85 (arithmetic of real numbers, boundary conditions that are exchanges, apart from the rod), differences of second order, constant coefficients."
 ],
 "C103": [
  "partial",
  "C103_document: a reader for TeX's tokens, groups, environments and scripts finds exactly the strings and expressions given; C103_equations: for the equations of a class, from what SymPy prints for the parts. C103_program_partial: for the algorithm. It fails for real programs: names with an underscore in strings, as those of all exchanged arrays (C103_underscore, C103_exchange), terms with two indices (C103_two_indices), GroupedPiecewise (C103_piecewise), and everything written after a condition up to the end of the line is hidden by a percent sign (C103_condition, C103_equation_lost). Partial: the reader expands no macros; SymPy's printer and the regular expression of textwrap are parameters with the properties used stated."
 ]
}