# Formal model of OpenSBLI in Lean 4 — design

## What is verified

OpenSBLI is a Python/SymPy code generator.  A user writes equations in index
notation, the generator discretises them and emits an OPS C program.  Two kinds
of properties matter: (a) the *generator* must be right for every input it is
given (ordering, naming, argument lists, ranges, string handling), and (b) the
*numerical method it emits* must have the mathematical properties it is chosen
for (order of accuracy, conservation, consistency, boundary treatment), for
every grid size, every state and every number of steps.

The model consists of

* the generator's own algorithms, as total computable Lean functions over plain
  data (lists, strings, integers, finite maps), with Python exceptions as
  `Except`/`Option` values;
* the numerical kernels the generator emits, as functions on grid data over a
  field (ℚ, ℝ, or an arbitrary field/ordered field), transcribed from the formulas in the
  Python source.

Layout of `/verif/lean/Verif`:

* `Model/*.lean`  – the model; every definition cites file and lines in /repo.
* `Spec/*.lean`   – the small, independent specifications used in theorem
  statements (they never mention the model).
* `Lemmas/*.lean` – helper lemmas.
* `Props/*.lean`  – one theorem (or a few) per property `Cnn_...`, each followed
  by a concrete non-trivial `example` meeting its hypotheses.

## Trusted base

* Lean 4.33.0's kernel, and the Mathlib definitions used in statements.
* Axioms: every theorem depends on no axioms other than `propext`,
  `Classical.choice` and `Quot.sound`. `axioms.txt` lists, for every theorem in
  the manifest, the exact set reported by `#print axioms`
  (regenerate with `tools/gen_axioms.sh`). No own axioms, no `sorry`, no
  `native_decide`/`bv_decide`.
* The transcription Python → Lean (each definition cites its lines).
* Arithmetic is exact: floating point rounding is not modelled (except that the
  decimal literals in the source are taken as the exact decimals).
* SymPy itself (simplification, `atoms`, printing of sub-expressions, matrix inversion,
  `finite_diff_weights`) is trusted: its results are modelled by their
  mathematical meaning. Where the result depends on SymPy's or Python's set or
  dictionary order, the model takes the order as an argument and the theorems
  quantify over it.
* OPS and the C compiler, MPI, HDF5, are trusted: `ops_par_loop` is modelled as
  visiting the points of its range in an arbitrary order; `ops_halo_transfer`
  as a copy of a box.
* The word problem "is this the English property" is addressed by keeping the
  right hand sides in `Spec/` (written without the model) or in plain Mathlib
  vocabulary. One exception: `Spec/Einstein.lean` imports `Model/Einstein.lean`,
  but only for the syntax of index expressions, not for any function on it.

## Plan per property

| id | modelled | proof idea |
|----|----------|-----------|
| C01 | `sort_dictionary` as iteration over an association list with known set | invariant by induction over rounds |
| C02 | same, with the literal budget | progress lemma + witness chain deeper than the budget |
| C03 | start/stage kernels of `RungeKutta` on an arbitrary module with arbitrary residual | unfold to Butcher form; order conditions by `norm_num`; stability polynomial by `ring` |
| C04 | n-step loop | induction on n |
| C05 | `RungeKuttaLS` | same; decimals exact rationals; bounds on order-condition defects; the SSP coefficients as elements of a quadratic field |
| C06 | `generate_eno_coefficients` | Lagrange interpolation of the primitive, for all k |
| C07 | `generate_optimal_weights` back substitution | closed form + Neville–Aitken style induction |
| C08 | left/right configuration | reindexing of products |
| C09 | WenoJS / WenoZ weight formulas | ordered-field inequalities over finite sums |
| C10 | `JS_smoothness` | integral of squares of polynomials; extraction loop of bilinear coefficients |
| C11 | TENO cut-off | case analysis on finite index sets; even powers keep the measures of order 6 positive where an indicator is negative |
| C12 | TENO configuration | polynomial exactness by linearity, negative witness where order is not reached |
| C13 | TENO5/6 indicators | `ring`, sum of squares; negative witness for the TENO6 missing square |
| C14 | Weno/TenoDerivative difference form | telescoping sums, induction on steps |
| C15 | LLF splitting | `ring`, max bounds |
| C16 | eigen systems 1D/2D/3D as matrices | matrix identities by `field_simp; ring` |
| C17 | averages | algebra with square roots |
| C18 | Lagrange-derivative weights | polynomial interpolation for all orders |
| C19 | periodic central operator on ZMod N | sum reindexing |
| C20 | Skew | product rule in a derivation |
| C21 | Carpenter matrices, assembled operator for all N≥8 | exact coefficients; SBP identity through local boundary identities + interior summation |
| C22 | reduced closures | polynomial exactness, negative witness |
| C23 | piecewise selection | integer case analysis (`omega`) |
| C24 | box copies in the emitted order, any dimension | induction over directions |
| C25 | reflection formulas | inner product algebra |
| C26 | sequential halo updates | induction on depth |
| C27–C29 | wall/outlet/inlet formulas | field algebra |
| C30 | interface transfers | index arithmetic |
| C31 | BC ranges | index arithmetic |
| C32 | argument list builders of both generators | list equality; counterexample for mixed constants/globals |
| C33 | set classification | set algebra over equation lists |
| C34 | stencil registry | invariant over histories |
| C35 | halo union/min/max | lattice laws |
| C36 | access boxes vs allocated boxes | integer arithmetic + counterexamples |
| C37 | operational semantics of a parallel loop | permutation invariance |
| C38, C39, C46 | registries/counters as state machines | invariants over histories |
| C40 | `wrap_long_lines` on character lists | induction |
| C41 | `_print_Max` AST and its evaluation | induction |
| C42–C43 | generated program AST, trace semantics | induction over iterations |
| C44 | `loop_alg` | tree induction |
| C45 | text replacement | string model; counterexample for suffix collisions |
| C47 | residual assembly as assignments/accumulation to a store | store semantics; counterexamples |
| C48 | work array counter + kernel list semantics | refinement to direct evaluation |
| C49–C51 | index expansion on a small expression AST | structural induction |
| C52 | SFD update | linear algebra, induction on n |
| C53 | binomial weights, in-place kernel | binomial theorem; traversal-order counterexample |
| C54 | Ducros/wall control | inequalities |
| C55 | adjugate/determinant formulas | matrix identities |
| C56 | oblique shock | field algebra |
| C57 | spline/splint | loop invariants |
| C58 | slices | list/interval arithmetic |
| C59–C60 | list manipulation | induction |
| C61 | `increment_dataset` as sequential replacement in an access list | induction over the replaced accesses; capture counterexample |
| C62 | halo requested by a kernel vs halo filled by the boundary conditions | integer arithmetic; counterexample for same-direction nesting |
| C63 | `traverse` over nested derivatives | structural induction on two-level nestings; counterexamples for sums and three levels |
| C64 | forcing strip wall as a list of assignments, the setting of C25–C28 | symbolic execution of the assignment list |
| C65 | ranges of Dirichlet and split conditions, kernel applied to a store | integer arithmetic; induction over visited points |
| C66 | `inviscid_wall2D` with the interpolation to the foot of the wall normal | real algebra; counterexamples |
| C67 | `NSphysics` relations as expressions | field algebra |
| C68 | monitors: names, ranges, reduction over processes, printed text | induction over lists and texts |
| C69 | `StoreSome` on expression trees: substitution of stored derivatives, splitting by Re, grid variables | structural induction on expressions and on the list of substitutions; counterexamples |
| C70 | `UserDefinedEquations` and the general branch of `Central.discretise`: derivatives to work arrays, kernels run point by point | simulation: a derivative-free kernel equals its equations one by one; work arrays hold the derivatives; substitution preserves values; induction on the list of equations |
| C71 | `PostProcessEquations`: dictionary of relation kernels, joint discretisation of the equations | induction on dictionary and equations, frame lemmas for arrays; counterexamples |
| C72 | range of the initialisation kernel and declared memory; kernel run point by point | range arithmetic; kernel equals its equations one by one |
| C73 | `TraditionalAlgorithmRKMB` on the components of `Alg`; the boundary phase of all blocks as own conditions and interface pushes in program order | explicit event sequence; induction over the steps of the phase (grid values and filled faces are kept), then splitting the phase at the interface; explicit evaluation of eight exchanges for the corner |
| C74 | `Boundary_layer_profile` with the ODE solver as a parameter, the trapezoidal loops, `solve_continuity` with Python's index -1, and the equations of the initialisation kernel evaluated in order at a point | calculus for the similarity equations; induction over the passes of the shooting; loop invariants; symbolic evaluation of the kernel |
| C75 | syntax trees of the symbolic equations and of the C text, printing with the shared registry of generated constants, C evaluation with the types `int` and `double`, scopes, assignment expressions and `if … else if … else` chains | structural induction on expressions and conditions, induction over pairs, equations and kernels; registry requests reduce to C38 and C39 |
| C76 | interface fluxes with the flag and sensor of `post_process`, the kernels of the filter with their ranges and work arrays, run one after another on all arrays of the block | explicit ideal reconstructions and their mean against the central scheme (exactness on polynomials); locality of the fluxes against the ranges of the kernels; induction over the kernels; cyclic shift of the grid for conservation |
| C77 | expressions, kernels with ranges, the order of the kernels, the program of C42-C44 and its run on all arrays of the block, element by element | each kernel loop shown independent of the order of its points; induction over the kernels with the box on which each array is right as invariant; induction over stages and steps; cyclic shift of the grid and vanishing weight sums for conservation |
| C78 | `LLFWeno.discretise` and `LLFTeno.discretise` after the central scheme of C77: symbols and ranges of relations, reconstruction kernels storing interface fluxes in work arrays, residual kernel, viscous kernels, halos of the block and exchange | invariant over the kernels, as C77; the interface flux as a function of the values on a line; cyclic shift of the grid for conservation; consistency of the flux for uniform flow; two-run argument for the halos |
| C79 | the programs of C77 and C78 with metric arrays in coefficients and relations | induction on expressions (kinds zero, uniform, varying) for uniform flow, weighted cyclic shift for the totals; then the step and program theorems of C77 and C78 |
| C80 | lists of metric arrays and factors, the kernel on the other block with its range, the exchanges, and the order of the metric kernels of all blocks | induction over the steps: grid values and filled faces are left alone by all other steps; inverse and determinant of a product with a diagonal matrix for the signs |
| C81 | the equations of the kernel as a list of named assignments of terms, with SymPy as a parameter and its contract; execution by updates of a store | phase by phase: what each group of assignments leaves in the store and which variables it does not touch; induction over components for the shared scratch variables; injectivity of names to pass from variables to strings |
| C82 | expressions with Der, Conservative, SymPy derivatives and discretised derivatives; set_args, replacement, differentiation, set_schemes and Skew as functions on them; names by substring tests | replacement of a list of nodes one by one equals replacement of all of them for unnested nodes (invariant over the traversal); values in an abstract differential algebra by induction on expressions; permutation of variables by commuting derivations |
| C83 | expressions with data objects and datasets, items and nested entries; substitution name by name, flattening and cutting as in the code | substitution of all names by induction on the list of names, with the value under an environment of all arrays; cutting by induction over the entries with an arbitrary rest |
| C84 | the whole text as declarations, uses and nested blocks, written by the functions of the code generator in their order, with the registry of constants threaded through; a separate checker of scope in twenty lines | every writer adds known names and is accepted under any environment that contains what it needs; names are told apart by their forms; induction over the program structure |
| C85 | the text of every kernel of the program of C77: derivatives with weights, boundary closures and generated inverse spacings, the functions printed by the model of C75 with the registry threaded through all kernels, called point by point on arrays with names | printing of derivatives by induction on expressions; the registry is sound from the first registration to the last kernel; the run of the text refines the run of the equations event by event; then C77 |
| C86 | the equations of C81 and of the residual kernel as expressions which the model of C75 prints; numbers by their digits; the cut-off of TENO as a grouped piecewise | every right hand side of the kernel is printable, phase by phase; its printed value is its value; all numbers of the schemes are rational; execution of the body over named variables is that of C81; then the refinement of C85 and the theorems of C78 |
| C87 | the model of C77 and C18, read on smooth fields of a continuous position; the specification evaluates the same expressions with partial derivatives | Taylor's formula with remainder and the moments of the formulas; bounds of all partial derivatives are carried through sums, products and formulas, so that differences of differences keep the order |
| C88 | the models of C77 and C85; kernels of initial conditions, with the indices of points, as kernels with a text; exact solutions are functions of a continuous time and position | the differences on the periodic grid are skew-symmetric, so that a step amplifies no sum of squares when dt times a bound of their norm is at most the square root of three, or ten thirds for the five stages of order four, whose coefficients are bounded by exact arithmetic on the decimals of the source; consistency by Taylor's formula in time and C87 in space; errors add up over the steps; a rod between two symmetry planes is half of a periodic interval with mirrored data; its values tend to their average because after N - 1 steps each has a share in all |
| C89 | the models of C03, C05, C77 and C85; solutions are functions of a continuous time with values on the finite grid | Taylor's formula for one step of the scheme along the solution, the conditions of order, a Lipschitz bound in a tube around the solution, and the sum of errors over the steps; the same with five stages, one more term and conditions of order that hold up to eta, uniformly over methods; Picard-Lindelof for the existence of solutions |
| C90 | the models of C03, C05, C77 and C85 | the stages as convex combinations of steps of Euler's method; right hand sides with three values as counterexamples |
| C91 | `Model/BoundaryText.lean` on top of the texts of C85 | each line normal to the boundary is a state of the equations of the condition; the kernel writes each line separately because its targets are on the line |
| C92 | `Model/Notation.lean` on top of `Einstein` (C49) and `Simulation` (C77) | values are preserved by reading each expanded equation (induction on expressions) and by the expansion (C49); left sides keep their form because sums expand to sums; then C85 |
| C93 | `Model/SimulationMB.lean` on top of `Simulation` (C77), `AlgorithmMB` and `MultiBlock` (C73) | the events of the program are those of the blocks one after another in every phase (C73_run); kernels of different blocks commute because they touch own arrays; then a simulation relation between blocks and whole, point by point, kept by every stage |
| C94 | `Model/FrontEnd.lean` on top of `Parsing` (C82), `Einstein` (C49), `Notation` (C92) and the printed programs of C85 | the expansion is evaluated in the kernel; summation by parts on a periodic grid for skew-symmetric pairs; induction on the form of the right hand side; then C77 and C85 |
| C95 | `Model/Source.lean` in front of `FrontEnd` | invariant on the stack of the parser in both directions; induction on derivations and on tokens; the texts of the applications are evaluated in the kernel |
| C96 | `Model/Restart.lean`: the objects, the files of a run, reading at the declaration of arrays | the state at every write is that of the steps (the lemmas of C77 and C78); a step does not depend on the second register, by induction on the stages; induction on events for the files |
| C97 | `Model/ShockProgram.lean`, `Model/Llf.lean`; the scalar scheme in `Spec/Advection.lean` | the eigenvector is one characteristic variable (`Lemmas/Contact.lean`): the fluxes of all other ones are constant, reconstruction commutes with adding constants; induction on stages and steps; simple and Roe averages of states with the same velocity and pressure |
| C98 | `Model/ShockNotation.lean`, `Model/FrontEnd.lean`, `Model/EulerWave.lean`; the meaning in `Spec/ShockNotation.lean` | induction on expressions; evaluation in the kernel of the texts of the application; C78 and C97 for the program |
| C99 | `Model/MetricProgram.lean` in the programs of `Model/Simulation.lean`; mappings and metric identities in `Spec/MappedGrid.lean` | kernels one after another; C55 for the inverse; summation by parts (`Lemmas/MappedGrid.lean`), differences commute; chain rule and C87 for the order |
| C100 | `Model/MetricSecond.lean` in the programs of `Model/Simulation.lean`: terms of transformed second derivatives, kernels filling halos of metric terms, kernels of `SDijk` | kernels one after another; the fills of all directions compose to one folding of indices; Taylor expansions of C87 for products and inverses of differences (`Lemmas/StretchedSecond.lean`); in several dimensions families of functions which are close with all their derivatives are closed under products, determinants, inverse matrices and differences (`Lemmas/OrderInverse.lean`), and the chain rule for second derivatives (`Lemmas/CurvilinearSecond.lean`); parity of the weights for the mirrored halos |
| C101 | `Model/Orders.lean`: constructors as functions from integers, with both integer divisions of Python, to formulas or exceptions | orders defined by exactness on polynomials; Lagrange interpolation for the lower bounds; explicit polynomials vanishing on the stencil, or with vanishing cell averages, for the upper bounds |
| C102 | the models of C77, C85 and C90; exact solutions are functions of a continuous time and position | a step is an average of steps of Euler's method, 1/3 + (1 + z)/2 + (1 + z)³/6, or for the scheme of order four a polynomial in 1 + z whose six coefficients are not negative, each of which is an average of values at neighbours; consistency by Taylor's formula in time and C87 in space, for first and second derivatives; errors add up over the steps |
| C103 | the writer and the printing functions, `textwrap.wrap`, `write_latex` of equations, kernels, exchanges, files, monitors, loops, conditions and timers (`Model/Latex.lean`); TeX's reading of a file (`Spec/Tex.lean`) | tokens of a concatenation; texts which leave the reader as it was, by structural induction on expressions; wrapping only changes white space, by induction on the chunks; induction on the calls |

## What is modelled, file by file

Paths are relative to `/repo/opensbli`. "meaning" says that SymPy expressions
are modelled by the function of the grid data they denote.

| file | modelled in | not modelled |
|------|-------------|--------------|
| core/opensblifunctions.py | `Central` (difference weights, reads), `Ranges`/`Memory` (nested derivatives), `Tensor` (KD, LC), `Eno`/`WenoNonlinear`/`Llf` (WENO/TENO derivatives as flux differences), `Work` (work array assignment) | SymPy class plumbing, pretty printing, the substitution machinery of `_discretise_derivative` beyond its meaning |
| core/parsing.py | `Parsing` (names, `set_args`, `Der`, `Conservative`, `Skew`, `set_schemes`, substitutions), `Einstein` (expansion, summation, free indices, component names), `Source` (from the text to expressions), `FrontEnd` (from there to index notation), `Notation` (from there to the equations of a simulation), `ShockNotation` (the same for shock capturing derivatives), `Central` (the discretised skew form) | SymPy's `parse_expr` and `diff` themselves (Python's grammar and their rules are modelled), `MetricDer`, LaTeX output |
| core/opensbliobjects.py | `Einstein` (apply_index), `Registry` (constants, rationals), `Kernel` (dataset accesses, index symbols) | hashing |
| core/kernel.py | `Kernel`, `Ranges`, `Registry`, `Memory`, `Latex` (`write_latex`) | – |
| core/block.py | `Placement` (conversion to datasets), `Setup`, `Registry` (kernel counter), `Algorithm` | `copy_block_attributes` |
| core/grid.py | `Work` (work array names), `Memory` (index bounds) | `Grididxed` printing |
| core/io_hdf5.py | `Algorithm` (placement, names), `Hdf5` (metadata), `Restart` (the objects, files written and read) | HDF5 itself |
| core/datatypes.py | – | one-line type names |
| core/boundary_conditions/* | `Boundary`, `BoundaryMore` (forcing strip), `SplitBc` (Dirichlet, split), `InviscidWall2D`, `Closures`, `Ranges`, `MultiBlock`, `BoundaryText` (the C text of the conditions) | `exchange.py` printing |
| core/diagnostics/simulation_monitors.py | `Monitor` | `f.open` text |
| code_generation/opsc.py | `Text` (line wrapping, Max), `Kernel` (argument lists, headers), `Registry` (rationals, declarations), `Memory` (allocation), `CCode` (expressions, kernel bodies, definitions of constants), `Algorithm` (writing kernels), `ProgramText` (the names in the whole file), `SimulationText` (all kernels of a simulation, printed with one registry and run point by point) | the text of individual `ops_*` calls other than their arguments |
| code_generation/algorithm/* | `Algorithm` | timers (transparent containers) |
| code_generation/latex.py | `Latex` (writer, printing functions, `textwrap.wrap`, documents of equations and of the program) | the modes `plain`, `inline` and substitutions of `write_expression`, SymPy's own printer (a parameter), `_print_KD` |
| equation_types/opensbliequations.py | `SortDict`, `Setup`, `Residual`, `Simulation`, `Latex` (`write_latex`) | – |
| equation_types/metric.py | `Metric`, `MetricInterface`, `MetricProgram`, `MetricSecond` | – |
| filters/* | `Filters`, `WenoFilter` | the LaTeX output, the WENO filter with general curvilinear metrics |
| physical_models/* | `EulerEigen`, `Physics`, `Spec/GasState` | – |
| schemes/spatial/* | `Eno`, `WenoNonlinear`, `Teno`, `Llf`, `Central`, `Orders` (orders accepted), `Filters` (sensors), `WenoFilter` (filter branch), `ShockProgram` (whole discretisation), `ShockNotation` (grouping by direction), `EulerWave` (an application), `ReconKernel` (equations of the reconstruction kernels, by name and in order), `ShockText` (their C text and that of the residual kernel) | `simplify`, `horner`; `factor` and `subs` are parameters with a contract |
| schemes/temporal/* | `RungeKutta`, `Orders` (orders accepted) | – |
| multiblock/algorithm.py, blockcollection.py | `AlgorithmMB` (assembly of the program, output objects, order of boundary kernels), `SimulationMB` (equations, arrays and kernels of every block, effect of the program on the arrays of all blocks) | timers, LaTeX output; `copy.deepcopy` of equations and schemes per block is the same `Setup` with another size |
| core/boundary_conditions/multi_block.py | `MultiBlock` (interfaces) | – |
| utilities/user_defined_kernels.py | `UserDefinedEquations.spatial_discretisation` | several spatial schemes at once, algorithm placement (C42) |
| initialisation/gridbasedinit.py | range and equations of the kernel; as part of a program with its printed text (`Model/Initial.lean`, C88) | `GroupedPiecewise` inside it, hashing |
| postprocess/post_process_eq.py | constituent relations, joint discretisation, order of kernels | ranges of constituents, kernels left over in the scheme from other equations, `DummyCarpenter` |
| optimisations/StoreSome.py | `StoreSome` | `simplify`, the SymPy cache on which `.work` relies |
| postprocess/removehalos.py | `Hdf5` | – |
| utilities/katzer_init.py, simple_katzer_init.py | `Katzer` (similarity equations, shooting, integration, continuity, edge, kernel equations) | `odeint` and `polyfit` (parameters), plots, the numerical coefficients of the simple version |
| other utilities/* | `Utilities` (oblique shock, spline, parameter substitution in `Text`/`Algorithm`), `Boundary` (increment_dataset) | – |

## Disagreements between code and property

Each of these is proved about the model, with a concrete witness; the matching
positive theorem carries the hypothesis that excludes it.

| theorem | what the code does |
|---------|--------------------|
| C02_budget_rejects_resolvable | a resolvable system whose dependency chain is longer than the iteration budget is rejected |
| C05_order4_not_exact | the four-stage low-storage scheme's decimals miss the order conditions (by less than 1e-9) |
| C11_large_cutoff_divides_by_zero | a TENO cut-off above 1/n can cut every candidate and divides by zero |
| C11_five_shock_not_cut | order 5: the global indicator does not see a shock placed so that its indicator vanishes |
| C11_six_reference_nonzero_on_linear | order 6: the reference indicator does not vanish on linear data |
| C12_five_not_fifth_order, C12_six_not_sixth_order | the linear TENO schemes are one order lower than named |
| C13_six_right_indicator_negative, C13_six_mirror_fails, C13_six_zero_denominator | right-biased order 6 indicator misses a square: negative, not the mirror image, zero denominator possible |
| C20_power_wrong, C20_sum_wrong | skew-symmetric splitting of powers and of sums is not equal to the derivative |
| C22_reduced_order_right_second_wrong | reduced order closure: second derivative at the upper end has the wrong sign |
| C23_wide_interior_leaks | closure rows fewer than half the interior stencil: reads outside the domain |
| C24_direction_dependent_halos_wrong, C24_asymmetric_halo_not_filled | periodic exchange uses direction 0's depth everywhere and the lower depth for upper halos |
| C25_wall_not_tangential | inviscid wall removes the normal momentum with the metric of the interior point |
| C27_negative_density | isothermal wall: the extrapolated halo temperature, hence density, can be negative |
| C29_inlet_halo_pressure_wrong | pressure extrapolating inlet copies total energy, not pressure |
| C30_three_entries_lower_reversed, C30_rotated_not_filled, C30_asymmetric_upper_wrong | multi-block interfaces: reversed, unfilled or shifted halos |
| C32_mixed_mismatch, C32_literal_index_doubled, C32_duplicate_parameter | call and header disagree; literal index printed twice; a parameter declared twice |
| C33_conditional_write_keeps_old, C33_global_output_read_only | conditional writes are passed write-only; written globals read-only |
| C36_central_iff, C36_weno_iff, C36_central_same_direction, C36_residual_name | the halo allocated is five points whatever the scheme |
| C38_use_before_declaration | a constant registered after one that uses it is declared too late |
| C39_user_constant_collision | a user constant called like a generated one |
| C42_two_systems_lose_kernels | only the last system of simulation equations of a block is advanced |
| C43_named_periodic_output_raises, C43_two_unnamed_outputs_clash | output naming |
| C45_suffix_collision | parameter substitution also hits names ending in the given name |
| C46_reset_duplicates | resetting the kernel counter duplicates kernel names |
| C47_stale_residual, _source_dropped, _function_dropped, _bare_dropped, _source_twice, _overwritten, _scheme_order | residual assembly loses or repeats terms |
| C48_same_direction, C48_substitution_order | work arrays: stale value read; derivative left in place |
| C49_order_arbitrary | the order of free indices is the order of a Python set |
| C50_prefix_capture, C50_collision | index names that are prefixes of each other; component name clash |
| C53_order_dependence, C53_negative_order | in-place binomial filter depends on the traversal; negative even orders accepted |
| C55_nested_order | metric transformation of nested derivatives depends on the order of a set |
| C56_check_units, C56_velocity_not_scaled | degrees compared with radians; pressure not scaled |
| C57_duplicate_knots | repeated knots divide by zero |
| C58_one_dimension, C58_three_truncated, C58_three_rejected | halo stripping metadata |
| C59_order_not_checked | direction and side of a boundary condition not compared with its position |
| C60_constituent_order_reversed | registration reverses the order of the constituent relations |
| C61_increment_captures | shifting an expression with several accesses along the direction |
| C62_same_direction, C63_sum_of_inner_derivatives, C63_three_levels | halo ranges of nested derivatives |
| C64_forced_wall_too_cold, C64_halo_not_about_wall_velocity | forced wall: energy lacks the kinetic part; halo velocities mirror about zero |
| C65_split_blocks_share_range | split boundaries of two blocks use one range array |
| C66_falling_wall_wrong, C66_horizontal_lines_wrong | foot of the wall normal on the wrong side; slanted lines of direction 0 ignored |
| C67_sound_speed_wrong, C67_viscosity_is_momentum | relation for the sound speed is its square; viscosity accessor returns momentum |
| C68_header_misaligned, C68_one_dimensional_tuple, C68_output_to_screen_fails | monitor header has extra columns; invalid initialiser in one dimension; monitoring to the screen raises |
| C69_all_stored, C69_advection_lost, C69_viscous_dropped | store-some: a part of the equations whose derivatives are all stored produces no kernel and is lost |
| C69_unstored_inner_left, C69_second_use_fails, C69_constituents | store-some: unstored inner derivative stays in the code; second use of the object raises; raises without constituent relations, only the first class is looked at |
| C70_plain_dropped | user defined equations without derivatives are not evaluated when another equation of the class has a derivative |
| C70_halos_ignored, C70_nested_stale | requested halos are ignored when there is a derivative; a nested derivative may be taken of a work array not yet computed |
| C71_no_derivative_nothing | post-processing equations without derivatives produce no kernel at all |
| C71_frozen | in post-processing, derivatives do not see the results of earlier equations of the class (in user defined equations they do) |
| C71_unevaluated_relation, C71_relation_order | post-processing: relations of arrays outside derivatives are not evaluated; relations are evaluated in dictionary order, the sorting function is never called |
| C72_outside_memory | initialising an array whose name contains Residual, tempRK or RKold writes outside its memory |
| C73_corner_stale, C73_corner_wrong | four blocks meeting at a point: one block's corner halo holds old values of its neighbour's halo after the boundary kernels (right only after running them twice) |
| C73_metrics_after_equations | with several blocks metrics are computed after all other equations placed before the simulation, whatever their `order` |
| C74_unconverged_keeps_trial | boundary-layer profile: after five passes without convergence nothing is raised and the profile of the last trial is used |
| C74_isothermal_increment_zero | boundary-layer profile with a given wall temperature divides by a zero increment |
| C74_second_direction_ignored | boundary layers requested in the first two directions: the second is taken in the third direction |
| C75_equality_condition_assigns, C75_equality_condition_wrong, C75_equality_condition_of_index | a condition of a grouped piecewise that is an equality is printed with `=`: the kernel overwrites the variable instead of comparing, or does not compile |
| C75_index_quotient_truncated | the quotient of two grid indices is an integer division in C |
| C75_modulus_sign | `Mod` of operands of opposite signs is printed as `fmod`, which differs from it by the divisor |
| C75_modulus_of_global | a global value inside `Mod` is printed without `*`; the kernel does not compile |
| C75_varying_exponent | a negative power of a constant with an exponent varying from point to point is replaced by a program wide constant |
| C75_hidden_constant | a constant with the name of a grid variable of the kernel is hidden by the local variable |
| C76_central_overwrites_fluxes, C76_two_dimensional_defect | with the Ducros sensor and `Central` the velocity derivatives are stored in the arrays of the filter fluxes before these are applied: in two dimensions all fluxes of direction 0 are replaced |
| C76_flag_removes_base_scheme | the filter sets a flag of the block: a base scheme `LLFWeno` or `LLFTeno` on the same block gets zero fluxes, or raises |
| C76_sensor_reads_stale | with a central scheme of higher order than the filter the sensor next to the boundary reads velocities of the last Runge-Kutta stage |
| C76_eigensystem_metrics | the filter is made before the equations are set on the block, its eigensystem ignores curvilinear metrics |
| C76_step_ducros | outside the grid the sensor array is read (two points) but never written |
| C77_stale_constituent | the kernel of a relation covers the halos in the directions in which its dataset is differentiated, the kernels of the relations it uses need not: near the boundary it then reads the values of the previous stage |
| C78_counted_twice | terms with the Reynolds number but no derivative are added by the residual kernel of the shock capturing scheme and again by the viscous kernel of the central scheme |
| C78_first_direction | the shock capturing scheme registers its halos only in the directions of its derivatives, but all exchanges use the halos of direction 0: without such derivatives in direction 0 the points the reconstruction reads are never filled |
| C78_no_derivatives | without derivatives for the shock capturing scheme its discretisation fails: `constituent_relations` is unbound (weno.py 517-521) |
| C80_opposite_sides_wrong | the kernel after the exchange of metric terms changes the signs of the interface direction and of the determinant even where the direction continues (lower side joined to upper side): the determinant in the halo has the wrong sign |
| C81_names_collide | the index suffixes of `CF_%d%d` and the like are ambiguous from eleven rows on, and a dataset `inv_rho` has the name of Roe's factor |
| C81_unset_average | with simple averages in one dimension `inv_AVG_rho` is `1/AVG_0_rho`, and nothing assigns `AVG_0_rho` |
| C82_names_coordinate | every name containing the coordinate symbol followed by an underscore, such as flux_i or a declared constant max_iter, is read as a coordinate |
| C82_rebuilt, C82_substitution_scheme, C82_inner_scheme, C82_inner_scheme_example | SymPy builds changed nodes anew without keywords, so set_args appends Central to a derivative with another scheme; the name of the scheme becomes a variable, and an inner Der becomes zero |
| C82_inner_scheme_conservative | an inner Conservative gets the scheme of the outer one |
| C82_three_conservative, C82_three_der | three levels of Conservative raise ValueError; of three levels of Der the middle one is left undone |
| C82_der_in_conservative | a Der inside a Conservative is never differentiated |
| C82_coordinates | Der(x_i, x_i) is one instead of the number of dimensions, Der(x_i, x_j) zero instead of the Kronecker delta |
| C82_skew_sum, C82_skew_symbol, C82_skew_function | Skew takes the two terms of a sum for factors, refuses single symbols, and forgets the scheme for functions |
| C82_names_library | names of SymPy functions and constants are not data |
| C83_nested_lost, C83_tuple_lost, C83_nested_empty | equations in nested lists or tuples are moved or lost; an empty nested list can raise IndexError |
| C83_expression | expressions that are no equations keep their data objects, and their constants are not registered |
| C84_unregistered, C84_value | constants that were not registered are used undeclared |
| C84_library, C84_hidden, C84_local | a constant called like a header function or an array, or a local variable called like an array, makes the program ill formed |
| C84_placed_twice | a kernel placed before and after the time loop has its range declared twice |
| C84_two_outputs, C84_two_outputs_requested | two outputs without a name at the end declare the same buffer |
| C84_monitored | monitoring an array that no kernel uses writes a program with an undeclared name; output of such an array raises |
| C84_stage_outside | a stage coefficient outside the stage loop is indexed by an undeclared counter |
| C84_inverse | a negative multiple of an array as exponent of a constant is taken for a constant |
| C84_block_number | programs for blocks with another number than 0 raise IndexError |
| C84_empty_output | an output without arrays raises |
| C85_reduced_order_wrong | the printed second derivative of the reduced order closure at the upper end has the wrong sign (C22 at the level of the text) |
| C85_name_clash | a user's dataset called `wk0` shares its array with the first work array and is overwritten; names are not checked |
| C90_low_storage_not, C90_ssp_limit | the default low storage scheme of order 3 is not strong stability preserving for any time step, and the formulation called 'SSP' allows a smaller time step than the default scheme of `RungeKutta` |
| C92_constant_letters_not_free | `EinsteinEquation.expand` looks up declared constants by their complete name (parsing.py 394-397): a constant declared as `c_j` (apps/wave) is data when the equation is written with `c_k`, although the letter of a summed index should not matter. |
| C93_mixed_derivatives_differ, C93_mixed_derivatives_not_same | four blocks meeting at a point and an equation with a mixed derivative: because of the old corner (C73), the generated program gives `2/5 dt^2` after one step where the program of one block gives `1/2 dt^2`; the result depends on the decomposition and loses its second order in time there |
| C94_energy_lost | `apps/taylor_green_vortex` writes the work of the stresses as `Der(u_i*tau_i_j,x_j)`, which is differentiated by the product rule: the total energy on a periodic grid is not conserved by viscous flows, wiggles between neighbouring points lose energy which is not returned as heat |
| C96_lower_case | `iohdf5` converts the values of its keywords to lower case, also the names of files: with `filename='Restart.h5'` the generated program reads `restart.h5`. |
| C96_unknown_first, C96_unknown_later | Reading an array that no kernel uses: if it is the first of the object, generation ends with an UnboundLocalError; after another one it is accepted, is neither declared nor read, and the file name goes to the array before it. |
| C96_files_continue | The iteration number starts at zero in the program that reads, so that its numbered files replace those of the first run with the same numbers. |
| C99_three_dimensions | In three dimensions the chain rule form of the transformed equations conserves nothing in general: on a periodic wavy grid of 3x4x4 points with all cells positively oriented one step changes the detJ-weighted sum of a scalar. The metric terms are plain inverses (metric.py 137-147), for which the discrete metric identities fail. |
| C100_mirrored, C100_boundary_inconsistent | `MetricBoundaryCondition` (metric.py 366-379) fills the halos of the metric terms by reflection, so that without one sided formulas all derivatives `SDijk` normal to a side vanish on its points, whatever the mapping: on the grid x = ξ + a ξ² the second derivative computed for the coordinate itself is 2a at the boundary point for every spacing, instead of 0. |
| C101_central, C101_order_one_has_no_second_derivative | `Central` (scheme.py 67-79) accepts odd orders: in Python 2 the stencil is one sided and second derivatives have one order less than asked for (none at all for order 1, where they are identically zero), in Python 3 both have. |
| C101_weno_even | `Weno` (weno.py 384) accepts even orders and builds the scheme of the order below, printing the order asked for. |
| C101_formulation_ignored | `RungeKuttaLS` (rk_LS.py 35-43) ignores any formulation that is not exactly `SSP`, such as `ssp`; other schemes compare formulations in upper case. |
| C103_underscore, C103_exchange | the documents of all programs with exchanges are not valid LaTeX: names of arrays, with an underscore, are written outside formulas (exchange.py 50, io_hdf5.py 84) |
| C103_condition, C103_equation_lost | `"Ending condition loop %s"` is not formatted (algorithm.py 111): the percent sign begins a comment, which hides everything up to the end of the line, equations included |
| C103_two_indices | terms in index notation with two indices are printed with two subscripts (latex.py 124-125), an error of TeX |
| C103_piecewise | every `GroupedPiecewise` is printed as the same placeholder, which begins a displayed formula within a formula (latex.py 143-145) |

Noticed while reading but not formalised, because the code raises or depends on
library behaviour outside the model: a convective nested derivative is left
undiscretised; `np.zeros_like` of integer data truncates the spline; SFD and the
binomial filter raise `UnboundLocalError` in one dimension; WENO of order 1
raises `AttributeError`; `PeriodicBC(plane=False)` uses an unbound variable;
`residual_type is 'Convective'` compares string identity; `inlet_pressure`
takes the halo depth of direction 0; the
`physics` argument of `LLFWeno` and `LLFTeno` leads to an unbound variable in
`instantiate_eigensystem`; two shock capturing derivatives of one direction in
one equation give vectors of different lengths, because they are collected from
a set.

## Testing the theorems

`seeded/mutations.py` lists realistic wrong programs as edits of the model,
`seeded/run.py` rebuilds the affected modules in a scratch copy for each edit and
records which theorems stop proving; `seeded/LOG.jsonl` is the log.
