# Formal model of AMPE: design

Subject: LLNL/AMPE at the commit pinned in `/repo` (C++ and m4/Fortran sources
under `source/`).  The code was read as text only; it was neither built nor run.

## Layout

| Path | Content |
|---|---|
| `properties.jsonl` | the informal properties (C01 ...) |
| `lean/Verif/Model/*.lean` | the model: one definition per modelled function, each with a file:line citation and the simplifications made |
| `lean/Verif/Proofs/*.lean` | helper lemmas (not to be read to understand a claim) |
| `lean/Verif/Props/*.lean` | specifications (independent of the model helpers), property theorems and non-vacuity `example`s |
| `MANIFEST.json` | property -> theorem names and status |
| `seeded/LOG.jsonl` | record of deliberate bugs planted in a scratch copy of the model |
| `STATUS.md` | generated: status, number of theorems and remarks per property |
| `COVERAGE.md` | generated: source lines cited by the model, per source file |
| `axioms.txt` | generated: axioms used by each manifest theorem |

## Conventions of the model

* `double` is modelled by `ℝ` (exact arithmetic).  Rounding, overflow, NaN and
  signed zero are NOT modelled.  Where the code compares doubles with `==` or
  truncates (`int(t/dt)`), the model performs the operation on exact reals.
* `int`/`unsigned` are `ℤ`/`ℕ`; where wrap-around matters (`unsigned` underflow in
  `TemperatureHistory`) it is modelled explicitly.
* Reading outside an array, Fortran `stop`, `TBOX_ERROR`/`abort` and failing
  `assert`s are explicit outcomes (`Except`/`Option`/inductive), never a default value.
* MPI collectives are modelled by what MPI guarantees (concatenation in rank order,
  global sums); message passing itself is not modelled.
* SAMRAI containers (patches, levels, databases) are modelled by functions on index
  sets or lists.

## Trusted base

* Lean 4.33.0 kernel, Mathlib definitions (`ℝ`, `HasDerivAt`, `Real.sqrt`, `Real.exp`,
  `Real.arccos`, `Finset.sum`, ...).
* Axioms: only `propext`, `Classical.choice`, `Quot.sound` (see the end of this file).
* The reading of the code: every model definition cites its lines.
* External code (SUNDIALS/CVODE, SAMRAI, hypre, Thermo4PFM) is outside the model.

## Plan per property

| Id | Model | Proof |
|---|---|---|
| C01 | `EventInterval` as a state machine (`active/type/interval/flags/prev/last`) | induction over poll histories |
| C02 | same, TIME type; truncation `⌊t/Δ⌋` for t ≥ 0 | floor arithmetic; negation witness for the unprimed case |
| C03 | same; arbitrary op sequences | invariant `yes at t → last = t` |
| C04 | `PFModel::Run` loop with an oracle for the step sizes | induction on fuel / well-founded bound |
| C05 | pre-loop part of `Run` | the code uses the regrid interval: negation with witness, partial theorem for what it does |
| C06 | whole `Run` with the plot log | invariant; witness for the zero-cycle run |
| C07 | `putToRestart`/`getFromRestart`/`getFromInput` over a key-value store | round trip; witness for the key precedence clash |
| C08 | `TemperatureHistory::getTandGradT` with bounds-checked reads | convex-combination bounds; witness for position = first position |
| C09 | `computeWeights3Pairs` over ℝ with `arccos` | angle sum of a triangle (Mathlib) |
| C10-C12 | `functions.f` interp/well and their derivatives | `HasDerivAt`, polynomial inequalities |
| C13 | `average_func`, `deriv_average_func` | order arithmetic, `HasDerivAt` |
| C14 | tables `qr`, `conj` with the irrational entry `√½`, `quatsymmrotate*` | finite case analysis over the 48 indices lifted by algebra |
| C15 | `quatfindsymm*` search loop | loop invariant (running minimum) |
| C16 | `quatrotationmatrix`, its derivative | polynomial identities; witness for the wrong entry |
| C17 | `quatcoarsen`, `quatlinrefine`, `quatnorm`, `quatsymmrotate` with `stop` | norm computation; negation for the symmetry-aware path |
| C18 | index map and weights of `quatlinrefine` | integer arithmetic, order arithmetic |
| C19 | label propagation sweep on a graph, any sweep order | monotone invariant + reachability |
| C20 | initial labels over levels/boxes/ranks | injectivity within a level; collision witness across levels |
| C21 | renumbering through the sorted set of labels | order-embedding of a finite set |
| C22 | volume and concentration accumulation | finite sums |
| C23 | extension loop flag over patches | negation with two patches; partial for one patch |
| C24 | `MinIntCoarsen::coarsen` | fold invariant |
| C25 | `allGatherSetup`, `listLocalToGlobal` | prefix sums, list concatenation |
| C26 | `Database2JSON` over an inductive database | structural induction; witness for booleans |
| C27 | `CALPHADMobility` binary/ternary formulas | positivity, sum of squares |
| C28 | `AzizPartitionCoefficientStrategy` | order arithmetic, limits |
| C29 | `PartitionPhaseConcentrationsStrategy` | field arithmetic |
| C30 | `ScalarTemperatureStrategy` | case analysis |
| C31 | `computerhsconcentration` on any box, `setZeroFlux...` | telescoping sums |
| C32 | `add_flux`, `add_flux_iso`, `add_flux_4th` | polynomial identities |
| C33 | `computerhspbg`, `phi_interface_energy`, wells, bulk on a periodic grid | derivative of finite sums |
| C34 | `computerhsthreephases`, `projectphi`, tilting driving force | field arithmetic |
| C35 | `multiorder` rhs | negation; derivative of the potential |
| C36 | normalised-square fractions and driving forces | `HasDerivAt` of quotients |
| C37 | `wang_forces`, `phiphi_forces`, slot indices | antisymmetry; overlap witness in 3D |
| C38 | patch loop of the pair energy | negation with two patches; partial for one |
| C39 | weights on a hierarchy | finite sums over covered/uncovered cells; witness for diagnostics weights |
| C40 | tag loops | iff by induction over criteria |
| C41 | `quatmobility`, derivative | monotonicity, `HasDerivAt` |
| C42 | tangent correction, `project2d` | inner-product algebra |
| C43 | red/black sweep index sets and update | parity arithmetic, field arithmetic |
| C44 | slot search with persistent state | invariant over call histories; out-of-bounds witness |
| C45 | `adaptVelocity` state machine | order arithmetic |
| C46 | `addvdphidx*` stencils | polynomial identities |
| C47 | Voigt maps | finite tables, proved by full case analysis |
| C48 | the periodic schedules of the driver across a restart | simulation relation between the two runs |
| C49 | `eval_grad_normi` with its floor types | order arithmetic, series of tanh |
| C50 | anti-trapping fluxes (two phases, three phases, several order parameters) | field arithmetic, Cauchy-Schwarz |
| C51 | Cahn-Hilliard and sintering fluxes as scatter loops | fold over the loop nest = face difference |
| C52 | slot arithmetic of the composition preconditioner | integer arithmetic; failure characterised |
| C53 | Folch-Plapp and Moelans weights | `HasDerivAt`, field arithmetic |
| C54 | sintering bulk energy and rates | derivative along paths; sums of squares |
| C55 | bias-well and latent-heat forces | monotone arctan, bounds |
| C56 | phase-temperature block | derivative of the rate; exact deviation |
| C57 | rigid-body motion | sums over periodic grids |
| C58 | gradient routines | affine fields, coordinate exchange |
| C59 | FAC residual on refined levels | field arithmetic with the ratio R |
| C60-C62 | composition diffusion coefficients on faces | symmetry maps on the grid; write/read footprints of loops |
| C63-C64 | anisotropic flux and energy | `HasDerivAt` along the gradient; rotation algebra |
| C65-C66 | energy diagnostics with patch loops | folds over patches and ranks |
| C67-C71 | heat equation, heat capacity, imposed temperature fields, sources | summation by parts, order arithmetic, exp |
| C72 | driving force of alloys under the two equilibrium conditions; three phases with several order parameters | implicit differentiation along solution curves |
| C73-C75 | finite interface mobility | travelling-wave ODE; pointer walks as folds |
| C76 | orientation right-hand side with symmetry-related copies | linear isometries; covariance of every routine in the chain |
| C77 | the same right-hand side on a periodic grid | variation of the discrete energy along every direction |
| C78-C79 | matrices and right-hand sides handed to the level solvers, residuals | summation by parts, positive definiteness, finite-dimensional linear algebra |
| C80 | preconditioner blocks of order parameter and temperature | `HasDerivAt` of the program's rates along the correction |
| C81 | interface parameters from `sigma`, `delta`; rates of one, three, several and sintering order parameters on a planar interface | second differences by L'Hôpital; energy by integrals and a completed square |
| C82 | composition rates of the Cahn-Hilliard and sintering models on patches, with the mobilities the factory passes; sintering order-parameter rate | summation by parts on a periodic grid, C51 for the scatter loops, C54 for the bulk energy |
| C83 | operators chosen for regridding, fill of a new level from old level and coarse level, coarsening before it (SAMRAI operators after AMPE's derived routines) | sum over the children by induction on the ratio, telescoping over rectangles; the conservation claim fails: exact change proved |
| C84 | volume fractions, integral composition, density and the counts of order parameters they use | linearity and monotonicity of the weighted integral, C39 for the total; failures with exact values |
| C85 | 3D anti-trapping fluxes: two phases, three phases and several order parameters, all faces (`Model/AntiTrap3.lean`) | field arithmetic on plane fronts, Cauchy-Schwarz; the multi-order routine violates it and is characterised exactly |
| C86 | `FieldsWriter`, `FieldsInitializer`: names, slabs, patches, request of the reader, rescaling of the temperature (`Model/FieldsFile.lean`) | induction over variables and patches with an invariant of the partly written file; index arithmetic of the slabs; several order parameters, reduced temperature and `slice_index` violate it and are characterised |
| C87 | reading of the settings (`QuatModelParameters`) and the factories of free energies, phase compositions, mobilities, partition coefficients as functions of the settings (`Model/Selection.lean`) | case analysis over all settings; exact conditions of agreement as equivalences; violated for several order parameters, Kim's mobility with sublattices and the pure-element override |
| C88 | constants assigned by the reader versus constants used by the selected strategies (`Model/Selection.lean`) | case analysis; equivalences for diffusion, mobility and energy; misspelt diffusion type and flat liquidus violate it, default diffusion type satisfies it |
| C89 | flux built from mobility and Hessian matrices stored per face (`Model/MobDiff.lean`) | matrix identities in Mathlib `Matrix`; the computed flux is the transposed product, exact condition for correctness; ideal ternary solution and dissipation counterexamples for all parameters |
| C90 | virtual calls of the class chosen by the factory; call depth of the thermal-diffusion class; its coefficient (`Model/GradT.lean`) | case analysis over classes; induction on the call depth; renaming of species as a map on mobility parameters |
| C91 | fractions handed to the phase-composition solver, coefficients per phase, sum of the fluxes over phases (`Model/PhaseSplit.lean`); the solver itself (Thermo4PFM) is a contract in the hypotheses | fractions adding up to one + injective potential; polynomial identities on the simplex; exact deficit of the harmonic average |
| C92 | `evaluateRHSFunction` and `CVSpgmrPrecondSet` as a program on the arrays that survive a call (`Model/RateCall.lean`); kernels are uninterpreted functions of the arrays they read | registers after each stage; induction over call lists; the velocity loop ends after one pass because it compares an array nothing writes with itself; violations with exact content of the stale arrays |
| C93 | the program of C92 on profiles along x, frame term as derivative, `VELOCITY` routine, creation of the adaptation object (`Model/Frame.lean`); boundaries and mesh left out | equivariance of the rate function under shifts; chain rule for jointly differentiable fields |
| C94 | `VELOCITY` with its cut-off, Aziz's coefficient (`Model/Frame.lean`, `Model/Coefficients.lean`) | square-root estimates; squeeze for the limit of refinement |
| C95 | Ghost cells at physical boundaries (`fillEdges`, `fillCorners`, `fill`); the arithmetic of one ghost cell is SAMRAI's and enters by its documented contract | Condition on every face and component, uniqueness; closed boxes conserve each species for the plain, isotropic and fourth-order stencils; fourth-order and upwind stencils never read past the first layer at the boundary. Negation proved: common coefficients of all components; Cahn-Hilliard and sintering rates depend on the unset second layer |
| C96 | Phase-gradient forms of the solute flux (KKS, Beckermann): hand-computed addresses, coupling coefficients, flux per face (2D; the 3D loops repeat them, z faces repeat the y-face error) | Exact discrete product rule for linear interpolation; violations for other kinds, species, neighbour, ghost box |
| C97 | `FACPreconditioner::solveSystem`, the three cycles, `computeFullCompositeResidual`, tolerance, counters; operators abstract (each writes one level), border fluxes as shared operator state | reported norm = norm of the composite residual of the returned solution; cycle count and stopping; factors; recursive = unrolled; independence of scratch data and linearity by one logical relation over the cycles; exact guess is a fixed point; violations for the McCormick form, tolerance-controlled linearity, equality with the tolerance, `max_cycles ≤ 0` |
| C98 | `CVODESolver::solve`/`initializeCVODE`, `QuatIntegrator::{resetIntegrator, initialize, Advance, setTimestep, resetHierarchyConfiguration}`, `QuatModel::Advance`; the library is abstract (any step function with its own memory) | clocks agree along any sequence of events; first step, step after regrid start from the held fields; per-step statistics; violations: in-place changes lost, relaxation, warm start, `setTimestep` in a run, computed temperature, totals |
| C99 | `ewingfixfluxvardc2d/3d` branch by branch with their strided loops, `EllipticFACOps` flux + choice of the refine operator, `QuatFACOps::ewingFixFlux` (Model/CoarseFine) | exact on linear fields at all 4 (6) kinds of boundary, all ratios; other faces untouched; exchange is a sum of squares; violations: components share one coefficient, `CONSTANT_REFINE`, orientation solver aborts |
| C100 | Orientation block of the preconditioner: square-root transform, right-hand side with the coupling term, derivative coefficients, order of the blocks, return code (`Model/QuatPrecond.lean`; one level, one component, exact solve) | The correction solves the linearised step for frozen coefficients; refusal iff a mobility is not positive; coupling term differs from the derivative by an explicit amount (square root of the mobility, missing epsilon_q weight): violation and partial; order of the blocks characterised over all configurations, violation when both phase/temperature couplings are on; return code |
| C101 | Restart branch of `QuatModel::Initialize`, registration for restart, allocation, `initializeLevelData`, diagnostics before the run, grain-count bookkeeping, AMR switch (`Model/Restart.lean`; one abstract value per variable and level) | One level: solution and phase compositions restored for every memory content; several levels: resuming dereferences a null refine algorithm; prescribed temperature at time 0, zero guess, missed grain drop, ignored AMR switch (violations with exact conditions) |
| C102 | Which level objects, schedules and solver object the integrator and the phase-rate strategy refer to across regriddings (`Model/Remesh.lean`; identities only) | Composition: current mesh for every history; phase: current until the first regridding, afterwards deleted solver, stale schedules, released data (violations), repair restores it |
| C103 | The generator, the loop over cells with its two index counters, and when the field is drawn and scaled (`Model/Noise.lean`) | Every cell gets its own number weighted with its own phase; range and bounds; one field and the step's length within a step (partial); violations: dependent streams, resumed and regridded runs, models where the option is ignored |
| C104 | regions filled by the eight routines computing phase compositions, explicit and running positions, read sets of the three flux stencils, ghost width rule, sizes of local arrays | KKS routines: every value read by a flux is the split of that cell's present state, all accesses in storage; violations: partition and phase-independent routines leave ghost cells unwritten (spurious boundary fluxes), ternary three-phase overruns `x[4]` |
| C105 | Patch loops of the free energy strategies in flat memory (three-dimensional boxes, planes, ghost widths), order energies/force, recorded driving force and phase rate, unit conversion of second derivatives | Force of each cell from its own data, nothing else changed, independence of stale energies and of the cut into patches; characterisation of what is plotted; violations for the plotted quantities and for the ternary quadratic second derivatives |
| C106 | Reading of the temperature-related parameters with and without rescaling, wells, melting force, orientation term, heat rates, boundary strategies of model and integrator (with the shifted argument), written and reread temperature (Model/Rescale.lean) | Equivalence of complete solutions with the problem in kelvin for the intended boundary values and for homogeneous ones; violation: boundary values times the melting temperature, unscaled well parameters and Arrhenius exponents, reduced output |
| C107 | The callback applyProjection over all levels, patches and cells, zeroed correction, error update, failure at a zero quaternion (Model/Projection.lean) | Orientation constraint everywhere; phase constraint on level 0 and violation on finer levels with exact characterisation; nothing else moves; fixed points; failure condition |
| C108 | `addDrivingForce` of `DeltaTemperatureFreeEnergyStrategy` and `TemperatureFreeEnergyStrategy`, `PhaseRHSStrategyWithQ::evaluateRHS` with mobility, `computerhstemp`, interface and well energy of `quatenergy`, 2D and 3D | exact balance of interface energy plus stored thermal free energy; decrease, rest, boundedness for the linear interpolation (partial); violated for every interpolation whose slope is not 1 because latent heat follows phi and not h(phi) |
| C109 | `setupPreconditioners`, `CVSpgmrPrecondSolve` and the `apply…`/`…PrecondSolve` functions as a state transformer on the output vector, the two work arrays that persist and the return code; block solvers and couplings are parameters (Model/PrecondCall.lean) | every component written from r alone (`c109_applied`, `c109_function_partial`), lower triangular system, linearity, return code, configuration; violations with `precond_has_dPhidT` (content of z, stale phase correction), several order parameters, empty input block |
| C110 | phase rate of a cell with the alloy driving force (quadratic and CALPHAD/dilute), ebs and kks fluxes, the reported energy; molar energies are parameters, the split between the phases is given by its equations (Model/AlloyFlow.lean) | exact energy balance for any flux; decay, strict decay away from rest and no cycles along runs with the ebs form; kks form with linear interpolation; exact rate for uniform samples and three violations: two molar volumes, two interpolations, default kks flux |
| C111 | one cell followed through start, restart, steps and regrid; origin of the solver's array per strategy; search for the equilibrium before a run (`Model/StartGuess.lean`); solver uninterpreted | induction over evaluation and step lists; violations with exact content of the starting point |
| C112 | `resetGrains`: decision (count, interval), `quat_fundamental`, `smoothquat` 2D/3D with plain or symmetry-aware differences, relaxation loop with an abstract step | Frozen cells, no new extremes, roughness does not grow, consistent grains untouched, unique representative in the fundamental zone, decision and loop characterised; violated: length, frame of right/upper neighbours, alternating fields in 3D, restart and missing diagnostics, stopping test without phase energy |
| C113 | `setDiffusionInterfaces` (Tbased strategy): table of constants, pointer offsets, loop over phase pairs, faces of both directions (2D) | coefficient of a phase = sum over unordered pairs of different grains with the constant of their phases, mean of both cells; own constant only on an interface, none in bulk, numbering immaterial; violated: interfaces of two different phases conduct with twice the constant given |
| C114 | `smoothErrorByRedBlack` on a level (list of patches, ghost fill as a parameter, stopping test), `solveCoarsestLevel` with red-black (`Model/SmoothLevel.lean`) | unique solution, contraction by `1-κ` per sweep for any patch arrangement, rate from the coefficients, residual bounds the error, early stop on one patch (partial); negations: the stopping test sees the last patch only, cells never updated for negative origins |
| C115 | coefficients of the phase, temperature and composition blocks of the preconditioner as level equations (`Model/PrecondLevel.lean`, with `Precond.lean`, `SmoothLevel.lean`) | one solution and convergence of the smoother for all step sizes (temperature, composition) or where `16 γ M ω < 1` (phase, partial); bound of the scalar field; negations: divergence for larger steps, zero diagonal on unresolved meshes |
| C116 | orientation part of the reported energy, its force in the phase equation, the two gradient moduli, face coefficient of the orientation flux (`Model/GrainEnergy.lean`, with `EnergyReport.lean`, `PhaseRHS.lean`, `QuatFlow.lean`) | exact discrete force of the reported energy; agreement on uniform data and second-order difference otherwise; flux derives from the reported density for `sqrt` and, above the floor, for `max`; negations: missing floor term and growing energy (`sqrt`), weak flux (`max` below the floor, `tanh`), zero modulus in one-cell grains |
| C117 | reading of the options of the phase, composition and orientation models from an arbitrary input database, and the letters each routine receives (`Model/Options.lean`) | accepted values are known (well, averages, interpolations, mobility); numbers are used; negations: accepted letters that stop the program, unchecked and ignored settings, reversed precedence, different floor, average and well in different parts of one run, overflowing default |
| C118 | 3D `quatdiffs(_symm)`, `quatgrad_side(_symm)`, `quat_symm_rotation`, `compute_face_coef3d`, `compute_flux3d_from_gradq`, `compute_lambda_flux3d`, `add_quat_op3d`, `add_quat_proj_op3d`, `compute_q_residual3d(_symm)`, `correctrhsquatforsymmetry`, the assertions of `QuatFACOps` and `QuatIntegrator::evaluateQuatRHS` for `NDIM == 3` | energy law and sign without symmetry (any number of components); result always tangent; with symmetry: abort in builds with assertions, exact excess of the unrotated fluxes and of the default correction over the rate of steepest descent (itself proved to lower the energy), effect of relabelling, reversal of the rate of a bicrystal; equality with the rate without symmetry when neighbours are stored within 45 degrees |
| C119 | the 3D routines for phase rate, ebs and kks fluxes, composition rate and reported energy of an isothermal alloy, one definition for all directions where the blocks are copies (Model/AlloyFlow3.lean) | exact energy balance for any flux; decay, strict decay away from rest and no cycles along runs with the ebs form; kks form with linear interpolation; agreement with the 2D routines on samples not depending on z, which carries over runs and the counterexample to the default kks flux |
| C120 | 3D Cahn-Hilliard and sintering fluxes as scatter loops over the grown patch, rates, order parameter rates, and the sintering coefficients (scalar mixture + grain boundary + surface additions). | Summation by parts in any direction; derivative of the energies along runs; coefficients patch independent and non-negative; rest states; stacks of layers reduce to C82; explicit separating runs as examples; mobility squared (violation). |
| C121 | 3D branches of the two level solvers: matrix entries from face coefficients, loop over boundary boxes, right-hand side adjustment, symmetric storage, sqrt(M) scaling. | 3D analogues of C78/C79 with one direction-generic summation by parts: exactness (partial) and exact error (violations), positivity, existence and uniqueness, symmetry, zero correction; reduction of columns to the 2D systems; cuboid levels as examples. |
| C122 | Number of directions told to hypre, copy loop of matrix entries with its five counters over a buffer, order in which box functions read and write, copies of right-hand side and result; resolution check of the input. | Loop invariant over cells, rows and planes; every entry at its place and solve = level equations for full levels and 2D bars (partial); overflow for every thin 3D level, columns left unsolved (violations); examples for each case. |
| C123 | Life cycle of the multigrid solvers (boundary object, state bound to level objects, wrappers, reset on regridding, empty reset for the steady temperature) on the meshes of C102 (`Model/SolverMesh.lean`; identities of levels and data only) | Invariant over sequences of regriddings and solves: follows the mesh while the number of levels does not drop; violations (fewer levels, steady temperature, warm start, second initialisation, explicit range) and the repair |
| C124 | Phase and temperature rates, interface energy of a pure melt in 2D and 3D (`Model/MeltFlow.lean`, `Model/Thermal.lean`) | Axis exchange and reflection by computation; stacks against layers exact for one strategy; exact difference for the other (violation, iff) |
| C125 | The 3D build of the phase-gradient fluxes (KKS, Beckermann): addresses of cells and sides in memory, coupling coefficients and fluxes of x, y, z sides | Addresses of sides agree with the Fortran arrays; KKS flux is one function of two cells for all axes; product rule for linear interpolation; layers; violation for exchange of x with y or z when the partition coefficient varies |
| C126 | dot product, norms, error weights, norm factor of the vectors handed to CVODE; residual norm and stopping test of the multigrid solver (`Model/IntegratorNorm.lean`); what SAMRAI sums and what CVODE documents is trusted | C39 for refinement and covered cells, scaling of control volumes; failure of the block solvers characterised |
| C127 | `QuatLinearRefine::refine` with an overlap: the loop over destination boxes, the shortening of every box by `growUpper(-1)`, the cell loops of `quatlinrefine2d/3d` with an arbitrary interpolation (`none` = the program stops), and the two-dimensional instance | exactly which cells are written; some requested cell is never written whatever the request; one-cell layers are skipped; with the rotation index passed by the program nothing is ever stored; stencil width |
| C128 | `readCSV` on lines already cut into fields (comments, reversal of the columns, exceptions, assertions), `resetVelocity` and `setCurrentTemperature` with a history in 2D and 3D, cell centres of `initgradient`, the reported average | nodes of the file reproduced, field in the laboratory, continuity, patch independence, average on one level; violations at the last column, for increasing positions, for blank lines and after a restart |
| C129 | `AlloyFlow3` (C119): rates, coefficients, both fluxes, energy of a 3D isothermal alloy | for every signed permutation of the axes and every displacement (specification `Placement`, exactly one each): rates, coefficients, fluxes (with the sign of the direction), energy of a period agree; runs are carried to runs |
| C130 | order of mesh construction and file reading at the start (`PFModel::setupHierarchy`, `QuatModel::Initialize`, `FieldsInitializer::initializeLevelFromData`), flattening of the hierarchy for the file written at the end (`FieldsWriter`); refine operators and tagging abstract, then `LINEAR_REFINE` | level 0 holds the file; without finer levels the start is the file (`_partial`); finer levels do not depend on the file at all, faithful iff refining the unread memory agrees with refining the file; data level > 0 never starts; write side: written iff the level exists, exact where covered, range, affine fields, amount changed by second differences, orientations shorter than one |
| C131 | The rate of one order parameter with all terms (wells, orientation term, driving forces of all strategies, both stencils, moving frame); the heat equation | Solutions of the semi-discrete equations stay in [0,1] (2D, 3D; accepted settings other than the ones below), by a minimum principle for finitely many cells; temperature bounds; counterexamples: linear interpolations, fast or upwind frame, isotropic stencil on elongated cells |
| C132 | The rates of three phases with all terms (triple well, Folch-Plapp driving force, stencils, moving frame) | Fractions stay fractions and absent phases stay absent along every solution (2D, 3D); the force is a sum of pairwise exchanges; counterexample with the upwind frame; the unused Moelans functions lack the property |
| C133 | full rates of `MultiOrderRHSStrategy` (wells, driving forces of two and three phases, mobility) and `SinteringUWangRHSStrategy`, with the moving frame, 2D and 3D | order parameters of any solution never negative, absent grains stay absent, below one if energies differ by at most `gamma m` (maximum principle; factor bounds by compactness); violations: strong driving force, upwind frame |
| C134 | full rate of the composition: sum over phases with the three stencils, anti-trapping, frame (2D; 3D regular), KKS form 2D/3D, partition split | non-negative for every solution (regular stencil, linear split; KKS form with fitting interpolations), range kept when phases do not differ; violations: order4, isotropic with contrast, anti-trapping, cross diffusion, fast frame, upper bound, KKS with linear energies |
| C135 | the two stored copies of the temperature under rate evaluations, accepted steps and diagnostics, all temperature models (`Model/TempReport.lean`) | induction over histories; mean of a linear field by symmetry of the box; negations: the steady heat equation never shows its temperature, average of a gradient on refined meshes |
| C136 | rate of the temperature with frame term on any finite set of cells (2D, 3D); the steady system with Robin ghost values on a box (2D, one level, exact solution of the linear system) | comparison of two histories by the minimum principle (`stays_nonneg`), corollaries uniqueness, floor, ceiling; steady: discrete strong minimum principle gives order and uniqueness, finite dimension gives existence; closed box: summation by parts gives the balance, so no solution for an unbalanced source |
| C137 | `evaluateEnergy` on the memory of `RateCall`, integrators as interactive programs, diagnostics between steps; solver starting points of `StartGuess` | a rate after an observation has the same result and memory; runs with any pattern of diagnostics agree; exact conditions under which diagnostics show through the starting point of the composition solver |
| C138 | `CALPHADMobility::initialize` as a reader of optional arrays, `D.dat` as a list of blocks | values of all terms for files of two and three species; Arrhenius form of the entries; what a fourth species, a gap, a short array do; exact condition for the liquid block of species 1 to be right |
| C139 | rates of the order parameters (2D both stencils, 3D), the energy printed for such a run (`Model/MultiBounds`, `Model/GrainFlow`) | exact energy balance of the implemented equations, decay, rest, no cycles; the printed energy and the documented one grow (violations) |
| C140 | rates of phase (`PhaseBounds.rate2/3`) and temperature (`HeatOrder.heatRate2/3`) against smooth solutions of the differential equations (iterated derivatives of Mathlib) | truncation error of both stencils and of the centred frame (Taylor with remainder), comparison in the maximum norm: error at most (E + tau t) exp(Lambda t), one constant for all meshes |
| C141 | The driver programs: temperature loop with the previous result as guess, range checks, ordered maps, reports and exit status; the equilibrium solver is an arbitrary function | Exactly which points are tabulated, their soundness, ternary tables, printed zeta = zeta of the run; lost lines, all-or-nothing, unchecked solid, curvature of the solid at the liquid composition, zeta 0 on failure as violations |
| C142 | The script make_nuclei.py: pruned distances, the loop moving nuclei apart, painting of the phase, volumes, compositions and option handling, carried search for the nearest nucleus | Distance = minimum over images, sharp field, separation on exit, nominal mean and nearest grain under it, unit orientations; ten violations |
| C143 | the rates of phase, temperature and grains of C131, C133 and C136 | two runs stay close with a constant free of the mesh (maximum norm Gronwall at the cell where the difference is largest); uniqueness; pairs of runs in the example |
| C144 | `utils/make_bilayer.py`: centres, radii, profile, phase, compositions from the nominal one, orientations of one and two layers, temperature | phase between the two values; cells of one and of two sharp layers; exact total composition; nominal mean in even boxes; misorientation of two layers; mean temperature; violations: parity, default radius, ratio, options lost, layers across z, interface cut off, lengths between the layers, gaussian |
| C145 | `utils/quat.py`: tables of rotations and conjugates, product, length, distance, `quatSymm`, `quatSymm1`, `quatMakeFundamental`, angles | same results as `quat.f`; closest equivalent orientation from any start; at most 62.8 degrees (also C15, sharp); angles; violations: conjugate of rotation 40, start index ±n, `quatSymm1` without result |
| C146 | the phase rate of C131 and the heat rate of C133/C140 coupled through the thermal driving force, on the cells of a domain whose surrounding cells are copies (periodic, mirrored) | existence up to any time (cut-off of the rates outside a box, a priori bounds by comparison, Picard–Lindelöf) and uniqueness (Gronwall), 2D and 3D |
| C147 | `main`, `AMPE::initialize`, names in `PFModel::Initialize`; strings as lists of characters, `size_t` modulo 2^64, `atoi` | names after the stem; precedence of the input; restart from numerals; violations: root directory, shared stems, negative or non-numeric restart numbers, unset pointer deleted after usage |
| C148 | `make_initial_grains_on_boundary.py`: axes, front, factor of the grain boundaries, composition of the liquid, grain of a plane, `smoothQuat` (`Model/BoundaryGrains.lean`) | range of the phase; fraction and mean composition for one grain, exact error otherwise; grain of a plane; smoothing: range, interior, wrap; violations: fraction and mean with several grains, border planes, plane 0, smoothing at the edge, option for the liquid |
| C149 | `make_multi_spheres.py`: ranges of the images, `distance2` with its early exits, thresholds, phase and composition of a cell, number of species (`Model/MultiSpheres.lean`) | nearest image; cells of a sphere; profile up to its value at five widths; composition of the last sphere; violations: periodicity never in force, discs too small, missing phase B, equal compositions |
| C150 | `make_sphere.py`: tests of the options, kinds of spheres, radii and centres, orientations from the angle, random spheres with half-to-even rounding, filling of the arrays (`Model/Sphere.lean`) | cells of the one sphere, symmetry, angle (lengths 4 and 1), random spheres inside the domain; violations: two spheres, texts of orientations, random spheres of length 4, shift, half angle, sign |
| C151 | The rates of C108 (phase and temperature together) and of C33 (phase at given energies), followed for all times from 0 in a periodic sample; mobilities between two positive bounds. | A lemma of the kind of Barbalat (`Proofs/Rest.lean`): a sum with a lower bound whose rate is at most −q, q bounded and Lipschitz, forces q → 0. Bounds of the fields from the double well and the stored heat. Rates → 0, temperature uniform with the value of the heat balance, limits are states at rest (linear interpolation with heat; p and h at given energies). |
| C152 | Rates of C139/C104 (`rateMulti2`, `rateMulti3`) followed from time 0 on in a periodic sample. | Energy of C139 is bounded below and controls the order parameters (`wells_ge`), so they are bounded and Lipschitz; the energy loss (C139 balance) then must fade (`AMPE.Rest.fades`): all rates tend to zero, limits are stationary; driving forces under the assumption that no cell empties. |
| C153 | the order parameters of a periodic sample as a finite system of differential equations (`rateMulti2`, `rateMulti3`) | a history for all times exists from every start, is the only one, and comes to rest; both stencils, 2D and 3D |
| C154 | utils/make4corners.py: phase and orientation of every cell, exceptions | solid cells are the four balls, every solid cell has a grain, quarters of a square domain; violations: same orientation on the left, border at half the width, lengths with fewer components, deep cells |
| C155 | The multi-order-parameter rates (2D with both stencils, 3D) of a box of cells whose ghost cells are filled by the boundary helper for slope 0 on all sides (Model/Boundary, Model/Boundary3) | From every state exactly one history for all times; with positive mobilities it comes to rest. The state reflected at the walls is a periodic state of twice the size that follows the same equations (Proofs/Walls, Proofs/Walls3), to which C139, C152 and C153 apply |
| C156 | `substituteInputParameter.py`: reading words, substituting the third one, joining | for all files with at most one setting line the output is the wanted file; with several setting lines the later ones are garbled, without blanks nothing is changed |
| C157 | the order of the lines of the log of a run (time lines, volume fractions, other lines) with the `EventInterval` state; `volfracvstime.py` with Python list indices | every volume fraction stands under the time of its evaluation; the script prints this when the time line is at most 999 lines above; violations for longer distances and cut logs |
| C158 | the phase and heat equations of C108/C151 with the linear interpolation as one finite system | local Lipschitz, existence for all times from the sum of C108 as a Lyapunov function, uniqueness, rest from C151; 2D and 3D |
| C159 | `Props/MeltWalls.lean`, `MeltWalls3.lean`: the rates of C108 on one box, ghost cells filled by the code of C61 for zero-gradient conditions | the even extension to a box of twice the size is a periodic history; existence, uniqueness and rest then follow as in C158 |
| C160 | `Model/GrainScripts.lean`: grainVolumesEvolution.py, grainCoringEvolution.py as folds over the lines of a log | induction over reports gives the whole table; it is the history of each number iff numbers do not come back |
| C161 | `Model/GrainScripts.lean`: grainSizeDistribution.py, dictionary and histogram | counting lemma by induction; the order of taking over the time and storing decides under which time a report is filed |
| C162 | the parts of a run that open the thermodynamic database: which look at the file name, which read input syntax only (FreeEnergyStrategyFactory.h, PhaseConcentrationsStrategyFactory.h, KimMobilityStrategy.cc, AzizPartitionCoefficientStrategy.cc, CompositionStrategyMobilities.cc, diagnostics.cc, MobilityFactory.h); convertDatabase2JSON | same trees for both syntaxes unless a part reads input syntax only (partial); which runs cannot start from JSON, short names, names that mislead, Aziz partitioning without NewtonSolver (violations) |
| C163 | the columns written by utils/make_init_1d.py and utils/add_temperature.py | linear ramp with its mean; symmetric tent for even numbers of columns (partial); odd numbers and a single column (violations) |
| C164 | utils/make_nucleiBain.py: distances, filling, outside composition, orientations, components written; distance of utils/make_nucleiBain2D.py | spheres in a cube, no overlap, nominal composition with default phases, three orientations; cut spheres, shifted mean, negative composition, number of components (violations) |
| C165 | `lineplotPhiQuat.py` as the list of curves drawn and the text written (lists of characters), `plotConcentrations.py` with `numpy.loadtxt` as splitting into lines and words (`Model/LinePlot.lean`); VisIt is the set of fields of each dump | induction over lines and over dumps; violations: first point lost in the comment, files mislabelled when a field disappears |
| C166 | blocks `Visit`, `Symmetry`, `GrainDiagnostics`, `GrainExtension`, `RigidBody` as read at the start (`Model/OptionalBlocks.lean`, intervals from `Model/EventInterval.lean`); members nobody has set and null pointers are `none` | cases over the blocks; characterisation of the starts, mesh resets and steps that are well defined |
| C167 | `Temperature` entries of the input, the factory of temperature models, construction and first use of the steady sources (`Model/TempInput.lean`); null pointers and reads beyond an array are `undefined`, assertions switchable | cases over the texts and blocks; table of types and conversion of units written separately |

## How violations are recorded

Several properties are what a user expects but not what the code does.  For these the manifest contains both kinds of
theorems: `cNN_..._partial` under the extra hypotheses that make the property true, and `cNN_violation_...`, which states
for all inputs what the code does instead (usually the exact excess term, or an equivalence saying when the property
holds).  The status is then `partial`.  `STATUS.md` lists them.

## What is not modelled

* External libraries: SAMRAI (communication schedules, boundary filling, load balancing, restart files), SUNDIALS/CVODE
  (the time integrator only appears as an oracle for step sizes), hypre (only the systems it is given), Thermo4PFM
  (free energies appear as arbitrary differentiable functions satisfying the equations they are solved for).
* Three SAMRAI routines are assumed in `Model/LevelSolve.lean` (diagonal of the Poisson matrix, boundary adjustment without
  mobilities, ghost coefficients at coarse-fine boundaries); the assumption is stated there.
* Floating-point effects, parallel message passing, input parsing apart from what is cited.
* Fortran routines and C++ lines that do not appear in `COVERAGE.md`.

## Mutation tests

`seeded/mutate.py` copies the Lean project outside `/verif`, replaces one piece of a model definition by what a realistic
bug would produce, rebuilds everything that depends on it, and records which declarations no longer check.  A mutant that
is `killed` is one for which at least one proof fails; that the English claim is false for the mutant was decided by
reading when the mutant was written.  Survivors led to new or stronger theorems (`tightened`), after which the mutant
was run again.  Mutants marked "(repair, not a bug)" remove a known error of the code; they must kill the corresponding
violation theorem.

## Axioms

`axioms.txt` is produced by `python3 gen_coverage.py --axioms` (`#print axioms` for each theorem of the manifest).  Only
`propext`, `Classical.choice` and `Quot.sound` occur.
