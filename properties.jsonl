{"id": "C01", "title": "Step-based output events fire exactly on schedule", "statement": "An event interval of type step/cycle with interval n>0 that is polled with increasing simulation times answers 'yes' at a poll exactly when the step number is a multiple of n, or the poll is the very first one and the interval includes the first step; every 'yes' is also remembered so that it can be queried as having occurred at that time.", "quantifier": "all intervals n, all include-first flags, all finite poll histories with strictly increasing times >= 0", "why_tests_cant": "The answer depends on the whole history of polls through two hidden time stamps; tests only sample a few schedules.", "anchors": ["source/EventInterval.cc: hasIntervalPassed, recordEvent, eventOccurredAtTime", "source/EventInterval.h"]}
{"id": "C02", "title": "Time-based output events fire exactly when a multiple of the interval is crossed", "statement": "Once a time-based event interval has been primed by its initial poll, every later poll at a larger time answers 'yes' exactly when some positive multiple of the interval lies in (previous poll time, this poll time]; so no multiple is ever skipped silently and at most one event is produced per poll. Without priming (no initial poll, no include-first flag) the first crossing is lost.", "quantifier": "all interval lengths > 0, all increasing poll time sequences, arbitrary (adaptive) step sizes", "why_tests_cant": "Adaptive time steps produce unboundedly many alignments of steps and multiples.", "anchors": ["source/EventInterval.cc: hasIntervalPassed, includeInitial"]}
{"id": "C03", "title": "An output event never fires twice at the same simulation time", "statement": "For any interleaving of initial, periodic and final polls of an event interval, two polls at the same simulation time with no other-time poll in between never both answer 'yes'; an inactive interval never answers 'yes'.", "quantifier": "all finite sequences of includeInitial/hasIntervalPassed/includeFinal calls with arbitrary steps and times >= 0", "why_tests_cant": "Double output comes from particular interleavings of three entry points sharing hidden state.", "anchors": ["source/EventInterval.cc: includeInitial, includeFinal, hasIntervalPassed, eventOccurredAtTime, isActive"]}
{"id": "C04", "title": "The time-stepping loop stops at the first admissible cycle", "statement": "Running the model performs cycles while time < end_time and cycle < max_cycles, and stops at the first cycle where either bound is met: the final cycle never exceeds max(start, max_cycles), the simulation time equals the start time plus the sum of the accepted steps, and if every step is at least some positive size and end_time is finite the run terminates.", "quantifier": "all start states, end times, cycle limits and all sequences of step sizes returned by the integrator", "why_tests_cant": "The sequence of step sizes is chosen adaptively by an external solver; its space cannot be enumerated.", "anchors": ["source/PFModel.cc: Run"]}
{"id": "C05", "title": "Initial restart output follows the restart schedule", "statement": "Whether a restart file is written before the first step is decided by the restart output schedule chosen by the user, not by the schedule of another activity.", "quantifier": "all combinations of restart and regrid schedules", "why_tests_cant": "Needs all pairs of schedules; the shipped test inputs always use the same combination.", "anchors": ["source/PFModel.cc: Run, d_restart_interval, d_regrid_interval"]}
{"id": "C06", "title": "Plot data of the final state is written exactly once", "statement": "If the plot-output schedule asks for the final state, then after the run the plot output contains the final state exactly once: it is neither missing nor written twice.", "quantifier": "all schedules, all numbers of cycles including zero, all step-size sequences", "why_tests_cant": "Depends on the coincidence of the last cycle with the periodic schedule over every run length.", "anchors": ["source/PFModel.cc: Run, d_visit_interval, flag_visit_dump"]}
{"id": "C07", "title": "A restarted run resumes at the saved cycle, time and step", "statement": "Writing the restart data and reading it back restores cycle, simulation time and previous time step exactly; when a delta-cycle limit is given, the resumed run stops that many cycles after the saved cycle.", "quantifier": "all states at any crash/restart point; all combinations of the limit keys in the input", "why_tests_cant": "Quantifies over every possible restart point and every combination of optional input keys.", "anchors": ["source/PFModel.cc: putToRestart, getFromRestart, getFromInput"]}
{"id": "C08", "title": "Temperature-history lookup interpolates inside the table and reports everything else", "statement": "A lookup at (time, position) inside the table returns a temperature between the smallest and largest of the four surrounding table values, equal to the table value at a table node, and outside the table range it returns a failure code; it never reads outside the table.", "quantifier": "all tables with increasing times and positions, all query times and positions", "why_tests_cant": "Boundary coincidences (query exactly on the first/last row or column) are measure-zero and missed by sampling.", "anchors": ["source/TemperatureHistory.cc: getTandGradT"]}
{"id": "C09", "title": "Three-phase pair weights form a partition of unity", "statement": "The three pairwise weights computed from three phase fractions lie in [0,1] and add up to one whenever the construction triangle is non-degenerate.", "quantifier": "all phase-fraction triples in the simplex for which the three construction points are distinct", "why_tests_cant": "Real-valued domain with degenerate corners; sampling cannot cover the boundary.", "anchors": ["source/computeWeights3Pairs.cc: computeWeights3Pairs"]}
{"id": "C10", "title": "Phase interpolation functions are proper interpolants", "statement": "Every supported interpolation function maps 0 to 0 and 1 to 1, stays within [0,1] for arguments in [0,1], does not decrease between 0 and 1, and for the clamped kinds is constant outside [0,1]. Unsupported kinds abort.", "quantifier": "all supported interpolation kinds, all real arguments", "why_tests_cant": "Uncountable argument domain, and fractions slightly outside [0,1] are produced by the solver.", "anchors": ["source/fortran/functions.f: interp_func"]}
{"id": "C11", "title": "Reported interpolation derivatives are the true derivatives", "statement": "For every supported interpolation kind the derivative routine returns the derivative of the interpolation routine at every point where the latter is differentiable, and the second derivative routine returns the derivative of the first-derivative routine.", "quantifier": "all supported kinds, all real arguments", "why_tests_cant": "Pointwise finite-difference tests sample finitely many arguments and tolerate errors.", "anchors": ["source/fortran/functions.f: interp_func, deriv_interp_func, second_deriv_interp_func"]}
{"id": "C12", "title": "Double-well potentials have exactly the two intended minima", "statement": "Each double-well potential is non-negative, vanishes exactly at the two pure phases, is symmetric about one half, and its derivative and second derivative routines are its true derivatives.", "quantifier": "all real arguments, all supported well kinds", "why_tests_cant": "Global statements over the real line.", "anchors": ["source/fortran/functions.f: well_func, deriv_well_func, second_deriv_well_func"]}
{"id": "C13", "title": "Face averages lie between the two cell values", "statement": "Arithmetic and harmonic averaging of two non-negative cell values is symmetric, lies between the smaller and larger value, reproduces equal values, and for the harmonic kind never divides by zero; derivative routine is the partial derivative.", "quantifier": "all pairs of non-negative reals, both kinds", "why_tests_cant": "Real-valued domain including the small-value threshold branch.", "anchors": ["source/fortran/functions.f: average_func, deriv_average_func"]}
{"id": "C14", "title": "Crystal symmetry rotations are norm preserving and invertible", "statement": "Applying any of the symmetry rotations of the orientation representation keeps the length of the orientation vector, applying rotation i and then its inverse (requested with the negative index) gives back the original orientation, and the rotations form a group under composition (up to the 48 listed elements).", "quantifier": "all orientations in R^4/R^2/R, all rotation indices", "why_tests_cant": "48x48 products combined with an uncountable orientation domain.", "anchors": ["source/fortran/quat.f: quatsymmrotate4, quatsymmrotate2, quatsymmrotate1, setqr"]}
{"id": "C15", "title": "Symmetry search returns an equivalent orientation that is never farther", "statement": "Searching for the symmetry image of one orientation closest to another returns the index and image of one of the listed rotations, and that image is a closest one among all equivalent orientations; in particular it is never farther from the target than the starting candidate, and equivalent inputs give equally distant answers.", "quantifier": "all pairs of orientations, all starting indices (including zero, negative and out of range)", "why_tests_cant": "Early-exit logic with a threshold over an uncountable domain.", "anchors": ["source/fortran/quat.f: quatfindsymm4, quatfindsymm2, quatfindsymm1"]}
{"id": "C16", "title": "Orientation to rotation matrix conversion yields rotations", "statement": "A unit orientation quaternion is mapped to an orthogonal matrix with determinant one, opposite quaternions give the same matrix, products of quaternions give products of matrices, and the derivative routine returns the entrywise derivative of the matrix with respect to the quaternion. The two-component form gives the rotation of the plane by the stored angle.", "quantifier": "all quaternions; all four derivative directions and nine entries", "why_tests_cant": "Polynomial identities over R^4.", "anchors": ["source/fortran/quat.f: quatrotationmatrix, derivquatrotationmatrixdq"]}
{"id": "C17", "title": "Coarsening and refining orientations keeps them unit length", "statement": "Transferring orientation data between grid levels yields unit orientations wherever the averaged/interpolated vector is not numerically zero, and for uniform data reproduces the uniform value; with symmetry-aware transfer enabled the operation completes.", "quantifier": "all refinement ratios, all fine/coarse data", "why_tests_cant": "All grids and ratios; the symmetry-aware path aborts on a hidden index convention.", "anchors": ["source/fortran/2d/quatcoarsen.m4", "source/fortran/2d/quatlinrefine.m4", "source/QuatModel.cc:942"]}
{"id": "C18", "title": "Coarse/fine index maps use floor division and valid interpolation weights", "statement": "For every fine cell index, including negative ones, the coarse cell used by refinement is the one that geometrically contains it, and the interpolation weights are non-negative, add up to one and reproduce linear data.", "quantifier": "all integer cell indices, all refinement ratios >= 1", "why_tests_cant": "Negative indices and every ratio; integer truncation is direction dependent.", "anchors": ["source/fortran/2d/quatlinrefine.m4"]}
{"id": "C19", "title": "Grain labels are constant on connected grains and distinct across grains", "statement": "When the grain-labelling sweep has converged, two solid cells of the same connected grain carry the same label and cells of different grains carry different labels provided the initial labels are distinct; non-grain cells are never labelled.", "quantifier": "all grid sizes, all shapes of grains, all sweep orders (patch decompositions)", "why_tests_cant": "Arbitrary grain topology and sweep schedules.", "anchors": ["source/Grains.cc: findAndNumberGrains"]}
{"id": "C20", "title": "Initial grain seed labels are unique over the whole hierarchy", "statement": "Before merging, every cell of every level gets a label no other cell has.", "quantifier": "all hierarchies: any number of levels, boxes and processes", "why_tests_cant": "Depends on box counts per level and process; small tests use one level.", "anchors": ["source/Grains.cc: findAndNumberGrains level_offset, level_stride"]}
{"id": "C21", "title": "Grain renumbering is a gap-free order-preserving bijection", "statement": "After renumbering, grain numbers are exactly 0..N-1 for N distinct grains, two cells have equal new numbers iff they had equal old labels, and the result does not depend on how cells are split over processes.", "quantifier": "all label sets, all partitions of cells over processes", "why_tests_cant": "All label sets and all distributions.", "anchors": ["source/Grains.cc: findAndNumberGrains renumbering"]}
{"id": "C22", "title": "Grain volume and concentration tables account for every cell", "statement": "The sum of the reported grain volumes equals the total volume of labelled cells, and each grain's average concentration lies between the minimum and maximum concentration found in it.", "quantifier": "all fields, labels and patch decompositions", "why_tests_cant": "Universally quantified over data and decompositions.", "anchors": ["source/Grains.cc: computeGrainVolumes, computeGrainConcentrations"]}
{"id": "C23", "title": "Orientation extension stops only when every cell is set", "statement": "Extending grain orientations into the non-grain region finishes only when no cell anywhere is left without orientation.", "quantifier": "all patch decompositions and fields", "why_tests_cant": "The loop-control flag depends on the order of patches.", "anchors": ["source/Grains.cc: extendGrainOrientation"]}
{"id": "C24", "title": "Coarsened grain labels are the smallest valid fine label", "statement": "Coarsening integer labels gives each coarse cell the minimum of the non-negative labels among the fine cells it covers, and -1 when there is none; the result is one of the fine labels.", "quantifier": "all ratios, all fine data", "why_tests_cant": "All blocks of all sizes.", "anchors": ["source/MinIntCoarsen.cc: coarsen"]}
{"id": "C25", "title": "Global gather lists are concatenations in process order", "statement": "Gathering a list over all processes gives every process the concatenation of the local lists in rank order with nothing lost or duplicated, whatever the local sizes (including empty).", "quantifier": "all numbers of processes and local list sizes", "why_tests_cant": "Unbounded process counts and sizes.", "anchors": ["source/tools.cc: listLocalToGlobal, allGatherSetup, sumReduction"]}
{"id": "C26", "title": "Input echo preserves every setting", "statement": "Converting an input database to its JSON echo keeps every key of every type at every nesting depth with its value.", "quantifier": "all databases (arbitrary nesting)", "why_tests_cant": "Arbitrary recursive structures.", "anchors": ["source/Database2JSON.cc"]}
{"id": "C27", "title": "CALPHAD chemical mobilities are symmetric positive semidefinite", "statement": "For non-negative concentrations that sum to one and any model parameters and temperature > 0, the binary mobility is non-negative and the ternary mobility matrix is symmetric and positive semidefinite; it vanishes for a pure component.", "quantifier": "all concentrations in the simplex, temperatures, parameters", "why_tests_cant": "Quadratic-form positivity over all vectors.", "anchors": ["source/CALPHADMobility.cc", "source/CALPHADMobility.h"]}
{"id": "C28", "title": "Velocity-dependent partition coefficient is bounded and limits correctly", "statement": "The velocity-dependent partition coefficient lies between the equilibrium coefficient and one, equals the equilibrium value at zero speed, is monotone in speed, tends to one, does not depend on the direction of motion, and satisfies the reciprocal law k(1/ke)=1/k(ke).", "quantifier": "all speeds, all equilibrium coefficients > 0, all diffusion speeds > 0", "why_tests_cant": "Real domain and limits.", "anchors": ["source/AzizPartitionCoefficientStrategy.cc"]}
{"id": "C29", "title": "Partitioned phase concentrations conserve the mixture", "statement": "Splitting a composition between liquid and solid using a partition coefficient k>0 reproduces the composition as the phase-fraction weighted mean and keeps the ratio solid/liquid equal to k.", "quantifier": "all compositions, phase fractions in [0,1], coefficients > 0", "why_tests_cant": "Division by a state-dependent factor.", "anchors": ["source/PartitionPhaseConcentrationsStrategy.cc"]}
{"id": "C30", "title": "Prescribed uniform temperature follows the requested ramp and stops at its target", "statement": "A prescribed temperature starts at the initial value, changes at the requested rate and never passes the target; after the ramp end time it stays at its final value.", "quantifier": "all ramp parameters and times", "why_tests_cant": "Real domain, both signs of rate.", "anchors": ["source/ScalarTemperatureStrategy.cc"]}
{"id": "C31", "title": "Diffusive updates conserve the transported quantity", "statement": "Summed over any grid block, the composition rate produced from face fluxes equals the net flux through the block's outer faces; it vanishes for periodic or zero-flux boundaries, for every flux contribution (diffusion, anti-trapping, thermal gradient, Cahn-Hilliard).", "quantifier": "all grid sizes in 2D and 3D, all flux fields", "why_tests_cant": "Any block size; conservation is a global telescoping identity.", "anchors": ["source/fortran/2d/concentrationrhs.m4: computerhsconcentration", "source/CompositionRHSStrategy.cc: setZeroFluxAtBoundaryOnPatch"]}
{"id": "C32", "title": "Diffusion fluxes vanish for uniform fields and flow down the gradient", "statement": "Second-order, isotropic and fourth-order face fluxes vanish for uniform data, are exact for linear data (up to the order of the stencil), and are linear in the data.", "quantifier": "all data, coefficients and spacings", "why_tests_cant": "Polynomial exactness over all data.", "anchors": ["source/fortran/2d/flux.m4: add_flux, add_flux_iso, add_flux_4th"]}
{"id": "C33", "title": "The phase rate is minus the gradient of the discrete free energy", "statement": "On a periodic grid of any size the phase-field rate divided by mobility equals minus the partial derivative of the reported total energy (interface + well + bulk driving term) with respect to each cell value divided by the cell volume, so an exact gradient flow never increases the energy.", "quantifier": "all grid sizes, all phase fields, all parameters", "why_tests_cant": "A calculus identity in arbitrarily many variables.", "anchors": ["source/fortran/2d/quatrhs.m4: computerhspbg, phaserhs_fenergy, gradient_flux", "source/fortran/2d/quatenergy.m4: phi_interface_energy, well_energy, bulkenergy"]}
{"id": "C34", "title": "Three-phase rates keep the phase fractions summing to one", "statement": "For three order parameters the total of the rates (interface, well and driving-force part) is zero in every cell, and the projection moves any triple onto the plane where they sum to one and leaves triples already there unchanged.", "quantifier": "all fields and parameters", "why_tests_cant": "Identity over all real data.", "anchors": ["source/fortran/2d/quatrhs.m4: computerhsthreephases", "source/fortran/2d/phase.m4: projectphi2d", "source/CALPHADFreeEnergyStrategyBinaryThreePhase.cc"]}
{"id": "C35", "title": "Multi-order well force is the derivative of the multi-well energy", "statement": "The bulk force on each order parameter is minus the derivative of the multi-well potential sum(phi^4/4 - phi^2/2) + gamma sum_{i<j} phi_i^2 phi_j^2.", "quantifier": "all numbers of order parameters, all values", "why_tests_cant": "Any number of parameters.", "anchors": ["source/fortran/2d/multiorder.m4", "source/fortran/3d/multiorder.m4"]}
{"id": "C36", "title": "Multi-order driving force is minus the gradient of the interpolated bulk energy", "statement": "With normalised-square phase fractions, the driving force added to each order parameter equals minus the partial derivative of the interpolated bulk energy at fixed phase energies; the fractions are in [0,1] and sum to one.", "quantifier": "all numbers of order parameters, all values not all zero", "why_tests_cant": "Rational-function gradient in n variables.", "anchors": ["source/fortran/2d/quatrhs.m4: phaserhs_fenergy_multiorderp", "source/QuadraticFreeEnergyStrategyMultiOrderTernaryThreePhase.cc"]}
{"id": "C37", "title": "Pairwise rigid-body forces obey action and reaction", "statement": "The force of grain i on grain j is the opposite of that of j on i, no grain acts on itself, so the total internal force vanishes.", "quantifier": "all fields, grain counts, patch decompositions, 2D and 3D", "why_tests_cant": "Sum over arbitrary cells and pairs.", "anchors": ["source/fortran/2d/forces.m4: wang_forces, phiphi_forces", "source/fortran/3d/forces.m4", "source/RigidBodyForces.cc"]}
{"id": "C38", "title": "Pair-interface energy is summed over the whole domain", "statement": "The reported pairwise interfacial energies are the sums over all grid patches.", "quantifier": "all patch decompositions", "why_tests_cant": "Invisible with one patch per process.", "anchors": ["source/MultiOrderPEnergyEvaluationStrategy.cc", "source/fortran/2d/quatenergy.m4: phiphi_interfacialenergy"]}
{"id": "C39", "title": "Integration weights cover the domain exactly once", "statement": "The cell weights used for volume integrals add up to the domain volume on any properly nested adaptive hierarchy: cells covered by a finer level count zero.", "quantifier": "all hierarchies", "why_tests_cant": "All refinement patterns.", "anchors": ["source/QuatModel.cc: computeVectorWeights, computeVectorWeightsDiagnostics, zeroOutLowerLevelWeights"]}
{"id": "C40", "title": "Refinement tagging is exactly the union of enabled criteria", "statement": "A cell is tagged for refinement iff at least one enabled criterion's scaled gradient reaches its tolerance; uniform regions are not tagged for positive tolerance.", "quantifier": "all fields and tolerances", "why_tests_cant": "All combinations of criteria.", "anchors": ["source/fortran/2d/quattag.m4", "source/QuatModel.cc: tagGradientDetectorCells"]}
{"id": "C41", "title": "Orientation mobility stays between its bounds and matches its derivative", "statement": "The orientation mobility lies between its configured minimum and scale (and its cap) for every phase value, including slightly outside [0,1], and the derivative routine returns its derivative where it is smooth.", "quantifier": "all phase values, all three kinds, parameters", "why_tests_cant": "Real domain with clamps.", "anchors": ["source/fortran/2d/mobility.m4: quatmobility, quatmobilityderiv"]}
{"id": "C42", "title": "Orientation corrections are tangent to the unit sphere and projections land on it", "statement": "The symmetry correction added to the orientation rate is orthogonal to the orientation, and the solver's projection step moves every non-zero orientation to unit length while leaving unit ones unchanged and removes exactly the normal part of the error.", "quantifier": "all orientations, errors, depths", "why_tests_cant": "R^n identities for any depth.", "anchors": ["source/fortran/2d/correctrhsquatforsymmetry.m4", "source/fortran/2d/quatfacops.m4: project2d"]}
{"id": "C43", "title": "A red-black smoothing sweep visits every cell once and zeroes its residual", "statement": "A red pass followed by a black pass updates each cell of a patch exactly once, each update makes the residual of that cell zero for frozen neighbours, cells of one colour never neighbour each other, and an exact solution is left unchanged.", "quantifier": "all patch boxes (any index origin, any size), all data", "why_tests_cant": "All index parities, including negative origins.", "anchors": ["source/fortran/2d/ellipticfacops.m4: efo_rbgswithfluxmaxvardcvarsf2d"]}
{"id": "C44", "title": "Time-dependent boundary values interpolate the table whatever the call history", "statement": "Boundary values read from a time table are the linear interpolation between the neighbouring table times, for any sequence of requested times within the table that never jumps back by more than the search range; jumping back further is reported as an error; a request at or after the last time must not read past the table.", "quantifier": "all tables, all histories of requested times, all six faces", "why_tests_cant": "Static search state depends on the entire call history.", "anchors": ["source/TimeLocationIndexRobinBcCoefs.cc: setBcCoefs"]}
{"id": "C45", "title": "Moving-frame velocity changes are bounded and vanish in steady state", "statement": "Each adaptation changes the frame velocity by at most the configured bound, leaves it unchanged if the solid fraction did not change, and moves it in the direction that follows the front.", "quantifier": "all histories of solid fraction and time", "why_tests_cant": "Stateful controller over all histories.", "anchors": ["source/AdaptMovingFrame.cc: adaptVelocity"]}
{"id": "C46", "title": "Convection terms are exact on low-order polynomials", "statement": "The upwind third-order moving-frame term is exact on cubic polynomials in the interior, and second order is used at the physical boundary.", "quantifier": "all polynomials, spacings, velocities", "why_tests_cant": "Exactness for all data.", "anchors": ["source/fortran/2d/quatrhs.m4: addvdphidx, addvdphidx_upwind3"]}
{"id": "C47", "title": "Symmetric index packing of elastic tensors is a bijection", "statement": "Packing a symmetric index pair into a single index and back is the identity, symmetric in the pair and covers exactly the six slots.", "quantifier": "all index pairs", "why_tests_cant": "Finite table, but relied on by every tensor routine.", "anchors": ["source/fortran/functions.f: Voigt maps"]}
{"id": "C48", "title": "Output schedules are unaffected by a restart", "statement": "After a restart, the periodic output decisions on the remaining cycles are the same as in an uninterrupted run, for step-based and time-based schedules.", "quantifier": "all schedules, all restart points, all remaining histories", "why_tests_cant": "Quantifies over every restart point and history; the schedule state is not stored in the restart file.", "anchors": ["source/EventInterval.cc", "source/PFModel.cc: Run, getFromRestart"]}
{"id": "C49", "title": "The regularised inverse gradient norm is positive and bounded by its floor", "statement": "For each supported floor type the regularised inverse gradient norm used in the orientation diffusion coefficient is positive and never exceeds one over the gradient floor; unsupported floor types abort.", "quantifier": "all gradient norms, all positive floors, all floor types", "why_tests_cant": "Continuous inputs with a formula switch; a bound must hold on both sides of the switch.", "anchors": ["source/fortran/quat.f: eval_grad_normi", "source/fortran/2d/quatdiffusion.m4"]}
{"id": "C50", "title": "All anti-trapping formulations give the same current at a two-phase interface", "statement": "At an interface between liquid and one solid, the anti-trapping solute current is the same whether the two-phase, the three-phase or the multi-order-parameter routine computes it, and its size never exceeds alpha times the composition jump times the interface rate.", "quantifier": "for every pair of fields, grid spacing, alpha and face", "why_tests_cant": "the three routines are used by different set-ups and no test compares them on a common state; the sign must hold for every orientation of the interface", "anchors": ["source/fortran/2d/concentrationrhs.m4: addconcentrationfluxfromantitrapping, ...3phases, ...multiorderp", "source/EBSCompositionRHSStrategy.cc: addFluxFromAntitrappingonPatch"]}
{"id": "C51", "title": "Cahn-Hilliard and sintering fluxes are mobility times the gradient of the energy derivative", "statement": "After the loop that distributes each cell's chemical potential to its faces, every face of the patch carries mobility times coefficient times the difference of the chemical potentials of its two cells, nothing outside the one-face ghost region is touched, and the chemical potential is the derivative of the stated bulk energy.", "quantifier": "for every patch size and position, all data and parameters", "why_tests_cant": "the loop writes every face twice from different iterations and reaches into ghost faces; correctness at the patch edges must hold for every patch shape", "anchors": ["source/fortran/2d/concentrationrhs.m4: add_cahnhilliarddoublewell_flux, add_wang_sintering_flux"]}
{"id": "C52", "title": "The composition preconditioner uses each species' own diffusion coefficient", "statement": "For every number of species, the preconditioner of species i uses the diagonal entry (i,i) of the diffusion matrix.", "quantifier": "for every number of species and every species", "why_tests_cant": "tests run with one or two species where the slot formula happens to be right", "anchors": ["source/EBSCompositionRHSStrategy.cc: setDiffusionCoeffForPreconditioner"]}
{"id": "C53", "title": "Three-phase tilting weights and their derivatives agree", "statement": "The interpolation weights of the three phases sum to one, are one in a pure phase and zero where the phase is absent, and the derivative routines give their rate of change along every direction that keeps the fractions summing to one, so the three-phase driving force is minus the tangential gradient of the interpolated driving energy.", "quantifier": "for all phase fractions in the simplex, all phase energies and all tangent directions", "why_tests_cant": "a sampled comparison at a few points cannot show the identity between two hand-written polynomials, and one routine evaluates its arguments exchanged and is right only on the plane", "anchors": ["source/TiltingFolchPlapp2005.cc", "source/TiltingMoelans2011.cc", "source/CALPHADFreeEnergyStrategyBinaryThreePhase.cc: addDrivingForceOnPatch"]}
{"id": "C54", "title": "Sintering composition potential and order-parameter rates derive from one energy", "statement": "The bulk part of the composition potential and the bulk part of every order-parameter rate in the sintering model are the partial derivatives of one common bulk energy, whose minima (zero) include the void and the inside of any single grain, which are stationary.", "quantifier": "for every number of order parameters, every state and every smooth path of states", "why_tests_cant": "the two terms live in different Fortran files; consistency for any number of grains is an identity, not a sample", "anchors": ["source/fortran/2d/sintering.m4: computerhs_wang_sintering", "source/fortran/2d/concentrationrhs.m4: add_wang_sintering_flux"]}
{"id": "C55", "title": "Thermal driving forces have the right sign, bound and support", "statement": "The bias-well driving force is positive exactly below the melting temperature and negative exactly above it, is bounded by alpha/8 for any undercooling and vanishes in pure phases; the latent-heat force with its five-point temperature average reduces to L/Tm (Tm-T) h' on uniform and linear temperature fields.", "quantifier": "for all temperatures, phases in (0,1) and positive parameters", "why_tests_cant": "sign and bound must hold for arbitrarily large undercooling", "anchors": ["source/fortran/2d/quatrhs.m4: computerhsbiaswell, computerhsbiaswellbeckermann, computerhsdeltatemperature"]}
{"id": "C56", "title": "The phase-temperature block of the preconditioner is the derivative of the phase rate times the temperature correction", "statement": "When the preconditioner couples phase to temperature, the term subtracted from the phase equation is the derivative of the phase rate with respect to temperature, at the current phase, applied to the temperature correction just solved for.", "quantifier": "for all phases, temperature corrections and parameters", "why_tests_cant": "a wrong preconditioner block only slows convergence; no output-based test sees it", "anchors": ["source/QuatIntegrator.cc: PhasePrecondSolve", "source/DeltaTemperatureFreeEnergyStrategy.cc: applydPhidTBlock", "source/fortran/2d/quatrhs.m4: computedphidtemperaturedeltatemperature"]}
{"id": "C57", "title": "Rigid-body motion conserves each grain and total momentum, and the composition follows", "statement": "Grain velocities are force times mobility over volume, so without external force the volume-weighted velocities add up to zero; moving a grain on a periodic grid conserves its integral; the term added to the composition is the sum of those added to the order parameters.", "quantifier": "for any number of grains, patches, processes, grid sizes and forces", "why_tests_cant": "holds by cancellation over all pairs and cells; a test sees one configuration", "anchors": ["source/RigidBodyMotionRHS.cc", "source/RigidBodyMotionConcRHS.cc", "source/fortran/2d/rbmotion.m4", "source/QuatIntegrator.cc: evaluatePhaseRHS"]}
{"id": "C58", "title": "Discrete gradients are exact on affine fields and treat the axes alike", "statement": "Cell and side gradients of an affine field are its slopes whatever the spacing, and exchanging the two axes exchanges the components of the gradient, for the plain, isotropic and orientation routines.", "quantifier": "all affine fields, spacings, cells and sides; all fields for the axis symmetry", "why_tests_cant": "tests use a few polynomials on square grids, which do not separate the two axes", "anchors": ["source/fortran/2d/quatdiffs.m4: diffs", "source/fortran/2d/grad.m4", "source/fortran/2d/quatgrad.m4"]}
{"id": "C59", "title": "The elliptic solver discretises with the spacing of the level it works on", "statement": "On every level of the hierarchy the residual that the elliptic (FAC) solver reduces equals rhs - m div(D grad u) - C u discretised with that level's own grid spacing, so that a converged solution solves the discrete equation on every level.", "quantifier": "all refinement ratios, all levels, all coefficients and fields, 2D and 3D", "why_tests_cant": "Single-level tests cannot see it and multi-level tests of preconditioned runs only show slower convergence; the statement is about every hierarchy.", "anchors": ["source/EllipticFACOps.cc: EllipticFACOps::computeFluxOnPatch", "source/EllipticFACOps.cc: EllipticFACOps::computeResidualOnPatch", "source/fortran/2d/ellipticfacops.m4: efo_compfluxvardc2d"]}
{"id": "C60", "title": "Face diffusion coefficients do not depend on how the sample is laid on the grid", "statement": "The solute diffusion coefficient computed on a face depends on the two cells sharing the face in a symmetric way and by the same law in every direction: turning the sample or looking at it in a mirror gives the turned or mirrored coefficients. It is non-negative, between the Arrhenius values of the phases, and equal to that of the phase inside a phase.", "quantifier": "all fields, faces, interpolation and averaging kinds, Arrhenius parameters, numbers of order parameters, 2D and 3D", "why_tests_cant": "A test compares coefficients for one geometry; a direction-dependent law only shows for unsymmetric profiles in a particular direction.", "anchors": ["source/fortran/2d/concentrationdiffusion.m4: concentration_pfmdiffusion_of_temperature_multiphases", "source/fortran/3d/concentrationdiffusion.m4", "source/TbasedCompositionDiffusionStrategy.cc"]}
{"id": "C61", "title": "Interface diffusion does not depend on the patch decomposition", "statement": "The extra diffusion added on interfaces between order parameters is, on every face of every patch, the sum of the contributions of the two cells sharing the face, each pair of order parameters counted once; two patches sharing a face agree on its coefficient, so that the solute leaving one enters the other.", "quantifier": "all patches, fields, numbers of order parameters, temperatures", "why_tests_cant": "Single-patch tests cannot see it and multi-patch regression tests only compare with earlier results.", "anchors": ["source/fortran/2d/concentrationdiffusion.m4: add_ab_diffusion, ab_diffusion_of_temperature", "source/fortran/2d/concentrationdiffusion.m4: add_ab_diffusion_single"]}
{"id": "C62", "title": "Every diffusion coefficient that is read was computed, every one written has storage", "statement": "For each composition diffusion model and flux stencil, every face coefficient that the flux computation reads on a patch was written by the coefficient routine for that patch, and every coefficient written lies inside the allocated data.", "quantifier": "all patches, ghost widths, stencils", "why_tests_cant": "Uninitialised or out-of-range reads give plausible numbers in most runs.", "anchors": ["source/TbasedCompositionDiffusionStrategy.cc", "source/ScalarCompositionDiffusionStrategy.cc", "source/QuatModelParameters.h: nghosts_required", "source/fortran/2d/flux.m4: add_flux_iso"]}
{"id": "C63", "title": "The anisotropic interface flux is the derivative of the anisotropic interface energy", "statement": "The flux used to evolve a phase with anisotropic interface energy is the derivative of the interface energy density reported by the energy diagnostics with respect to the gradient of the phase, in every direction; its component along the gradient is twice the energy density, so diffusion along the flux never raises the energy.", "quantifier": "all gradients away from the cut-off, orientations, anisotropy strengths, grid spacings, 2D and 3D", "why_tests_cant": "It equates derivatives of one routine with the values of another over a continuum of directions.", "anchors": ["source/fortran/2d/quatrhs.m4: anisotropic_gradient_flux", "source/fortran/3d/quatrhs.m4: anisotropic_gradient_flux, compute_dgamma", "source/fortran/2d/quatenergy.m4: interface_anisotropic_energy", "source/fortran/3d/quatenergy.m4: interface_anisotropic_energy, compute_n4", "source/PhaseFluxStrategyAnisotropy.cc"]}
{"id": "C64", "title": "Interface anisotropy depends only on the physical orientation of the crystal", "statement": "Turning a crystal turns its interface energy with it, clockwise as well as counter-clockwise and for every representation of the orientation; equivalent orientations (opposite quaternions, or images under the symmetry rotations of the crystal) give the same interface energy; turning the whole sample changes nothing.", "quantifier": "all orientations, all 48 symmetry rotations, all interface normals", "why_tests_cant": "Tests use a few orientations, typically unrotated ones; the claim ranges over all orientations and their equivalents.", "anchors": ["source/fortran/2d/quatrhs.m4: anisotropic_gradient_flux", "source/fortran/3d/quatenergy.m4: compute_n4", "source/fortran/3d/quatrhs.m4: compute_dgamma", "source/fortran/quat.f: quatsymmrotate4"]}
{"id": "C65", "title": "Reported energy parts add up to the reported total whatever the patch layout", "statement": "In the energy diagnostics the interface, orientation, grain-boundary, well and free energies are each integrals over the whole domain, add up to the total energy, and do not change when the same cells are cut into other patches or distributed over other processes.", "quantifier": "all fields, all decompositions into patches and processes, 2D and 3D", "why_tests_cant": "Regression tests run a fixed decomposition, often with one patch per process, where the sum happens to hold.", "anchors": ["source/fortran/2d/quatenergy.m4: quatenergy, bulkenergy", "source/fortran/3d/quatenergy.m4: quatenergy, bulkenergy", "source/EnergyEvaluationStrategy.cc", "source/TwoPhasesEnergyEvaluationStrategy.cc", "source/QuatModel.cc: printScalarDiagnostics"]}
{"id": "C66", "title": "The plotted energy density is the density of the reported energy", "statement": "The per-cell energy written for visualisation is the sum of the energy densities of all parts, integrates to the reported energy of the patch, and the orientation part treats the faces of a cell alike, so that the mirror image of a sample has the mirrored energy.", "quantifier": "all fields, gradient floors, order parameters, 2D and 3D", "why_tests_cant": "No test reads the visualisation field; face symmetry ranges over all fields.", "anchors": ["source/fortran/2d/quatenergy.m4", "source/fortran/3d/quatenergy.m4: quatenergy (upper y face)", "source/fortran/2d/quatenergy.m4: phiphi_interfacialenergy", "source/QuatModel.cc: evaluateEnergy"]}
{"id": "C67", "title": "The heat equation conserves energy", "statement": "With periodic boundaries and no external source, the rate of the thermal energy reported by the diagnostics (sensible heat minus latent heat) is zero when the temperature follows the computed heat equation; heat flows from hot to cold; freezing heats by latent heat over heat capacity.", "quantifier": "all grids, temperature, phase and heat-capacity fields, 2D and 3D", "why_tests_cant": "Conservation is an identity over all fields; a test run sees one trajectory within a tolerance that hides a small source.", "anchors": ["source/fortran/2d/quatrhs.m4: computerhstemp", "source/fortran/3d/quatrhs.m4: computerhstemp", "source/fortran/2d/laplacian.m4", "source/SimpleTemperatureRHSStrategy.cc", "source/QuatModel.cc: computeThermalEnergy"]}
{"id": "C68", "title": "The heat capacity used is that of the input", "statement": "The heat capacity of an alloy is the composition-weighted mean of the species' polynomials given in the input, is positive when these are, survives the change of temperature unit, and is set in every cell at every time, also on meshes created later.", "quantifier": "all numbers of species, sets of powers, temperatures, compositions, regridding histories", "why_tests_cant": "Tests use one or two species with fixed powers and mostly unscaled temperatures; regridding histories are unbounded.", "anchors": ["source/NKRHeatCapacityStrategy.cc", "source/fortran/2d/temperature.m4: heat_capacity_nkr", "source/ConstantHeatCapacityStrategy.cc", "source/QuatModelParameters.cc: cp input"]}
{"id": "C69", "title": "The Gaussian temperature is the periodic Gaussian asked for", "statement": "At every point the Gaussian temperature depends on the shortest distance to the centre in the periodic domain, lies between base and peak, takes the prescribed value at one standard deviation, does not depend on the patch, and its peak follows the ramp until the target is reached.", "quantifier": "all domains, centres (also outside the domain), widths, rates, times, patches including ghost cells", "why_tests_cant": "Wrapping and ramps have unboundedly many cases; tests use one centred source.", "anchors": ["source/GaussianTemperatureStrategy.cc", "source/fortran/2d/temperature.m4: initgaussian", "source/fortran/3d/temperature.m4: initgaussian"]}
{"id": "C70", "title": "The frozen temperature gradient stays fixed to the laboratory", "statement": "However the frame velocity was changed, the temperature at a laboratory position is the initial one plus cooling rate times time; it has the prescribed gradient and is continuous when the velocity changes; a restart does not change it.", "quantifier": "all velocity histories, times, positions", "why_tests_cant": "Velocity histories are unbounded and a restart inside them is never compared with the uninterrupted run.", "anchors": ["source/GradientTemperatureStrategy.h", "source/GradientTemperatureStrategy.cc", "source/fortran/2d/temperature.m4: initgradient"]}
{"id": "C71", "title": "Heat sources have the declared strength", "statement": "The composition source is the mixture of the two strengths per heat capacity, the pulsed Gaussian source is non-negative, bounded by its peak and reaches it at the centre at the pulse time, and the rescaled system handed to the solver has the solutions of the unscaled heat equation.", "quantifier": "all compositions in [0,1], times, positions, strengths", "why_tests_cant": "Ranges over all times relative to the pulse and all positions.", "anchors": ["source/SteadyStateTemperatureGaussianSource.cc", "source/SteadyStateTemperatureCompositionSource.cc", "source/fortran/2d/temperature.m4: source_temperature"]}
{"id": "C72", "title": "Alloy driving force is the energy derivative", "statement": "In an alloy, the force the free-energy strategy adds to the phase equation in a cell is minus the derivative, with respect to the order parameter at fixed overall composition and temperature, of the free energy density (1-h) f_l + h f_a that the code reports, the phase concentrations following the mass balance and equal chemical potentials; adding the same linear function of composition to the free energies of both phases does not change it.", "quantifier": "all differentiable free energies and phase concentrations satisfying the KKS conditions, order parameter values, interpolation functions, molar volumes, numbers of order parameters", "why_tests_cant": "Tests compare a run with stored output; whether the force is the derivative of the reported energy for every free energy, interpolation pair and molar volume is a statement about functions.", "anchors": ["source/QuadraticFreeEnergyStrategy.cc:500-511", "source/CALPHADFreeEnergyStrategyBinary.cc:638-663", "source/CALPHADFreeEnergyStrategyTernary.cc:546-566", "source/QuadraticFreeEnergyStrategyMultiOrder.cc", "source/EquilibriumPhaseConcentrationsBinaryMultiOrder.cc:113-119", "source/CALPHADFreeEnergyStrategyMultiOrder.cc:179-245", "source/QuadraticFreeEnergyStrategyMultiOrderTernaryThreePhase.cc:445-513", "source/EquilibriumPhaseConcentrationsBinaryMultiOrderThreePhases.cc:125-145"]}
{"id": "C73", "title": "Interface mobility is the front velocity per driving force", "statement": "With Kim's finite mobility, a planar solid-liquid front driven by a constant free energy difference moves with velocity interface_mobility times that difference, towards the phase of higher energy.", "quantifier": "all positive epsilon, well heights, interface mobilities, all driving forces, times and positions", "why_tests_cant": "The relation involves the solution of the phase equation on the whole line; a test sees one discretised run.", "anchors": ["source/KimMobilityStrategyFiniteMob.cc:34-36", "source/KimMobilityStrategyFiniteMob.h", "source/fortran/functions.f"]}
{"id": "C74", "title": "Kim mobilities are positive, ordered and use Kim's constants", "statement": "Kim's phase mobilities are positive wherever the phases differ in composition; with interface kinetics and anti-trapping the inverse mobilities of the two limits add up, so the result is below both; with three phases the mobility lies between the two liquid-solid mobilities and equals that of the pair when only two phases are present; the prefactor uses the constant of Kim's formula for the selected interpolation functions.", "quantifier": "all parameters, temperatures, compositions, second derivatives, phase fractions", "why_tests_cant": "Bounds and positivity over all states, and identity of a numeric constant with an integral, are not observable in single runs.", "anchors": ["source/KKStools.cc:13-30", "source/KimMobilityStrategyInfMob.cc:49-83", "source/KimMobilityStrategyFiniteMobAntiTrap.cc:43-80", "source/KimMobilityStrategyInfMob3Phases.cc:66-111", "source/QuatModelParameters.h:476-494"]}
{"id": "C75", "title": "Mobility update reads the right cells", "statement": "When Kim's mobility is updated on a patch, every cell of the mobility array, ghost cells included, is written exactly once, with the mobility evaluated from the temperature and phase concentrations stored for that same cell, whatever the ghost widths of the three arrays.", "quantifier": "all patch boxes and ghost widths", "why_tests_cant": "Walking offsets coincide with the right ones for equal ghost widths; only a proof covers every box and every combination of widths.", "anchors": ["source/KimMobilityStrategy.cc:226-305"]}
{"id": "C76", "title": "Orientation rate does not depend on which equivalent orientation is stored", "statement": "With crystal symmetry enabled, replacing the orientation stored in any set of cells by symmetry-equivalent ones changes the time derivative of each cell only by the same relabelling; in particular a single crystal whose cells hold different equivalent orientations has zero orientation rate.", "quantifier": "all unit orientation fields with unique nearest copies, all cell-wise choices of symmetry operations, all start values of the rotation index search, all phase/temperature/mobility fields, spacings and coefficient settings", "why_tests_cant": "The relabelling group acts independently on every cell; the number of relabelled fields grows as 48 to the number of cells, and grain-boundary tests normally start from one copy per grain so the rotated branches are rarely reached.", "anchors": ["source/QuatIntegrator.cc:2693-2826", "source/computeQDiffs.cc:20-270", "source/fortran/2d/quatrotation.m4:12-63", "source/fortran/2d/quatgrad.m4:311-645", "source/fortran/2d/quatfacops.m4:14-122", "source/fortran/2d/quatfacops.m4:604-799", "source/fortran/2d/correctrhsquatforsymmetry.m4:1-140"]}
{"id": "C77", "title": "Orientation relaxation lowers the gradient energy", "statement": "On a periodic domain, the orientation rate computed by the integrator is minus the mobility times the tangential gradient of the discrete energy 1/2 sum over faces of D |delta q|^2/h^2, built with the face coefficients D the program itself computed. Along the computed rate this energy decreases at exactly the sum over cells of |rate|^2/mobility, and for phases in [0,1] and nonnegative temperature the coefficients have the sign that makes the energy nonnegative.", "quantifier": "all periodic fields of orientations, all grid spacings, all mobilities, all accepted coefficient parameters, 1, 2 or 4 components, with or without symmetry rotations (differences used for fluxes)", "why_tests_cant": "An energy law must hold for every field and every rotation index pattern; tests watch one decreasing curve.", "anchors": ["source/QuatIntegrator.cc:2693-2778", "source/QuatFACOps.cc:2078-2120", "source/fortran/2d/quatfacops.m4:14-122", "source/fortran/2d/quatfacops.m4:487-799", "source/fortran/2d/quatgrad.m4:157-449"]}
{"id": "C78", "title": "The coarsest-level solve solves the multigrid equation", "statement": "When the elliptic multigrid solver hands its coarsest level to the direct solver, the system has exactly one solution, and the values written back have zero residual (as computed by the multigrid solver) in every cell of that level, whatever the mobility field, the coefficients, the right-hand side and the boundary condition.", "quantifier": "all finite levels, mobility fields, face and cell coefficients of the sign used by the code, Robin coefficients in [0,1], right-hand sides", "why_tests_cant": "Convergence tests hide the mismatch because the outer iteration corrects it; it appears only at boundary faces with a mobility jump and a condition with a value part.", "anchors": ["source/samrai/CellPoissonHypreSolver.cc:756-1215", "source/samrai/CellPoissonHypreSolver.cc:1373-1590", "source/fortran/2d/hyprepoisson.m4:4-37", "source/EllipticFACOps.cc:1392-1432"]}
{"id": "C79", "title": "The orientation level solve solves the level equation", "statement": "On every level the orientation solver gives its linear solver a symmetric positive definite system whose solution has zero residual in the sense of the multigrid residual with the ghost values of the boundary condition, and a zero residual produces a zero correction.", "quantifier": "all finite levels, mobilities, diffusion coefficients, time-step factors, boundary data and right-hand sides", "why_tests_cant": "The errors sit at boundary faces only, are hidden by the outer iteration, and vanish for no-flux conditions used in the test problems.", "anchors": ["source/QuatLevelSolver.cc:753-1070", "source/QuatLevelSolver.cc:1386-1640", "source/fortran/2d/quatlevelsolver.m4:9-368", "source/fortran/2d/quatfacops.m4:284-406", "source/QuatFACOps.cc:1040-1085"]}
{"id": "C80", "title": "The preconditioner solves the linearised implicit step", "statement": "The preconditioner of the time integrator returns, for a right-hand side r and step factor gamma, the correction z for which the derivative of y - gamma*rate(y) in direction z is r, where rate is the program's own right-hand side for the order parameter (driving force held fixed) and the temperature, including the effect of the phase correction on the temperature when that option is on, for the configured double well and boundary conditions.", "quantifier": "all fields, mobilities, heat capacities, spacings, step factors, right-hand sides", "why_tests_cant": "A wrong preconditioner only slows the linear iteration down; results of a run do not show it.", "anchors": ["source/PhaseFACOps.cc:33-183", "source/PhaseTemperatureFACOps.cc:31-178", "source/TemperatureFACOps.cc:33-45", "source/EllipticFACOps.cc:2279-2291", "source/fortran/2d/ellipticfacops.m4:448-495", "source/QuatIntegrator.cc:3310-3550", "source/QuatIntegrator.cc:1875-1890", "source/PhaseRHSStrategyWithQ.cc:225-260"]}
{"id": "C81", "title": "An interface requested by sigma and delta has that energy and width", "statement": "When the input gives the interface energy sigma and width delta, the planar profile 1/(1+exp(-x/delta)) is a stationary solution of the discretised evolution equation in the limit of a fine grid, in every direction and with either stencil, for one order parameter, three phases, several grains and sintering particles; its energy is sigma and no profile connecting the phases has less; the width used by the anti-trapping current is delta.", "quantifier": "all sigma, delta > 0, grid aspect ratios, directions, positions, numbers of order parameters, pairs of phases", "why_tests_cant": "Regression tests compare a few runs with stored numbers at one sigma and delta; a wrong power of epsilon is invisible when epsilon is 1, as it is in the repository's sintering test.", "anchors": ["source/QuatModelParameters.cc:833-870", "source/QuatModelParameters.cc:437-456", "source/PhaseFluxStrategyFactory.h:10-36", "source/MultiOrderRHSStrategy.cc:49-49", "source/SinteringUWangRHSStrategy.cc:28-30", "source/QuatIntegrator.cc:1426-1426"]}
{"id": "C82", "title": "Cahn-Hilliard and sintering runs conserve composition and lower the free energy", "statement": "On a periodic domain, whatever the division into patches, the composition rates of the Cahn-Hilliard and of the sintering model sum to zero; along the computed rates (composition and order parameters together) the model's free energy changes at minus a sum of squares, hence never increases; and the composition rate is proportional to the mobility given in the input.", "quantifier": "all periodic states, grid sizes and spacings, patch decompositions, parameters, numbers of order parameters", "why_tests_cant": "A test sees one trajectory on one decomposition; the mobility is 1 in the repository's inputs, so its square is indistinguishable from it.", "anchors": ["source/CahnHilliardDoubleWell.cc:66-107", "source/WangSinteringCompositionRHSStrategy.cc:82-146", "source/CompositionRHSStrategyFactory.h:79-95", "source/QuatIntegrator.cc:2616-2670", "source/SinteringUWangRHSStrategy.cc:190-238", "source/fortran/2d/concentrationrhs.m4:85-222"]}
{"id": "C83", "title": "Regridding keeps the amount of solute and heat", "statement": "Moving the solution to a new adaptive grid leaves the integral of composition (and temperature) over the domain unchanged and creates no value outside the range of the old ones.", "quantifier": "all fields, all old and new refined regions, all refinement ratios up to 16, 2D and 3D", "why_tests_cant": "The loss depends on curvature of the field at the newly refined cells; every field and every region counts.", "anchors": ["source/QuatModel.cc:922-956", "source/QuatModel.cc:2733-2785", "source/QuatModel.cc:2990-2998", "source/QuatIntegrator.cc:2193-2196", "source/QuatIntegrator.cc:2289-2333"]}
{"id": "C84", "title": "Printed volume fractions and density are those of the fields", "statement": "The volume fractions printed are the averages of the phase fields over the domain, lie in [0,1] and add up to one when the fields do; the printed density is one minus the mean porosity; the printed integral of composition lies within its bounds times the volume.", "quantifier": "all fields, all adaptive hierarchies, all counts of order parameters in the input", "why_tests_cant": "Depends on the sign of the field anywhere and on every combination of counts in the input.", "anchors": ["source/QuatModel.cc:2552-2729", "source/QuatModel.cc:5106-5180", "source/QuatModelParameters.cc:808-832", "source/toolsSAMRAI.cc:49-72"]}
{"id": "C85", "title": "In 3D the anti-trapping current follows the front, whatever its orientation", "statement": "In three dimensions the anti-trapping current added to the solute flux across x, y and z faces is alpha times the composition jump times the interface rate times the component of the unit front normal, for a plane front of any orientation, and is the same whichever formulation (two phases, three phases, several order parameters) computes it.", "quantifier": "for every plane front, grid spacing, alpha, composition and rate fields and face; bounds and signs for arbitrary fields", "why_tests_cant": "a run with a growing crystal looks plausible even if the current is missing along one axis; no test compares orientations or formulations", "anchors": ["source/fortran/3d/concentrationrhs.m4:556-692", "source/fortran/3d/concentrationrhs.m4:700-921", "source/fortran/3d/concentrationrhs.m4:928-1146", "source/EBSCompositionRHSStrategy.cc"]}
{"id": "C86", "title": "A run started from a saved initial-conditions file starts from the saved state", "statement": "Writing the state to an initial-conditions file and starting a run with the same settings from that file gives, in every cell, the order parameters, temperature, orientation and compositions that were saved (to the precision of the file), however the level is divided into patches and over processes at writing and at reading; a file whose size differs from the domain is refused, and in two dimensions slice_index selects the slice of a three-dimensional file.", "quantifier": "for every state, domain size, patch layout at writing and at reading, number of order parameters, quaternion components and compositions, and rounding to the file type", "why_tests_cant": "a test compares one state on one layout; the layout independence is a statement over all covers of the domain by patches, and the existing cases use one order parameter", "anchors": ["source/FieldsWriter.cc:55-483", "source/FieldsInitializer.cc:72-345", "source/FieldsInitializer.cc:350-640", "source/QuatModel.cc:605-640", "source/PFModel.cc:341-407"]}
{"id": "C87", "title": "One run uses one thermodynamic description of the alloy", "statement": "For every combination of input settings accepted by the reader, the driving force for the order parameters, the equilibrium compositions of the phases, Kim's mobilities and Aziz' partition coefficient are computed from the same free-energy functions.", "quantifier": "all accepted combinations of concentration model, number of species, number of order parameters, phases, sublattices, mobility type, free-energy type", "why_tests_cant": "The factories branch on about ten settings independently of each other; the test suite contains a few dozen of the combinations, and a mismatch shows up only as a slightly wrong equilibrium.", "anchors": ["source/FreeEnergyStrategyFactory.h:36-266", "source/PhaseConcentrationsStrategyFactory.h:38-226", "source/MobilityFactory.h:31-163", "source/QuatModel.cc:291-457", "source/CALPHADequilibriumPhaseConcentrationsStrategyMultiOrder.cc:21-55"]}
{"id": "C88", "title": "Every constant used in a run was read from the input", "statement": "For every combination of settings with which a run starts, each diffusion coefficient, activation energy, latent heat, free energy, well parameter and reference composition that the selected strategies use has been assigned by the reader; misspelt or unsupported choices are rejected when they are read.", "quantifier": "all inputs (texts of the keys, presence of keys, numbers of order parameters)", "why_tests_cant": "Unset constants are signalling NaNs that pass through silently in optimised builds; tests use complete inputs.", "anchors": ["source/QuatModelParameters.cc:33-131", "source/QuatModelParameters.cc:167-400", "source/QuatModelParameters.cc:1180-1206", "source/CompositionDiffusionStrategyFactory.h:34-100", "source/CompositionRHSStrategyFactory.h:26-110", "source/TbasedCompositionDiffusionStrategy.cc:119-330", "source/FreeEnergyStrategyFactory.h:214-262"]}
{"id": "C89", "title": "Solute flows along mobility times the gradient of the chemical potential", "statement": "When diffusion is computed from CALPHAD mobilities, the flux of species i through a face of a phase is (1/dx) sum_j (M H)_ij (c_j difference): the mobility matrix of the phase applied to the difference of chemical potentials. So a species absent from a phase does not flow, and a closed phase never gains free energy by diffusion.", "quantifier": "all numbers of species, mobility parameters, energies, temperatures, phase fractions, compositions and faces", "why_tests_cant": "With one composition every order of the factors agrees, and regression tests of ternary alloys only compare with earlier output of the same code; whether a product of two matrices reaches the flux loop in the right layout for all values is a statement about all matrices.", "anchors": ["source/MobilityCompositionDiffusionStrategy.cc:19-28", "source/MobilityCompositionDiffusionStrategy.cc:57-96", "source/fortran/2d/flux.m4:11-62", "source/EBSCompositionRHSStrategy.cc:257-327", "source/CALPHADMobility.cc:221-244"]}
{"id": "C90", "title": "Flux terms requested in the input are part of the solute flux", "statement": "Giving heats of transport (gradT_Q0, gradT_Q1) adds thermal diffusion to the solute flux and antitrapping = TRUE adds the anti-trapping current, with every form of the composition equation that can be chosen; the run does not stop because of the request. The thermal flux vanishes in a uniform temperature and in a pure phase, and reverses when the two species exchange names.", "quantifier": "all composition models, forms of the right-hand side, heats of transport, mobility parameters, compositions and temperatures", "why_tests_cant": "The keys are read without complaint and no test uses the thermal ones; which class answers a virtual call for every combination of keys, and symmetry under renaming for all parameters, are statements about all inputs.", "anchors": ["source/CompositionRHSStrategy.cc:25-52", "source/CompositionRHSStrategyFactory.h:26-110", "source/EBSCompositionRHSStrategyWithGradT.cc:56-69", "source/EBSCompositionRHSStrategyWithGradT.cc:265-330", "source/QuatIntegrator.cc:2603-2613", "source/QuatModelParameters.cc:299-319"]}
{"id": "C91", "title": "Phases that do not differ behave as one phase", "statement": "If all phases have the same free energy and the same diffusion coefficient D, and the order parameters are in [0,1] and add up to one, then every phase composition equals the composition of the cell and the solute flux through a face is D times the composition difference over the mesh spacing, whatever the order parameters.", "quantifier": "all numbers of order parameters, order parameter values, compositions, temperatures, interpolation and averaging kinds accepted by the input, and strictly monotone potentials", "why_tests_cant": "The deficit appears only between cells with different order parameters or where three phases meet, depends on the chosen kinds of interpolation and average, and looks like a slightly smaller diffusion coefficient; a test needs to pick the very combination.", "anchors": ["source/CALPHADequilibriumPhaseConcentrationsStrategy.cc", "source/EquilibriumPhaseConcentrationsBinaryMultiOrder.cc", "source/QuadraticEquilibriumPhaseConcentrationsStrategy.cc", "source/EBSCompositionRHSStrategy.cc", "source/fortran/2d/concentrationdiffusion.m4", "source/QuatModelParameters.cc"]}
{"id": "C92", "title": "The rate handed to the time integrator is a function of time and state", "statement": "Whatever was evaluated before (other states, other times, finite differences for the Jacobian, setups of the preconditioner), evaluating the right-hand side at the same time and state gives the same rates, every evaluation returns, and the finite differences of the Jacobian are differences of that same function.", "quantifier": "all sequences of calls by the integrator, all times, states, configurations (orientation, composition, partition coefficient, temperature model, moving frame, rigid motion, noise, lag) and all implementations of the individual kernels", "why_tests_cant": "The kernels communicate through arrays that survive a call; a stale array gives a plausible rate and only slows down or biases the adaptive integrator. A test would have to compare rates after differing call histories, which the order of calls made by CVODE never repeats.", "anchors": ["source/QuatIntegrator.cc", "source/QuatIntegrator.h", "source/QuatModel.cc", "source/PhaseRHSStrategyWithQ.cc", "source/SteadyStateTemperatureCompositionSource.cc"]}
{"id": "C93", "title": "A moving frame is a change of coordinates", "statement": "A run in a frame moving with velocity v shows the laboratory fields at x + v t: order parameter, composition, temperature and orientation of the two runs agree after the shift, and so does the partition coefficient that depends on the interface velocity.", "quantifier": "all smooth fields, frame velocities, translation-invariant kernels, configurations (rigid motion, anti-trapping, latent heat, orientation, velocity-dependent partition coefficient)", "why_tests_cant": "Runs in two frames are on different meshes with different time steps, so a test can only compare front positions with loose tolerances for one material; missing terms for one field or a velocity relative to the frame stay within them.", "anchors": ["source/MovingFrameRHS.cc", "source/QuatIntegrator.cc", "source/QuatModel.cc", "source/fortran/2d/grad.m4", "source/fortran/2d/quatrhs.m4", "source/AdaptMovingFrame.cc"]}
{"id": "C94", "title": "The interface velocity used for solute trapping is the velocity of the front", "statement": "For a front moving with velocity w the computed interface velocity has magnitude |w|, independent of the direction of motion, of the position within the front, and of the mesh spacing.", "quantifier": "all front velocities, directions, profiles and mesh spacings", "why_tests_cant": "A test uses one mesh and one velocity; the error depends on the mesh spacing and grows under refinement, the opposite of what a convergence test assumes.", "anchors": ["source/fortran/2d/grad.m4", "source/fortran/3d/grad.m4", "source/QuatModel.cc", "source/AzizPartitionCoefficientStrategy.cc"]}
{"id": "C95", "title": "Physical boundary conditions", "statement": "On every physical side of the domain each component of the order parameters, quaternion and composition satisfies the prescribed condition a u + b du/dn = g on the face; orientation and phase fractions stay valid there; and a box closed by zero-gradient sides exchanges no species with the outside, for every composition model and flux stencil.", "quantifier": "all boxes, all subsets of physical sides, all coefficients, all numbers of components, all field values including the content of ghost cells no routine sets", "why_tests_cant": "Tests run closed or periodic boxes where the memory of unset ghost cells happens to hold harmless values; the claim is over every content of the ghost cells and every set of coefficients.", "anchors": ["source/CartesianRobinBcHelperWithDepth.cc", "source/QuatRefinePatchStrategy.cc", "source/QuatModelParameters.h", "source/CahnHilliardDoubleWell.cc", "source/fortran/2d/concentrationrhs.m4", "source/fortran/2d/flux.m4"]}
{"id": "C96", "title": "Solute flux in phase-gradient form is driven by phase compositions only", "statement": "With rhs_form kks or beckermann the solute flux is the phase-weighted flux of the phase compositions: where liquid and solid compositions are uniform there is no flux across any face, whatever the interface looks like, and otherwise the flux is a positive coefficient times the difference of the phase compositions; it depends on the two cells of the face only.", "quantifier": "for all phase, composition, temperature and partition-coefficient fields on a patch, all faces in x and y, all interpolation and averaging kinds accepted by the input", "why_tests_cant": "The spurious flux is a small perturbation that has no reference value in a run; equilibrium tests with one interpolation kind, one species and a constant partition coefficient cannot see the missing derivative, the wrong neighbour or the wrong ghost box.", "anchors": ["source/KKSCompositionRHSStrategy.cc", "source/BeckermannCompositionRHSStrategy.cc", "source/CompositionRHSStrategyFactory.h", "source/fortran/2d/concentrationdiffusion.m4", "source/fortran/2d/concentrationrhs.m4"]}
{"id": "C97", "title": "Multilevel linear solver reports the residual of the solution it returns", "statement": "A call of the multilevel solver returns a solution in which covered coarse values agree with the fine ones; the residual norm it reports is that of the returned solution and success is reported exactly when it is below the larger of absolute and relative tolerance. It does at least one and at most max_cycles cycles, stops at the first that reaches the tolerance, its convergence factors multiply to the total reduction, nothing is carried over from an earlier solve, an exact initial guess is left alone, the algorithm choices `default` and `pernice` give the same result, and used as a preconditioner it is a linear map for a fixed number of cycles. (The choice `mccormick-s4.3` does not pass the fine residual to the coarse levels; a tolerance-controlled number of cycles makes the preconditioner nonlinear.)", "quantifier": "for all operator implementations, all numbers of levels, parameters, right hand sides, initial guesses and scratch contents", "why_tests_cant": "a test runs one operator set on one hierarchy with one right hand side; stale scratch data, level consistency and linearity are statements about all of them", "anchors": ["source/samrai/FACPreconditioner.cc", "source/EllipticFACOps.cc", "source/EllipticFACSolver.cc", "source/QuatSysSolver.cc", "source/QuatIntegrator.cc"]}
{"id": "C98", "title": "One run is one trajectory", "statement": "At every moment of a run the time shown, the integrator's time and the time inside the integration library agree; each step starts from the fields the run holds (including any change made to them since the last step, and the data carried to a new mesh) and leaves the accepted state in them; statistics printed after a step and at the end count the work of that step and of the run.", "quantifier": "for all integration libraries, states, changes of the fields and sequences of steps, changes and regrids", "why_tests_cant": "which copy of the state the next step starts from depends on the order of steps, regrids and in-place changes; there are infinitely many orders, and a lost change is invisible in any single step", "anchors": ["source/samrai/CVODESolver.h", "source/samrai/CVODESolver.cc", "source/QuatIntegrator.cc", "source/QuatModel.cc", "source/PFModel.cc"]}
{"id": "C99", "title": "Flux through a coarse/fine boundary", "statement": "Where a fine level ends inside the domain, the flux the implicit solvers compute through its outer faces is exact for a field that varies linearly, whatever the refinement ratio, the side and the position of the face along its coarse neighbour; no other face is changed; the exchange between the two sides pulls their values together for arbitrary fields. The same solver is available for every implicit equation on hierarchies with several levels.", "quantifier": "for all patches, boundary boxes, ratios, coefficient fields, linear fields and (for the exchange) arbitrary values", "why_tests_cant": "the correction has separate branches for each side with hand-written index arithmetic; a convergence test on one mesh exercises few of them and an error of lower order hides in the tolerance", "anchors": ["source/fortran/2d/ellipticfacops.m4", "source/fortran/3d/ellipticfacops.m4", "source/EllipticFACOps.cc", "source/QuatFACOps.cc"]}
{"id": "C100", "title": "The orientation block of the preconditioner is the linearised implicit step", "statement": "Given a right-hand side r and step factor gamma, the preconditioner returns an orientation correction z for which the derivative of q - gamma*rate(q) in direction z (plus, when the coupling is on, the derivative of the rate with respect to the phase in the direction of the phase correction just computed) is r; every block reads only corrections computed in the same application; the return code is 0 exactly when all blocks converged.", "quantifier": "all mobilities, coefficients, spacings, step factors, fields, right-hand sides and combinations of blocks", "why_tests_cant": "A wrong block only slows the linear iteration down; no result of a run shows it.", "anchors": ["source/QuatIntegrator.cc:3594-3772", "source/QuatFACOps.cc:735-827", "source/QuatFACOps.cc:1892-1958", "source/QuatFACOps.cc:2277-2383", "source/QuatSysSolver.cc:290-348", "source/fortran/2d/quatfacops.m4:124-230", "source/fortran/2d/quatdiffusion.m4:11-150"]}
{"id": "C101", "title": "A run continued from a restart file continues from the written state", "statement": "Restarting from a file gives the state of the uninterrupted run: every evolved field on every level has the stored value, a prescribed temperature is that of the stored time, the phase-equilibrium solver starts from the stored phase compositions, grain bookkeeping decides as it would have without the interruption, and the current input decides about mesh refinement.", "quantifier": "all configurations, all stored states, all contents of uninitialised memory, any number of levels, all grain-count histories", "why_tests_cant": "Restart tests run one configuration with refinement off and compare a few printed numbers; the failing cases need other switches, more levels or a count that drops in exactly the step of the restart.", "anchors": ["source/QuatModel.cc:457-749", "source/QuatModel.cc:1743-1776", "source/QuatModel.cc:2182-2196", "source/QuatModel.cc:2378-2438", "source/QuatModel.cc:2735-2784", "source/QuatModel.cc:2880-3018", "source/QuatModel.cc:3126-3240", "source/QuatModel.cc:4888-4952"]}
{"id": "C102", "title": "After regridding, rates are evaluated on the mesh in use", "statement": "Whenever a rate is evaluated, the fluxes on coarse/fine boundaries are matched between the pairs of successive levels that currently make up the mesh, using allocated data and live objects only.", "quantifier": "all initial numbers of levels and all sequences of regriddings with any resulting numbers of levels, with and without warm start", "why_tests_cant": "No test of the suite runs the model with more than one level; a stale schedule or pointer shows up only after a regridding, and use of released memory need not crash.", "anchors": ["source/QuatIntegrator.cc:557-595", "source/QuatIntegrator.cc:1598-1607", "source/QuatIntegrator.cc:1676-1719", "source/QuatIntegrator.cc:1809-1824", "source/QuatIntegrator.cc:1942-2003", "source/PhaseRHSStrategyWithQ.cc:75-137", "source/MultiOrderRHSStrategy.cc:70-137", "source/ThreePhasesRHSStrategy.cc:70-137", "source/SinteringUWangRHSStrategy.cc:62-127", "source/PFModel.cc:499-570"]}
{"id": "C103", "title": "Fluctuations of the phase", "statement": "With noise_amplitude > 0 each step adds to the phase rate of every cell a number in [-1/2,1/2) of its own, weighted with 4 phi (1-phi) of that cell and scaled with amplitude over the root of the step length; the same field is used in all evaluations of the step; different processes use independent numbers; the option acts in every model.", "quantifier": "all patches and ghost widths in two and three dimensions, all ranks and numbers of draws, all sequences of evaluations at any times, resumed and regridded runs, all model choices", "why_tests_cant": "A random field has no expected value to compare with; identical or dependent streams, wrong scaling after a restart and uninitialised fields after regridding all look like noise.", "anchors": ["source/Noise.cc:15-73", "source/UniformNoise.cc:13-26", "source/UniformNoise.h:18-45", "source/PhaseRHSStrategyWithQ.cc:91-141", "source/PhaseRHSStrategyWithQ.cc:298-311", "source/QuatIntegrator.cc:1970-2001", "source/samrai/CVODESolver.cc:51-53"]}
{"id": "C104", "title": "Phase compositions read by a flux belong to the present state", "statement": "Whenever a composition flux through a face of a patch is computed, every phase composition it reads, including those in ghost cells, was computed from the temperature, order parameters and composition of that same cell in the present state; the routines that compute phase compositions neither read nor write outside their arrays.", "quantifier": "all phase-composition routines, flux stencils, patch boxes and positions relative to the domain boundary, ghost widths, fields and previous array contents", "why_tests_cant": "The tests use KKS models only and a few patch layouts; an unfilled ghost cell shows up as a plausible flux error at patch boundaries.", "anchors": ["source/PhaseConcentrationsStrategy.cc", "source/PhaseConcentrationsStrategyFactory.h", "source/CALPHADequilibriumPhaseConcentrationsStrategy.cc", "source/KKSdiluteEquilibriumPhaseConcentrationsStrategy.cc", "source/QuadraticEquilibriumPhaseConcentrationsStrategy.cc", "source/PartitionPhaseConcentrationsStrategy.cc", "source/PhaseIndependentConcentrationsStrategy.cc", "source/fortran/2d/flux.m4", "source/QuatModelParameters.h"]}
{"id": "C105", "title": "Driving force of a patch and what is plotted of it", "statement": "On every patch the free energy strategy computes, in each cell, the energies of the phases from that cell's temperature and phase compositions and adds to the rate of every order parameter of that cell the driving force of that cell's own data; the result does not depend on what the energy arrays held, on ghost values or on how the grid is cut into patches, and no other entry of the rate changes. The plotted driving force and phase rate are those that act, and second derivatives handed out in internal units are converted entirely.", "quantifier": "all boxes, ghost widths, numbers of order parameters and species, energies, forces and array contents", "why_tests_cant": "Index arithmetic over arbitrary boxes and ghost widths; the plotted fields are never compared with the rate.", "anchors": ["source/CALPHADFreeEnergyStrategyBinary.cc", "source/QuadraticFreeEnergyStrategy.cc", "source/CALPHADFreeEnergyStrategyMultiOrder.cc", "source/QuadraticFreeEnergyStrategyMultiOrderTernaryThreePhase.cc", "source/FreeEnergyStrategy.h", "source/PhaseRHSStrategyWithQ.cc", "source/QuatIntegrator.cc"]}
{"id": "C106", "title": "The internal unit of temperature is invisible", "statement": "When the time-dependent heat equation is solved the code stores temperatures divided by the melting temperature. This choice must not change the simulation: forces, energies and coefficients computed from the stored field equal those obtained in kelvin, boundary values prescribed in kelvin hold for the temperature in kelvin, the stored fields solve the rescaled equations exactly when the fields in kelvin solve the equations in kelvin, and a temperature that is written and read back is unchanged.", "quantifier": "for all inputs, melting temperatures, fields, boundary conditions, patches, times and phase equations", "why_tests_cant": "A regression test compares the code in reduced units with itself; showing that the unit never matters requires comparing with the equations in kelvin for every melting temperature and every boundary condition.", "anchors": ["source/QuatModelParameters.cc", "source/QuatModel.cc", "source/QuatIntegrator.cc", "source/QuatRefinePatchStrategy.h", "source/QuatRefinePatchStrategy.cc", "source/fortran/2d/quatrhs.m4"]}
{"id": "C107", "title": "The projection after a solver step reaches every cell of the hierarchy", "statement": "After each step of the time integrator the projection callback leaves every cell of every level with a unit quaternion (when orientations evolve) and with three phase fractions summing to one (in the three-phase model), changes as little as possible, removes the normal part of the error estimate there, and leaves all other variables and already admissible states untouched.", "quantifier": "for all hierarchies (levels, patches), states, error vectors, numbers of quaternion components and model options", "why_tests_cant": "The property ranges over all refined hierarchies; existing three-phase tests only compare output of runs whose phase sums stay close to one anyway.", "anchors": ["source/QuatIntegrator.cc", "source/QuatSysSolver.cc", "source/QuatFACOps.cc", "source/ThreePhasesRHSStrategy.cc", "source/fortran/2d/phase.m4", "source/fortran/2d/quatfacops.m4"]}
{"id": "C108", "title": "Second law for a pure melt with the heat equation", "statement": "When phase and temperature of a pure melt are integrated together (HeatEquation with a Delta-temperature or temperature free energy), the reported energy of the interface plus the free energy cp/(2 Tm) sum (T-Tm)^2 stored in the temperature field never increases in a closed sample, is stationary only at rest with uniform temperature, and so bounds the temperature for all time.", "quantifier": "all grid sizes, spacings, parameters, mobility fields, phase and temperature fields, times, both free energy strategies, all interpolation kinds, 2D and 3D", "why_tests_cant": "A run shows one trajectory; whether any coupled trajectory can gain free energy is a statement about all states of two coupled fields.", "anchors": ["source/fortran/2d/quatrhs.m4", "source/fortran/3d/quatrhs.m4", "source/PhaseRHSStrategyWithQ.cc", "source/DeltaTemperatureFreeEnergyStrategy.cc", "source/TemperatureFreeEnergyStrategy.cc", "source/SimpleTemperatureRHSStrategy.cc", "source/fortran/2d/quatenergy.m4"]}
{"id": "C109", "title": "One application of the preconditioner is a fixed linear map of the residual", "statement": "CVSpgmrPrecondSolve writes every component of z that the solution vector has, as a function of r alone (not of what z or work arrays held before), solves the block lower triangular system made of the diagonal blocks that have a solver (identity for the others) and of minus gamma times the couplings dq/dphi and dT/dphi that were requested, is linear when the block solves are, and returns 0 exactly when all block solves converged. Which blocks exist follows from the equations solved and the Preconditioner input block; leaving that block empty is the same as leaving it out.", "quantifier": "all combinations of equations, all Preconditioner input blocks, all numbers of order parameters, all block solvers and couplings, all residuals, all previous contents of the output vector and work arrays, all gamma, tolerances and sides", "why_tests_cant": "A stale work array or a dependence on the previous content of z only makes GMRES converge differently; the time integrator hides it behind a smaller step. Tests run one configuration, the property is about all of them and about pairs of calls.", "anchors": ["source/QuatIntegrator.cc"]}
{"id": "C110", "title": "Second law for an isothermal alloy", "statement": "While phase and composition are integrated together in a closed isothermal sample, the total energy the program reports (interface + double well + bulk energies of the phases at the phase compositions) never increases, and stays constant only when nothing changes. Exact balance for any solute flux with one molar volume and one interpolation; holds for the flux summed over the phases (rhs_form ebs) and for the phase-gradient form with linear interpolation. It fails with two molar volumes (the driving force uses one of them for the chemical potential, the other energy is converted with its own), with conc_interp_func_type different from energy_interp_func_type, and for the default phase-gradient form of the flux with the default interpolation, whose fluxes can run up the chemical potential.", "quantifier": "all states, all strictly convex molar free energies, all mobilities, meshes, diffusion coefficients, all times along all runs", "why_tests_cant": "A regression test compares the energy at a few times of one run; the sign of its rate for every state and every free energy is a theorem about the discretisation.", "anchors": ["source/PhaseRHSStrategyWithQ.cc", "source/QuadraticFreeEnergyStrategy.cc", "source/CALPHADFreeEnergyStrategyBinary.cc", "source/EBSCompositionRHSStrategy.cc", "source/KKSCompositionRHSStrategy.cc", "source/fortran/2d/quatenergy.m4", "source/fortran/2d/concentrationrhs.m4"]}
{"id": "C111", "title": "Starting guesses of the phase compositions", "statement": "Within one time step the phase compositions computed for a state do not depend on which states were evaluated before it; a step starts its solves from the compositions at the end of the previous step, also across a restart and a change of the mesh; the equilibrium compositions computed before a run are where its first solve starts; that equilibrium is only accepted if it consists of fractions, and is searched for from distinct fractions enclosing the data.", "quantifier": "all solvers of the equal-potential equations, local states, lists of evaluations and steps, initial data, settings of the concentration model, numbers of species and phases", "why_tests_cant": "When the solver converges from any starting point nothing is visible; whether evaluations influence each other depends on the sequence the time integrator chooses, and the wrong guesses after a restart or a change of mesh only show as rare failures or another branch of a miscibility gap.", "anchors": ["source/QuatModel.cc", "source/PhaseConcentrationsStrategyFactory.h", "source/CALPHADequilibriumPhaseConcentrationsStrategy.cc", "source/KKSdiluteEquilibriumPhaseConcentrationsStrategy.cc", "source/EquilibriumPhaseConcentrationsBinaryMultiOrder.cc", "source/EquilibriumPhaseConcentrationsBinaryMultiOrderThreePhases.cc", "source/QuatIntegrator.cc"]}
{"id": "C112", "title": "Resetting the orientations repairs them without damaging them", "statement": "When a grain has disappeared (or the interval is due) the orientations are reset: cells above the phase threshold keep their orientation; smoothing never creates new extreme values and never makes the field rougher; a grain with one orientation is left alone however its cells describe it; the result is still a rotation; bringing orientations to the fundamental zone gives one representative per orientation; the relaxation stops at the first step that meets its test.", "quantifier": "for all orientation fields, phase fields, thresholds, rotation tables on the sides, numbers of passes, counts of grains and relaxation histories", "why_tests_cant": "Depends on every pattern of neighbouring orientations and of their equivalent descriptions, and on sequences of counts over a run including restarts.", "anchors": ["source/QuatModel.cc", "source/Grains.cc", "source/fortran/2d/smoothquat.m4", "source/fortran/3d/smoothquat.m4", "source/fortran/2d/quatrotation.m4", "source/fortran/quat.f"]}
{"id": "C113", "title": "Each interface constant acts on its own interface, with the strength given", "statement": "In a run with several grains and temperature-dependent diffusion, the constants D0_LA, D0_AA, D0_LB, D0_AB, D0_BB each act on the interfaces between grains of the two named phases and nowhere else; every pair of different grains counts once, independently of the numbering of the grains and of the phase-ordering convention; the additional diffusivity in the middle of an interface is the constant given.", "quantifier": "for all numbers of grains of both solid phases, all fields, temperatures, constants and faces inside a patch", "why_tests_cant": "The bookkeeping depends on the number of grains per phase and on pointer offsets into the array of order parameters; tests use one or two grains and compare with stored results.", "anchors": ["source/TbasedCompositionDiffusionStrategy.cc", "source/CompositionDiffusionStrategyFactory.h", "source/fortran/2d/concentrationdiffusion.m4"]}
{"id": "C114", "title": "Red-black smoothing of a level converges to the level's solution, and stopping on the tolerance means it was met", "statement": "On a level with a definite operator the smoothing loop of the multigrid preconditioner brings the values, from any start and for any arrangement of patches, geometrically to the unique values with zero residual; the rate depends on the coefficients only; residuals below a tolerance bound the distance to the solution; when the coarsest-level solve stops because of its tolerance, the residual tolerance was met on the level.", "quantifier": "all levels (any list of patches), all coefficients with a definite sign, all spacings, all ghost fills that keep the level and do not amplify differences, all starting values, tolerances and numbers of sweeps, 2D and 3D", "why_tests_cant": "The rate must hold for every coefficient field and every decomposition into patches; a test with one patch per process never sees that the residual of all but the last patch is dropped from the stopping test.", "anchors": ["source/EllipticFACOps.cc", "source/fortran/2d/ellipticfacops.m4", "source/fortran/3d/ellipticfacops.m4"]}
{"id": "C115", "title": "The linear equations of the preconditioner have one solution and the smoother converges to it", "statement": "For every step size that the time integrator may choose, the phase, temperature and composition equations that the preconditioner hands to the multigrid solver have exactly one solution on a level, and the smoothing loop converges to it from any starting values.", "quantifier": "all step sizes gamma, all mobilities, phase fields, diffusion fields, spacings, patch arrangements and admissible ghost fills (2D); divergence for all zero-flux patches with uniform negative scalar field", "why_tests_cant": "gamma is chosen by the time integrator at run time; whether the operator is definite depends on gamma, mobility, well scale and the phase value of every cell together.", "anchors": ["source/PhaseFACOps.cc", "source/TemperatureFACOps.cc", "source/ConcFACOps.cc", "source/EllipticFACOps.cc", "source/QuatIntegrator.cc"]}
{"id": "C116", "title": "Grain boundaries: phase rate and orientation flux derive from the one reported energy", "statement": "The force that the orientations exert on the phase and the flux that moves the orientations are both derivatives of the orientation energy the program reports, so that the reported energy does not grow because of an inconsistency between them.", "quantifier": "all grids, phase, temperature and orientation fields, all parameters, all three floor types, both kinds of gradient modulus (2D, periodic)", "why_tests_cant": "The energy, the phase rate and the flux are evaluated by different routines with their own floors and averages; whether they agree is a statement about every field, and regression tests compare each of them with stored output only.", "anchors": ["source/fortran/2d/quatenergy.m4", "source/fortran/2d/quatrhs.m4", "source/fortran/2d/quatgrad.m4", "source/PhaseRHSStrategyWithQ.cc", "source/TwoPhasesEnergyEvaluationStrategy.cc", "source/QuatGradModulusStrategy.cc", "source/fortran/2d/quatfacops.m4", "source/QuatIntegrator.cc"]}
{"id": "C117", "title": "An option of the input means one thing to the whole run", "statement": "Every option value accepted when the input is read is known to the routines it is handed to, every routine that depends on an option uses the value given, and no setting is silently ignored.", "quantifier": "all input databases (any set of keys and values), all field values", "why_tests_cant": "There are unboundedly many inputs; tests run the documented values of each option, one at a time, and compare each output separately, so they neither see which values pass the checks nor whether two routines of one run got different values.", "anchors": ["source/QuatModelParameters.cc", "source/QuatModel.cc", "source/PhaseRHSStrategyWithQ.cc", "source/TwoPhasesEnergyEvaluationStrategy.cc", "source/fortran/functions.f", "source/fortran/quat.f", "source/CompositionDiffusionStrategy.h"]}
{"id": "C118", "title": "Orientation relaxation in three dimensions, with and without crystal symmetry", "statement": "In a 3D build the orientation rate computed from the stored quaternions, phases, temperatures and mobilities lowers the orientation gradient energy at the speed sum |rate|^2/mobility, stays tangent to the unit sphere, and, with crystal symmetry switched on, is the steepest descent of the same energy whichever equivalent quaternion each cell stores.", "quantifier": "all periodic box sizes, mesh widths, orientation, phase, temperature and mobility fields, interpolation and floor settings, rotation index arrays, build types and flux settings", "why_tests_cant": "The claim is about every 3D field and every choice of equivalent quaternions; a test on a few grains stored close to each other passes although the fluxes are never turned back.", "anchors": ["source/fortran/3d/quatgrad.m4", "source/fortran/3d/quatdiffs.m4", "source/fortran/3d/quatrotation.m4", "source/fortran/3d/quatfacops.m4", "source/fortran/3d/correctrhsquatforsymmetry.m4", "source/QuatFACOps.cc", "source/QuatIntegrator.cc"]}
{"id": "C119", "title": "Second law for an isothermal alloy in 3D, and its agreement with 2D", "statement": "While phase and composition are integrated together in a closed isothermal 3D sample the total energy the program reports never increases, and stays constant only when nothing changes. On a sample that does not depend on z the 3D program computes the same phase rates, solute fluxes and composition rates as the 2D program on one layer, nothing flows along z, and the reported energy is that of a layer times the number of layers. The second law holds for one molar volume, one interpolation and the flux summed over the phases (or the phase-gradient form with linear interpolation); it fails for the default phase-gradient flux.", "quantifier": "all states, all strictly convex molar free energies, all mobilities, meshes, diffusion coefficients, all times along all runs", "why_tests_cant": "A regression test compares a few numbers of one 3D run; neither the sign of the energy rate for every state nor the agreement of two separately written sets of Fortran routines on every columnar state can be sampled exhaustively.", "anchors": ["source/fortran/3d/quatrhs.m4: computerhspbg", "source/fortran/3d/concentrationrhs.m4: concentrationflux, computerhsconcentration", "source/fortran/3d/concentrationdiffusion.m4: concentration_pfmdiffusion", "source/fortran/3d/quatenergy.m4", "source/KKSCompositionRHSStrategy.cc: KKSCompositionRHSStrategy::setDiffCoeffForPhaseOnPatch", "source/EBSCompositionRHSStrategy.cc: EBSCompositionRHSStrategy::computeFluxOnPatch"]}
{"id": "C120", "title": "Cahn-Hilliard and sintering runs in 3D conserve composition and lower the free energy", "statement": "On a periodic 3D domain, whatever the division into patches, the total composition of a Cahn-Hilliard or sintering run stays what it was and the model's free energy never increases; it stands still only when nothing moves, the chemical potential being uniform. The diffusion coefficients of the sintering model are the same computed from either patch next to a side and never negative. On a sample that does not depend on z rates and energies are those of the 2D program on a layer. The composition rate is proportional to the mobility given in the input.", "quantifier": "all periodic states and runs, meshes, patch decompositions, model parameters, numbers of order parameters, all times", "why_tests_cant": "A test sees one trajectory on one decomposition of one mesh; the mobility is 1 in the repository's inputs, so its square is indistinguishable from it.", "anchors": ["source/CahnHilliardDoubleWell.cc: CahnHilliardDoubleWell::computeFluxOnPatch", "source/WangSinteringCompositionRHSStrategy.cc: WangSinteringCompositionRHSStrategy::computeFluxOnPatch", "source/WangSinteringCompositionDiffusionStrategy.cc: setDiffusion", "source/fortran/3d/concentrationrhs.m4: add_cahnhilliarddoublewell_flux", "source/fortran/3d/concentrationdiffusion.m4: add_ab_diffusion", "source/fortran/3d/sintering.m4: computerhs_wang_sintering"]}
{"id": "C121", "title": "Level systems of the multigrid solvers in 3D", "statement": "In three dimensions the system handed to the linear solver (coarsest level of the elliptic solver, every level of the orientation solver) has exactly one solution, and the values written back have zero residual, as the multigrid solver computes it, in every cell of the level; a zero residual gives a zero correction; and if nothing depends on z and the z boundaries are no-flux, the result is that of the 2D program repeated along z.", "quantifier": "all finite 3D levels and boundary boxes, mobilities, face and cell coefficients of the sign used by the code, Robin coefficients in [0,1], boundary data, right-hand sides", "why_tests_cant": "The outer iteration hides errors of a level solve; they sit at boundary faces only and vanish for no-flux conditions. 3D tests of the repository are short and do not compare with 2D.", "anchors": ["source/samrai/CellPoissonHypreSolver.cc: setMatrixCoefficients", "source/QuatLevelSolver.cc: setMatrixCoefficients", "source/fortran/3d/quatlevelsolver.m4: adjust_bdry3d", "source/fortran/3d/hyprepoisson.m4: multiplyoffdiagbym", "source/fortran/3d/quatfacops.m4: compute_q_residual3d"]}
{"id": "C122", "title": "Samples one cell thick are solved", "statement": "A sample may be one cell thick in a direction that is not periodic. The system handed to hypre on the coarsest level is then the system of the level: every entry, right-hand side value and result belongs to its cell, and nothing is written outside the buffers, for every division into patches.", "quantifier": "all resolutions, 2D and 3D programs, divisions into patches, coefficients, right-hand sides", "why_tests_cant": "The repository runs bars of one row in 2D and uses two cells in the thin directions in 3D; a column or a 3D plate is never run, and a write behind a buffer need not be noticed when it is.", "anchors": ["source/samrai/CellPoissonHypreSolver.cc: initializeSolverState", "source/samrai/CellPoissonHypreSolver.cc: setMatrixCoefficients", "source/samrai/CellPoissonHypreSolver.cc: copyToHypre", "source/samrai/CellPoissonHypreSolver.cc: copyFromHypre", "source/PFModel.cc: Initialize"]}
{"id": "C123", "title": "The multigrid solvers work on the current mesh", "statement": "However often the mesh is regridded, and whatever the numbers of levels, every linear solve of the preconditioner and of the steady temperature works on all levels of the current mesh, on the data it is given, with transfer schedules between the levels in use.", "quantifier": "for every number of levels at the start, every sequence of regriddings (numbers of levels, callback made or not when one level is left), every boundary condition object, every pair of cell-centred data", "why_tests_cant": "No test input asks for the steady temperature, and the state of a solver depends on the whole history of meshes, which a finite set of runs cannot cover.", "anchors": ["source/EllipticFACSolver.cc: initializeSolverState", "source/EllipticFACSolver.cc: deallocateSolverState", "source/EllipticFACSolver.cc: resetSolverState", "source/EllipticFACSolver.cc: solveSystem", "source/EllipticFACSolver.cc: createVectorWrappers", "source/EllipticFACOps.cc: deallocateOperatorState", "source/QuatSysSolver.cc: resetSolverState", "source/QuatIntegrator.cc: resetSolversState", "source/SteadyStateTemperatureStrategy.cc: resetSolversState", "source/TemperatureStrategy.h: resetSolversState", "source/samrai/FACPreconditioner.cc: deallocateSolverState"]}
{"id": "C124", "title": "A pure melt does not depend on how the sample is placed in the grid", "statement": "The rates of phase and temperature in a pure melt do not change when axes are exchanged or reflected, and a sample that does not vary along z evolves in the 3D program exactly as its layer evolves in the 2D program, with energies in proportion to the number of layers.", "quantifier": "for all fields, mobilities, grid spacings, material constants, both free energy strategies, all kinds of interpolation and all cells", "why_tests_cant": "The 2D and 3D programs are separate builds with separate routines; comparing a few runs at the tolerance of the regression tests does not show a term of the order of the curvature of the temperature.", "anchors": ["source/fortran/2d/quatrhs.m4: computerhsdeltatemperature", "source/fortran/3d/quatrhs.m4: computerhsdeltatemperature", "source/fortran/3d/quatrhs.m4: computerhstemp", "source/fortran/3d/laplacian.m4: laplacian", "source/fortran/3d/quatenergy.m4: phi_interface_energy", "source/DeltaTemperatureFreeEnergyStrategy.cc: addDrivingForce"]}
{"id": "C125", "title": "Solute flux in phase-gradient form does not prefer an axis in three dimensions", "statement": "In a 3D run with rhs_form kks or beckermann the solute flux through a side is one and the same function of the two cells sharing it for all three directions: exchanging axes of the sample exchanges the fluxes, a stack of equal layers has the fluxes of the 2D sample and none between layers, and where the liquid composition does not change nothing moves.", "quantifier": "for all phase, composition, temperature and partition-coefficient fields on a 3D patch, all sides in x, y and z, all ghost widths, all interpolation and averaging kinds", "why_tests_cant": "3D runs have no reference solution and use a constant partition coefficient; a side that takes one of its values from a cell beside it changes the flux by a small amount that depends on the orientation of the sample.", "anchors": ["source/BeckermannCompositionRHSStrategy.cc: setDiffusionCoeffForPhaseOnPatch", "source/KKSCompositionRHSStrategy.cc: setDiffCoeffForPhaseOnPatch", "source/fortran/3d/concentrationdiffusion.m4", "source/fortran/3d/concentrationrhs.m4"]}
{"id": "C126", "title": "Tolerances are applied in one norm, independent of mesh and unit of length", "statement": "The tolerances given for the time integration mean the same for the step test, for the Krylov solver and for the block solvers of the preconditioner: all measure in the same norm, which depends neither on the unit of length nor on how the mesh is refined nor on the contents of covered cells; a step that passes has a bounded error in every field.", "quantifier": "all hierarchies (levels, patches, dimensions), all numbers of fields, all vectors, all tolerances, all changes of the unit of length", "why_tests_cant": "Norms agree on unit domains and uniform meshes; whether two stopping tests use the same norm shows only in how many iterations are taken for each size of the domain and each refinement pattern", "anchors": ["source/samrai/Sundials_SAMRAIVector.cc: dotWith", "source/samrai/Sundials_SAMRAIVector.cc: weightedRMSNorm", "source/samrai/CVODESolver.cc: initializeCVODE", "source/QuatIntegrator.cc: createSolutionvector", "source/QuatIntegrator.cc: PhasePrecondSolve", "source/EllipticFACOps.cc: computeResidualNorm", "source/EllipticFACSolver.cc: createVectorWrappers", "source/QuatSysSolver.cc: createVectorWrappers", "source/samrai/FACPreconditioner.cc: solveSystem"]}
{"id": "C127", "title": "Refining orientations fills every requested cell", "statement": "When the symmetry-aware refinement operator is asked to fill a set of fine boxes, afterwards every cell of every requested box holds the orientation interpolated from the coarse level, every other cell is unchanged, and only coarse cells within the declared stencil width are read.", "quantifier": "for all lists of nonempty destination boxes in two or three dimensions, all interpolated values, all previous contents, all refinement ratios and coarse data", "why_tests_cant": "A test sees a few patch layouts, and stale values in unfilled cells often look plausible (they may hold an earlier or uniform orientation); which cells are skipped depends on how the schedule cuts the request into boxes.", "anchors": ["source/QuatLinearRefine.cc: QuatLinearRefine::refine", "source/QuatLinearRefine.cc: QuatLinearRefine::getStencilWidth", "source/fortran/2d/quatlinrefine.m4: quatlinrefine2d"]}
{"id": "C128", "title": "The temperature prescribed by a history file is the one in the file", "statement": "A complete history file (positions, then one row of temperatures for each time, comments allowed) is read in full; at a time and position of the file the temperature is the entry of the file; in a moving frame the field has at the centre the temperature and gradient the file states for the laboratory position reached, whatever the velocities were, does not jump when the velocity changes, does not depend on the patch, and survives a restart; unusable files are refused.", "quantifier": "for all files (any numbers of times, positions and comment lines), all times, all sequences of frame velocities, all points of the domain", "why_tests_cant": "The distributed tests use two small files with one spacing each; node exactness, behaviour at the edges of the table and independence of the path of the frame concern all files and all velocity histories.", "anchors": ["source/TemperatureHistory.cc: TemperatureHistory::readCSV", "source/GradientTemperatureStrategy.cc: GradientTemperatureStrategy::setCurrentTemperature", "source/GradientTemperatureStrategy.h: GradientTemperatureStrategy::resetVelocity", "source/fortran/2d/temperature.m4: initgradient"]}
{"id": "C129", "title": "An isothermal alloy does not depend on how the sample lies in the grid", "statement": "If the initial fields of a three-dimensional isothermal binary alloy are laid into the grid with the axes in another order, some of them reversed, and the sample displaced, with the mesh spacings and the periods reordered accordingly, then at every moment the fields computed are those of the first run laid into the grid in the same way, for the flux summed over the phases; the rates of phase and composition, the diffusion coefficients, both forms of the solute flux and the energy reported for a period agree cell by cell and side by side, a flux changing its sign with its direction.", "quantifier": "All permutations and reversals of the axes and displacements, all fields, spacings, parameters, interpolations and averages (also those for which the code stops: it stops for both).", "why_tests_cant": "Each direction has its own loop with its own index arithmetic and array layout; a wrong index shows only for fields and spacings that differ between the directions, and a test compares finitely many of them.", "anchors": ["source/fortran/3d/concentrationrhs.m4: concentrationflux, computerhsconcentration", "source/fortran/3d/concentrationdiffusion.m4: concentration_pfmdiffusion_of_temperature, concentration_pfmdiffusion", "source/fortran/3d/flux.m4", "source/fortran/3d/quatenergy.m4", "source/KKSCompositionRHSStrategy.cc: setDiffCoeffForPhaseOnPatch", "source/EBSCompositionRHSStrategy.cc: computeFluxOnPatch"]}
{"id": "C130", "title": "Initial-conditions files and mesh refinement", "statement": "A run that starts from an initial-conditions file starts from the file's fields on every level of its mesh, the mesh being refined where the fields ask for it, whichever level the file was written for; a file written at the end of a run on a level of the mesh holds, in each cell of that level, the value of the finest data available there up to that level, stays in the range of the fields, reproduces affine fields, and keeps amounts and unit orientations.", "quantifier": "all files, all memory contents before reading, all tagging criteria and numbers of levels, all mesh hierarchies and refinement ratios up to 16, 2D and 3D", "why_tests_cant": "The regression tests that read such files use the mesh sizes of the files they were written for and compare few printed numbers; what a start holds depends on uninitialised memory and on every tagging pattern, which sampling cannot cover.", "anchors": ["source/QuatModel.cc: Initialize", "source/FieldsInitializer.cc: initializeLevelFromData", "source/PFModel.cc: setupHierarchy", "source/FieldsWriter.cc: writeInitialConditionsFile", "source/FieldsWriter.cc: FlattenHierarchy"]}
{"id": "C131", "title": "The phase stays between zero and one", "statement": "A run whose initial phase lies between zero and one, with boundary values in that range, keeps the phase between zero and one in every cell at all times of the semi-discrete equations, whatever the temperature, compositions, orientations, mobility and driving forces do; likewise the temperature of the heat equation without phase change never leaves its initial range.", "quantifier": "all meshes, finite sets of cells, initial states, driving forces of all free energy strategies, mobilities, temperature and orientation fields varying in time, stencils, frame velocities and times", "why_tests_cant": "A run shows the bounds for one initial state and one history of the coupled fields; the claim is about all solutions of the equations for all times, and the settings that break it (linear interpolation, upwind moving frame, elongated cells) show only small negative values that a tolerance hides.", "anchors": ["source/PhaseRHSStrategyWithQ.cc: PhaseRHSStrategyWithQ::evaluateRHS", "source/fortran/2d/quatrhs.m4: computerhspbg", "source/fortran/functions.f: deriv_interp_func", "source/MovingFrameRHS.cc: MovingFrameRHS::addRHS", "source/PhaseFluxStrategyFactory.h: PhaseFluxStrategyFactory::create", "source/SimpleTemperatureRHSStrategy.cc: SimpleTemperatureRHSStrategy::evaluateRHS"]}
{"id": "C132", "title": "Three phases remain fractions, and an absent phase does not appear", "statement": "In a run with three phases whose initial phases are fractions (not negative, total one), the phases remain fractions in every cell at all times of the semi-discrete equations, whatever the energies, compositions and mobility do, and a phase that is nowhere at the start and does not enter through the boundary never appears.", "quantifier": "all meshes, finite sets of cells, initial states, energies, compositions and mobilities varying in time, stencils, frame velocities and times, 2D and 3D", "why_tests_cant": "A test sees a few interfaces for a short time and compares with a tolerance; that a third phase is created nowhere for any energies is a statement about all states on the edges of the phase triangle.", "anchors": ["source/ThreePhasesRHSStrategy.cc: ThreePhasesRHSStrategy::evaluateRHS", "source/fortran/2d/quatrhs.m4: computerhsthreephases", "source/fortran/functions.f: deriv_triple_well_func", "source/TiltingFolchPlapp2005.cc: TiltingFolchPlapp2005::dg0dp0", "source/CALPHADFreeEnergyStrategyBinaryThreePhase.cc: addDrivingForceOnPatch", "source/MovingFrameRHS.cc: MovingFrameRHS::addRHS"]}
{"id": "C133", "title": "Order parameters of grains stay between 0 and 1, absent grains do not appear", "statement": "In runs with several order parameters (grain models with two or three phases, and sintering) every order parameter that starts between 0 and 1 stays there in all cells at all times, whatever the energies, the mobility, the density and the frame velocity do; and a grain that is nowhere at the start and not brought in by boundary values never appears.", "quantifier": "for all numbers of order parameters, grids, boundary conditions, energies, mobilities, frame velocities varying in time, and all solutions of the equations on any time interval", "why_tests_cant": "A bound on all solutions of a nonlinear system of ODEs for all fields; tests run a few initial conditions for short times, and the failure (strong driving force) appears only above a threshold of the energies.", "anchors": ["source/MultiOrderRHSStrategy.cc: MultiOrderRHSStrategy::evaluateRHS", "source/fortran/2d/multiorder.m4: computerhsmultiorder", "source/fortran/2d/sintering.m4: computerhs_wang_sintering", "source/QuadraticFreeEnergyStrategyMultiOrder.cc: QuadraticFreeEnergyStrategyMultiOrder::addDrivingForceOnPatch", "source/SinteringUWangRHSStrategy.cc: SinteringUWangRHSStrategy::evaluateRHS"]}
{"id": "C134", "title": "The composition stays non-negative and below one", "statement": "In alloy runs the composition of a species that starts between 0 and 1 in all cells, with boundary values between 0 and 1, stays between 0 and 1 in all cells at all times, whatever the phase, the temperature and the other species do, for every flux model and stencil that the input can select.", "quantifier": "for all grids (2D, 3D), boundary conditions, diffusion coefficients, partition coefficients, phase and temperature fields varying in time, and all solutions of the equations on any time interval", "why_tests_cant": "A bound on all solutions of a system of ODEs with coefficients that vary in space and time; tests check smooth initial conditions, for which the stencils with negative weights and the anti-trapping current do not show the loss of positivity.", "anchors": ["source/QuatIntegrator.cc: QuatIntegrator::evaluateConcentrationRHS", "source/EBSCompositionRHSStrategy.cc: EBSCompositionRHSStrategy::computeFluxOnPatch", "source/KKSCompositionRHSStrategy.cc: KKSCompositionRHSStrategy::computeFluxOnPatch", "source/PartitionPhaseConcentrationsStrategy.cc: PartitionPhaseConcentrationsStrategy::computePhaseConcentrationsOnPatch", "source/fortran/2d/flux.m4: add_flux", "source/fortran/2d/concentrationrhs.m4: addconcentrationfluxfromantitrapping"]}
{"id": "C135", "title": "The temperature shown is the temperature used", "statement": "After every accepted step the temperature that is plotted, saved, used in the reported energies and printed as minimum, maximum and average is the temperature with which the rates were computed, for every temperature model, whatever states the solver tried in between and whatever diagnostics were made.", "quantifier": "all temperature models (uniform, Gaussian, frozen gradient, steady and unsteady heat equation, file), all sequences of rate evaluations, accepted steps and diagnostics, all fields", "why_tests_cant": "the two stored copies of the temperature agree at most moments of a short run; whether they agree after any sequence of trial states, accepted steps and diagnostics, for every model, is a statement about all histories", "anchors": ["source/QuatIntegrator.h: setTemperatureField", "source/QuatIntegrator.cc: fillScratch", "source/QuatModel.cc: evaluateEnergy", "source/QuatModel.cc: printScalarDiagnostics", "source/QuatModel.cc: copyCurrentToScratch", "source/SteadyStateTemperatureStrategy.h: solveSystem", "source/SteadyStateTemperatureGaussianSource.cc: setCurrentTemperature", "source/GradientTemperatureStrategy.cc: getCurrentAverageTemperature", "source/ScalarTemperatureStrategy.cc: setCurrentTemperature", "source/ConstantTemperatureStrategy.h: getCurrentMinTemperature"]}
{"id": "C136", "title": "More heat never makes a place colder, and the steady temperature is determined", "statement": "Of two runs of the heat equation on the same mesh, the one that starts nowhere colder, releases at least as much heat in every cell and has boundary temperatures not lower is nowhere colder at any later time; in particular the history is determined by the start, the temperature never falls below the lowest temperature of start and boundary while nothing melts, and it rises above the highest one no faster than the heat released allows. The steady temperature of a given source and boundary condition exists, is unique and is ordered in the same way.", "quantifier": "all meshes, numbers of cells, mesh sizes, diffusivities, latent heats, heat capacities, phase rates, frame velocities, sources and boundary data, 2D and 3D in time, 2D steady", "why_tests_cant": "A test compares two particular runs; the statement is about all pairs of runs, all sources and the solvability of all linear systems the boundary conditions can produce.", "anchors": ["source/QuatIntegrator.cc: evaluateTemperatureRHS", "source/SimpleTemperatureRHSStrategy.cc: evaluateRHS", "source/MovingFrameRHS.cc: addRHS", "source/SteadyStateTemperatureCompositionSource.cc: setCurrentTemperature", "source/SteadyStateTemperatureGaussianSource.cc: setCurrentTemperature", "source/SteadyStateTemperatureStrategy.h: solveSystem", "source/TemperatureFACOps.cc: setOperatorCoefficients"]}
{"id": "C137", "title": "Observing a run does not change it", "statement": "Printing scalar diagnostics (energies, volumes, total composition) before the first step or after any step, at any interval, leaves the computed solution exactly as it is without diagnostics: the time integrator receives the same rates and coefficients for the same questions, so it produces the same sequence of states.", "quantifier": "all configurations of the rates, all arrays, all time integrators (any decision from rates and coefficients received), all patterns of diagnostics, all numbers of steps", "why_tests_cant": "A test compares two runs of one model up to a tolerance; scratch arrays, caches and starting values shared between diagnostics and rates matter only for particular combinations of options and states.", "anchors": ["source/QuatModel.cc: evaluateEnergy", "source/QuatModel.cc: printScalarDiagnostics", "source/QuatModel.cc: postAdvanceDiagnostics", "source/QuatModel.cc: preRunDiagnostics", "source/QuatModel.cc: copyCurrentToScratch", "source/QuatIntegrator.cc: setCoefficients", "source/QuatIntegrator.cc: evaluateRHSFunction"]}
{"id": "C138", "title": "Mobilities are those of the CALPHAD file, and the table of diffusion coefficients shows what its titles say", "statement": "Every mobility parameter in the CALPHAD file enters the atomic mobility with the meaning documented for it (a + R T log b, plus c T log T + d/T, interaction terms zero if absent), for every species and phase; the table D.dat written before a run shows, under each title, the diffusion coefficient of the species in the phase named, b exp(a/(R T)), from half to twice the temperature of the run.", "quantifier": "all files (presence, lengths and values of all arrays), all temperatures", "why_tests_cant": "A test reads one database; missing keys, further species and short arrays are not in it, and a table with the wrong species has plausible numbers.", "anchors": ["source/CALPHADMobility.cc: initialize", "source/CALPHADMobility.cc: printDiffusionVsTemperature", "source/CALPHADMobility.cc: getDeltaG", "source/diagnostics.cc: preRunDiagnosticsMobilityInPhases"]}
{"id": "C139", "title": "Grain structures described by order parameters lose energy", "statement": "In a run with norderp > 1 at given bulk energies of the phases and periodic boundaries, without a moving frame, the energy printed by the program never grows, does not change only if no order parameter changes in any cell, and never returns to an earlier value.", "quantifier": "for all numbers of order parameters, all fields, stencils, mobilities, wells, bulk energies and times", "why_tests_cant": "A statement about every trajectory of a nonlinear system of arbitrary size; a test follows a few runs and compares printed numbers of which only the first grain is part.", "anchors": ["source/MultiOrderRHSStrategy.cc: evaluateRHS", "source/fortran/2d/multiorder.m4: computerhsmultiorder", "source/TwoPhasesEnergyEvaluationStrategy.cc: evaluateEnergy", "source/fortran/2d/quatenergy.m4: quatenergy", "source/QuatModel.cc: evaluateEnergy"]}
{"id": "C140", "title": "Refining the mesh leads to the solution of the field equations", "statement": "On a periodic domain the computed phase field (one order parameter, double well, energies interpolated with 'p' or 'h', simple or isotropic stencil, fixed frame or frame moving with centred differences) and the computed temperature follow any smooth solution of the corresponding partial differential equation: at every cell and time the difference is at most the initial difference plus a constant times dx^2+dy^2(+dz^2), with one constant for all meshes and all runs; for the phase the difference grows at most by exp(M(32 s + 15 D) t), for the temperature not at all beyond the accumulated truncation error and error of the released heat.", "quantifier": "all cell sizes and numbers of cells, all mobilities, energies, heat sources and frame speeds as functions of place and time, all smooth solutions, all histories satisfying the cell equations, 2D and 3D", "why_tests_cant": "A refinement study shows an observed order on a few meshes for one solution; that one constant serves all meshes needs the combination of a remainder estimate and a comparison argument.", "anchors": ["source/PhaseRHSStrategyWithQ.cc: PhaseRHSStrategyWithQ::evaluateRHS", "source/fortran/2d/quatrhs.m4: computerhspbg", "source/fortran/2d/quatrhs.m4: phaserhs_fenergy", "source/fortran/2d/quatrhs.m4: addvdphidx", "source/QuatIntegrator.cc: QuatIntegrator::evaluateTemperatureRHS", "source/fortran/2d/laplacian.m4: laplacian", "source/fortran/3d/quatrhs.m4: computerhspbg"]}
{"id": "C141", "title": "The preparatory programs report the equilibria and mobility data they are asked for", "statement": "plotEquilibriumCompositions writes, for each phase, the equilibrium composition at each of its temperatures over the requested range, plotEquilibriumCompositionsTernary likewise; computeCALPHADbinaryEquilibrium prints the equilibrium compositions and the second derivative of the free energy of each phase at its own equilibrium composition, and reports failure by its exit status; computeMobilityZetaFactor prints the zeta with which a run of the same alloy at that temperature computes its mobility, and nothing if it cannot be computed.", "quantifier": "for all solvers (any function of temperature and guess), all temperature ranges, guesses and free energies", "why_tests_cant": "A test runs one alloy over one range; lost lines depend on coincidences of compositions along the whole path, and the curvature error is invisible for alloys with equal curvatures.", "anchors": ["drivers/plotEquilibriumCompositions.cc: main", "drivers/plotEquilibriumCompositionsTernary.cc: main", "drivers/computeCALPHADbinaryEquilibrium.cc: main", "drivers/computeMobilityZetaFactor.cc: main"]}
{"id": "C142", "title": "Generated nuclei are what was asked for", "statement": "utils/make_nuclei.py writes an initial state in which the cells within the radius of a nucleus (across periodic boundaries if so asked) are solid and the others are not, the nuclei do not overlap, every cell has the unit orientation of the nucleus closest to it, and the mean of each species is the nominal composition given, with compositions between 0 and 1.", "quantifier": "for all numbers and positions of nuclei, radii, interface widths, box sizes, compositions and options", "why_tests_cant": "A test compares a handful of generated states by eye or by a later run; the distances, early exits and volume bookkeeping depend on all positions at once.", "anchors": ["utils/make_nuclei.py: distance2", "utils/make_nuclei.py: imposeMinDistance", "utils/make_nuclei.py: fill phase, quat and conc", "utils/quat.py: getQuatRandom"]}
{"id": "C143", "title": "Runs from nearby data stay close, and equal data give equal runs, on every mesh", "statement": "Two runs of the phase equation on the same mesh, whose initial phases differ by at most E, whose driving forces differ by at most delta and whose mobilities change the rate of one of them by at most kappa, differ at time t by at most (E + (15/8 M delta + kappa) t) exp(M (32 s + 15 D) t), a bound in which neither the size nor the number of the cells appears; in particular equal data give the same phase at all times. Two runs of the heat equation differ by at most the initial difference plus t times the difference of the released heat. Two runs with several order parameters and no driving force differ by at most E exp(M m (2 + 2 gamma (3 N + 2)) t). This holds in 2D with both stencils and in 3D, with periodic sides or sides without flux, in a fixed frame or a moving frame below the cell Peclet limit.", "quantifier": "for all meshes, boxes, initial fields in [0,1], energies, mobilities, frames, end times and pairs of runs", "why_tests_cant": "A test compares two runs on one mesh for one perturbation; that the amplification is bounded independently of the mesh and that no second solution exists is a statement about all meshes and perturbations.", "anchors": ["source/PhaseRHSStrategyWithQ.cc: evaluateRHS", "source/MultiOrderRHSStrategy.cc: evaluateRHS", "source/QuatIntegrator.cc: evaluateTemperatureRHS", "source/fortran/2d/quatrhs.m4: computerhspbg"]}
{"id": "C144", "title": "Layers are where, and as much, as asked for", "statement": "The initial file of layers has the phase inside in the cells within the radius of the middle of a layer and the phase outside elsewhere, joined by an interface of the given width; its mean composition is the nominal one; its orientations have length one and differ by the angle asked for.", "quantifier": "all box sizes, directions, radii, ratios, interface widths, compositions, orientations and cells", "why_tests_cant": "The mean composition is right or wrong depending on the parity of the number of cells and on the ratio of the layers; a test with one size sees one case, and the files are never compared with the nominal values.", "anchors": ["utils/make_bilayer.py: loop over cells", "utils/make_bilayer.py: vs, vl", "utils/make_bilayer.py: --ratio"]}
{"id": "C145", "title": "Preparatory scripts and simulation agree on orientations", "statement": "The orientation arithmetic of the Python scripts uses the same symmetry rotations as the simulation, its conjugates undo the rotations, its search returns a closest equivalent orientation from any start index, and the angle computed from a distance is the misorientation.", "quantifier": "all orientations that are not numerically zero, all start indices, all rotations of the table, all angles", "why_tests_cant": "The tables have 48 entries and the search stops early; one wrong conjugate or a closer orientation missed after the early exit shows only for particular orientations, and the two implementations are never run against each other.", "anchors": ["utils/quat.py: quatSymm", "utils/quat.py: quatSymm1", "utils/quat.py: quatMakeFundamental", "utils/quat.py: getQuatSymmetryRotationConjugate", "utils/quat.py: quatAngle", "source/fortran/quat.f: quatfindsymm4"]}
{"id": "C146", "title": "The equations of a pure melt have exactly one solution up to any time", "statement": "For a run of a pure melt (phase and temperature, driven by DeltaTemperature or Temperature free energies), from any initial phase between zero and one and any initial temperatures, the system of rates that QuatIntegrator hands to the time integrator has a solution up to any end time - phase and temperature cannot blow up at a finite time, the phase stays in [0,1] and the right-hand side is defined all along - and that solution is the only one with these initial values.", "quantifier": "all sizes of the domain, periodic or zero-flux sides, all end times, all initial phases in [0,1], all initial temperatures, all positive spacings, all nonnegative mobilities and all heat capacities per cell that do not change in time, all nonnegative heat diffusivities, all latent heats and signs of the driving force, fixed or slowly moving frame, 2D and 3D", "why_tests_cant": "a test integrates from a few initial values with a time stepper up to a few times; absence of blow-up at later times and uniqueness concern the continuum of all trajectories", "anchors": ["source/QuatIntegrator.cc: evaluatePhaseRHS", "source/QuatIntegrator.cc: evaluateTemperatureRHS", "source/PhaseRHSStrategyWithQ.cc: evaluateRHS", "source/DeltaTemperatureFreeEnergyStrategy.cc: addDrivingForce", "source/TemperatureFreeEnergyStrategy.cc: computeValFreeEnergyLiquid"]}
{"id": "C147", "title": "The command line starts the run it asks for, and its output is named after the input file", "statement": "`ampe file` starts afresh from the input file and `ampe file dir n` restarts from dump n in dir (anything else is refused with the text of usage); the log, restart files and plots go to the current directory under a name made from the input file without directory and extension unless the input gives names, so that runs with different input files do not write over each other.", "quantifier": "all command lines, all file names (with or without directories, dots in directories, extensions), all restart numbers, all entries of the input database", "why_tests_cant": "a test tries a few file names and numbers; the wrap-around of the unsigned length, files in the root directory, malformed numbers and wrong argument counts are cases among all strings", "anchors": ["source/main.cc: main", "source/AMPE.cc: initialize", "source/AMPE.h: d_pfm", "source/PFModel.cc: Initialize"]}
{"id": "C148", "title": "The solid along a side is the fraction asked for, has the composition asked for and the grains asked for", "statement": "The generator make_initial_grains_on_boundary.py writes a solid that fills the given fraction of the domain along one side, with phase values between 0 and 1; with a nominal composition the mean composition of the file is the nominal one; the solid is cut in the given number of equal grains, each plane of cells belonging to the slab that contains it; smoothing of the orientations averages each cell with its own neighbours and stays within the range of the values.", "quantifier": "all sizes of the domain, planes, numbers of grains, fractions, widths, noise draws, compositions and orientation fields", "why_tests_cant": "the tests generate a few files with fixed options and look at the simulation, not at the fraction, the mean composition, the border planes or the smoothing at the edges of the domain", "anchors": ["utils/make_initial_grains_on_boundary.py: smoothQuat", "utils/make_initial_grains_on_boundary.py: setRandomQinGrains"]}
{"id": "C149", "title": "Each sphere of the list fills the cells within its radius, across periodic borders, with its phase and composition", "statement": "The generator make_multi_spheres.py gives each sphere of the csv file its own phase field, which is 1 in the cells within the radius of the sphere or of one of its periodic images and 0 elsewhere (or the tanh profile of the given width), gives these cells the composition of the phase of the sphere and all others that of the liquid, for as many species as compositions are given.", "quantifier": "all lists of spheres, sizes of the domain (also with one plane of cells), texts of the option of periodicity, widths, lists of compositions", "why_tests_cant": "the tests use a few lists of spheres away from the borders and do not look at the cells across a periodic border, at equal compositions or at discs of a few cells", "anchors": ["utils/make_multi_spheres.py: distance2", "utils/make_multi_spheres.py: distance2_1d_x"]}
{"id": "C150", "title": "The file of spheres holds the spheres asked for", "statement": "The generator make_sphere.py writes, for one sphere, two spheres or n random spheres, the inside values of phase, orientation and composition in the cells within the radius of a sphere and the outside values elsewhere; the default sphere sits in the middle of the domain, --cx/--cy/--cz shift it; the orientations inside and outside differ by the angle asked for (or are the ones given); random spheres lie inside the domain.", "quantifier": "all options (numbers of spheres, sizes, centres, radii, angles, lengths of the orientation, presence of orientations), all random draws, all cells", "why_tests_cant": "the tests call the script with a few options; options that always fail, half angles, lost signs and the draws of random spheres are not covered by a finite number of calls", "anchors": ["utils/make_sphere.py: rotateByOctant", "utils/quat.py: makeNormalizedQuat"]}
{"id": "C151", "title": "A closed sample of a melt comes to rest", "statement": "Along any run from time 0 on in a closed sample, whatever the initial phase and temperature, the rates of phase and temperature in every cell tend to zero, all cells get the same temperature, namely the starting mean plus the latent heat of what has solidified since, and every limit of the fields along a sequence of times is a state in which no cell moves.  The same holds for the phase alone when the free energies of the phases are given.", "quantifier": "for all sample sizes, mesh widths, interface parameters, latent heats, heat capacities, conductivities, mobilities between two positive bounds (changing in space and time), initial fields, and all runs (curves of fields that follow the code's rates)", "why_tests_cant": "It speaks about the limit of infinite time for all initial fields; a finite run cannot show that no run oscillates or creeps for ever.", "anchors": ["source/PhaseRHSStrategyWithQ.cc: PhaseRHSStrategyWithQ::evaluateRHS", "source/DeltaTemperatureFreeEnergyStrategy.cc: DeltaTemperatureFreeEnergyStrategy::addDrivingForce", "source/TemperatureFreeEnergyStrategy.cc: TemperatureFreeEnergyStrategy::addDrivingForce", "source/fortran/2d/quatrhs.m4: computerhstemp"]}
{"id": "C152", "title": "A grain structure comes to rest", "statement": "In a closed sample of a polycrystal described by several order parameters, with a mobility that stays between two positive bounds, order parameters stay bounded at all times, the rate of every order parameter in every cell tends to zero as time goes on, and every state the run approaches is one in which nothing moves.", "quantifier": "all numbers of order parameters, sample sizes, spacings, gamma >= 0, m > 0, mobilities varying in space and time, both stencils in 2D, 3D, no / two-phase / three-phase driving forces, all start states and all times", "why_tests_cant": "A statement about the limit of infinite time for every start state; a test can only integrate for a while from a few starts.", "anchors": ["source/MultiOrderRHSStrategy.cc: evaluateRHS", "source/fortran/2d/multiorder.m4: computerhsmultiorder", "source/fortran/3d/multiorder.m4: computerhsmultiorder"]}
{"id": "C153", "title": "A grain structure has exactly one history", "statement": "The equations the program integrates for the order parameters of a polycrystal without driving force (MultiOrderRHSStrategy, periodic domain, mobilities that do not depend on time) can be solved for all times from any initial order parameters, also ones outside [0,1]: no order parameter becomes infinite. Two integrations that start with the same order parameters agree at all later times, and every such integration comes to rest when the mobilities are positive. This holds in 2D for both stencils and in 3D.", "quantifier": "all numbers of order parameters, domain sizes, mesh spacings, mobilities, gamma >= 0, m > 0, initial states and times", "why_tests_cant": "A test integrates a few start states up to a finite time; it cannot rule out a start from which the order parameters blow up later, nor a second solution.", "anchors": ["source/MultiOrderRHSStrategy.cc: evaluateRHS", "source/fortran/2d/multiorder.m4: computerhsmultiorder", "source/fortran/3d/multiorder.m4: computerhsmultiorder"]}
{"id": "C154", "title": "The generator of four grains puts one crystal in every corner", "statement": "utils/make4corners.py writes an initial state with a quarter-round solid grain of radius nx/2 about each corner of the domain. A cell is solid exactly when its centre lies in the ball about a corner; every cell gets the orientation of the corner whose quarter of the domain holds it, the four orientations differ, and they are unit quaternions with the number of components asked for.", "quantifier": "all domain sizes nx, ny, nz, all numbers of components, all cells", "why_tests_cant": "A test generates one small square file and looks at it; it does not show what happens in domains of other shapes, deep cells or other numbers of components.", "anchors": ["utils/make4corners.py: distancemax", "utils/make4corners.py: distance2"]}
{"id": "C155", "title": "A grain structure between walls has exactly one history and comes to rest", "statement": "In a box with physical boundaries of zero slope on all sides (in the input: the order parameters' boundary conditions with slope 0), a multi-order-parameter grain structure without driving force has, from every initial state, exactly one history for all later times when the ghost cells are filled by the boundary helper, and with positive mobilities every order parameter comes to rest in every cell. Nothing depends on the values the ghost cells held before.", "quantifier": "for all numbers of order parameters, box sizes, mesh sizes, eps, gamma >= 0, m > 0, mobilities of the cells, boundary coefficients with a = 0, b /= 0, g = 0, initial states; 2D (both stencils) and 3D", "why_tests_cant": "existence and uniqueness for all times and the limit for large times are statements about infinitely many states; a test runs a finite time from one state", "anchors": ["source/MultiOrderRHSStrategy.cc: evaluateRHS", "source/fortran/2d/multiorder.m4: computerhsmultiorder", "source/fortran/3d/multiorder.m4: computerhsmultiorder", "source/CartesianRobinBcHelperWithDepth.cc: setBoundaryValuesInCells"]}
{"id": "C156", "title": "The script that changes an input parameter changes nothing else", "statement": "substituteInputParameter.py prints its input file with the value of the given parameter replaced on the lines that set it, all other lines unchanged and in order.", "quantifier": "for all input files (lists of lines), all parameter names and all new values", "why_tests_cant": "The script goes wrong only for particular combinations of lines (several blocks with the same parameter, an equals sign without blanks); a test with one sample input does not show it.", "anchors": ["utils/substituteInputParameter.py"]}
{"id": "C157", "title": "The table of volume fractions has the right times", "statement": "volfracvstime.py, run on the log of a simulation, prints every volume fraction that was evaluated, in order, with the simulated time at which it was evaluated, whatever the schedules of the outputs.", "quantifier": "for all runs (silent or not), all numbers of passes, all schedules of time prints and scalar diagnostics, and all numbers of other lines in the log", "why_tests_cant": "The time of an entry is found by searching the log upwards through whatever other lines happen to be printed; a sample log exercises one layout of the lines.", "anchors": ["utils/volfracvstime.py", "source/PFModel.cc: Run", "source/QuatModel.cc: printScalarDiagnostics", "source/EventInterval.cc: hasIntervalPassed"]}
{"id": "C158", "title": "A melt has exactly one history and comes to rest", "statement": "In a closed sample with the linear phase interpolation the coupled equations of phase and temperature of a pure melt have, from every initial state, exactly one history for all later times (the phase may start outside 0..1, the temperature anywhere); with positive mobilities and conductivity all rates tend to zero and the temperature becomes uniform.", "quantifier": "for all sample sizes, mesh sizes, interface coefficients, well heights > 0, melting temperatures > 0, latent heats, heat capacities > 0, conductivities, mobilities of the cells, initial phases and temperatures; both thermal driving forces; 2D and 3D", "why_tests_cant": "Existence and uniqueness for all times and the limit for large times concern infinitely many states; a test runs a finite time from one state.", "anchors": ["source/PhaseRHSStrategyWithQ.cc: evaluateRHS", "source/DeltaTemperatureFreeEnergyStrategy.cc: addDrivingForce", "source/TemperatureFreeEnergyStrategy.cc: addDrivingForce", "source/SimpleTemperatureRHSStrategy.cc", "source/fortran/2d/quatrhs.m4: computerhstemp", "source/fortran/3d/quatrhs.m4: computerhstemp"]}
{"id": "C159", "title": "A melt between insulating walls has exactly one history and comes to rest", "statement": "In a box whose walls let neither phase nor heat through, a pure melt with its latent heat has, from any initial phase and temperature field, exactly one history for all time: it never blows up, and two runs from the same start cannot differ. With positive mobilities and conductivity the phase and the temperature of every cell stop changing and all cells of the box approach one temperature.", "quantifier": "for all box sizes, mesh spacings, interface coefficients, latent heats, non-negative mobility fields (positive for rest), both tests of the free energy kind, any coefficients of a zero-gradient boundary condition, all initial fields and all times, in 2D and 3D", "why_tests_cant": "Global existence, uniqueness and the limit for infinite time are statements about all real times and all initial fields; a run covers a finite time of one start.", "anchors": ["source/PhaseRHSStrategyWithQ.cc: evaluateRHS", "source/DeltaTemperatureFreeEnergyStrategy.cc: addDrivingForce", "source/fortran/2d/quatrhs.m4: computerhstemp", "source/CartesianRobinBcHelperWithDepth.cc: setBoundaryValuesInCells"]}
{"id": "C160", "title": "The scripts that tabulate grain volumes and coring pair every value with its time", "statement": "For a log with any number of grain reports, grainVolumesEvolution.py prints for every grain number the volumes it had beside the times at which it had them, evenly thinned out for long runs; grainCoringEvolution.py does the same for the composition deviations and works for short logs too.", "quantifier": "for all logs: any number of reports, any numbers of grains per report, any times and volumes", "why_tests_cant": "The misplacement depends on when grains appear and vanish and on which cycle lines are printed; a test log has one such history.", "anchors": ["utils/grainVolumesEvolution.py: main", "utils/grainCoringEvolution.py: main", "source/Grains.cc: computeGrainVolumes", "source/PFModel.cc: Run"]}
{"id": "C161", "title": "The script that makes grain size distributions uses every report under its own time", "statement": "grainSizeDistribution.py stores the volumes of every report under the time of the report, and prints for each time the middles of 20 equal intervals and beside them the shares of the grains in them, which add up to one.", "quantifier": "for all logs, all volumes and all states of the dictionary", "why_tests_cant": "Which line follows a report depends on the output options of a run; the shares must be right for every set of volumes, also at interval ends.", "anchors": ["utils/grainSizeDistribution.py: main", "source/Grains.cc: computeGrainVolumes", "source/PFModel.cc: Run", "source/QuatModel.cc: computeGrainDiagnostics"]}
{"id": "C162", "title": "A thermodynamic database may be given in input syntax or as JSON", "statement": "A run with the CALPHAD model started from a database in input syntax, and one started from the same database converted with convertDatabase2JSON, hand the same parameters to all their parts, for every choice of mobility, diffusion and partitioning; the section NewtonSolver is optional.", "quantifier": "for all databases, all file names and all combinations of the options", "why_tests_cant": "The parts read the file independently of each other; a combination of options that no test uses may contain a part that reads only one of the two syntaxes.", "anchors": ["source/FreeEnergyStrategyFactory.h: create", "source/PhaseConcentrationsStrategyFactory.h: create", "source/KimMobilityStrategy.cc: KimMobilityStrategy", "source/AzizPartitionCoefficientStrategy.cc: AzizPartitionCoefficientStrategy", "source/CompositionStrategyMobilities.cc: CompositionStrategyMobilities", "source/diagnostics.cc: preRunDiagnosticsMobilityInPhases", "source/MobilityFactory.h: create", "drivers/convertDatabase2JSON.cc: main"]}
{"id": "C163", "title": "The scripts for linear initial profiles write the profile they describe", "statement": "For any number of columns, make_init_1d.py writes a composition and a temperature that are linear on both sides of the middle of the domain with the given values in the middle and at the ends, and add_temperature.py writes a temperature rising linearly with the given mean.", "quantifier": "for all numbers of columns and all columns", "why_tests_cant": "Integer division makes the result depend on the parity of the number of columns; a test uses one number.", "anchors": ["utils/make_init_1d.py: main", "utils/add_temperature.py: main"]}
{"id": "C164", "title": "Nuclei with Bain orientations are spheres with the composition and orientations asked for", "statement": "make_nucleiBain.py (and its 2D variant) sets exactly the cells within the radius of a nucleus or its periodic images, nuclei do not overlap, each has one of the three unit rotations by 45 degrees about an axis, and the mean composition is the nominal one with no negative values.", "quantifier": "for all box sizes, numbers and positions of nuclei, radii, phases, compositions and numbers of orientation components", "why_tests_cant": "Cut spheres appear only in boxes with unequal sides and nuclei at certain places; a test has one box and one random seed.", "anchors": ["utils/make_nucleiBain.py: main", "utils/make_nucleiBain2D.py: main", "utils/quat.py: makeNormalizedQuat"]}
{"id": "C165", "title": "Profiles along a line are those of the dumps", "statement": "For every dump and field, the profile plotted by plotConcentrations.py from the files of lineplotPhiQuat.py consists of all points of the line drawn through that field of that dump, in their order.", "quantifier": "all dumps, sets of fields, curves of any number of points, field names, times and number formats without blanks or '#'", "why_tests_cant": "A plot without its first point, or a curve under another dump's name, looks like a correct plot; the scripts need VisIt and are run by no test.", "anchors": ["utils/lineplotPhiQuat.py: plotting loop, extraction loop", "utils/plotConcentrations.py: np.loadtxt"]}
{"id": "C166", "title": "Optional blocks of the input are independent", "statement": "A block Visit, Symmetry, GrainDiagnostics or GrainExtension that is left out switches its feature off and nothing else; each feature works without the other blocks; an entry left out of a block has its documented default.", "quantifier": "all combinations of blocks, entries, interval types and values, numbers of mesh levels and orientation parameters", "why_tests_cant": "The number of combinations is unbounded; members that were never set usually happen to hold zero, so a test passes.", "anchors": ["source/QuatModel.cc: Initialize, resetHierarchyConfiguration, Advance, resetGrains", "source/QuatModelParameters.cc: readVisitOptions", "source/Grains.cc: Grains, registerVariables, resetHierarchyConfiguration", "source/EventInterval.cc: EventInterval"]}
{"id": "C167", "title": "Choice of the temperature model", "statement": "Each documented value of Temperature.type gives its temperature model whatever the case of the first letter; a steady heat equation runs with exactly the source the input describes, in pJ/um^3, and an input that does not describe the source completely is refused with a message.", "quantifier": "For all texts of type, equation_type and heat_source_type, all lists of source coefficients, all molar volumes, all combinations of optional blocks, builds with and without assertions.", "why_tests_cant": "No test input uses the steady equation or a heat source; wrong spellings and incomplete blocks form an unbounded set of inputs, and the out-of-bounds read and null dereference are undefined behaviour that a passing test cannot exclude.", "anchors": ["source/QuatModelParameters.cc: readTemperatureModel", "source/TemperatureStrategyFactory.cc: create", "source/SteadyStateTemperatureCompositionSource.cc: setCurrentTemperature", "source/SteadyStateTemperatureGaussianSource.cc: SteadyStateTemperatureGaussianSource", "source/fortran/2d/temperature.m4: source_temperature"]}
