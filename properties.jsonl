{"id": "C01", "title": "Local grid encloses its coarse cell and never leaves the domain", "statement": "The local grid built for a coarse cell is an axis-parallel box that contains the whole coarse cell, is contained in the computational domain, extends the cell by at most the requested number of oversampling layers, and is extended by exactly that many layers on every side where the domain leaves enough room.", "quantifier": "for every dimension, domain box, coarse cell inside the domain, number of fine cells per coarse cell >= 1 and number of oversampling layers >= 0", "why_tests_cant": "Tests fix four grid configurations; the clipping arithmetic depends on cell position, micro cell count and layer count, an unbounded family.", "anchors": ["dune/multiscale/msfem/localproblems/localgridlist.cc: LocalGridList::LocalGridList", "dune/multiscale/common/mygridfactory.hh: MyGridFactory::createCubeGrid"]}
{"id": "C02", "title": "Local grids resolve exactly the fine mesh", "statement": "In every direction the number of cells of the local grid times the fine mesh width equals the extent of the local grid, so that cells of the local grid are cells of the fine grid.", "quantifier": "for every coarse grid size, every coarse cell in it, every number of micro cells per macro cell and every number of oversampling layers", "why_tests_cant": "The defect only shows for particular combinations of cell position, micro cells and oversampling layers; only an argument over all combinations separates the good from the bad ones.", "anchors": ["dune/multiscale/msfem/localproblems/localgridlist.cc: LocalGridList::LocalGridList (elements_per_dim)"]}
{"id": "C03", "title": "Local cells attributed to a coarse cell tile it exactly", "statement": "Coarse assembly integrates over those local-grid cells whose centre lies in the coarse cell. These cells are pairwise non-overlapping, all lie in the coarse cell, their number is the product of the micro cells per direction and their volumes add up to the volume of the coarse cell: no part of the coarse cell is integrated twice or not at all.", "quantifier": "for every dimension, coarse cell, micro cell vector and oversampling layer count for which the local grid is aligned (C02)", "why_tests_cant": "A statement about all cells of all grids of all sizes; tests only compare final error norms.", "anchors": ["dune/multiscale/msfem/localproblems/localgridlist.cc: LocalGridList::covers", "dune/multiscale/msfem/coarse_scale_assembler.cc: MsFemCodim0Matrix::assembleLocal", "dune/multiscale/msfem/coarse_rhs_functional.cc: CoarseRhsFunctional::assembleLocal"]}
{"id": "C04", "title": "The fine grid is nested in the coarse grid", "statement": "Both grids cover the same box, the fine grid has micro-cells-per-macro-cell times as many cells per direction, every fine cell lies in exactly one coarse cell and every coarse cell contains exactly the product of the micro cell counts many fine cells.", "quantifier": "for every dimension, domain box, coarse cell vector and micro cell vector with positive entries", "why_tests_cant": "Tests check corner inclusion on four configurations.", "anchors": ["dune/multiscale/common/grid_creation.cc: setup, make_coarse_grid, make_fine_grid"]}
{"id": "C05", "title": "Coarse overlap is the least number of coarse layers holding the oversampling layers", "statement": "The overlap requested for the coarse grid in each direction is the smallest number of coarse layers whose micro cells cover the oversampling layers, and evaluating the quotient in double precision does not change the result.", "quantifier": "for all layer counts below 2^31, all micro cell counts between 1 and 2^31, and every rounding of the division with relative error at most 2^-53 that is exact on integers", "why_tests_cant": "Rounding behaviour of ceil(a/b) in floating point cannot be exhausted by testing.", "anchors": ["dune/multiscale/common/grid_creation.cc: setup (coarse_overlap)"]}
{"id": "C06", "title": "Anisotropic overlap is rejected exactly when it would be misrepresented", "statement": "Grid creation on the YaspGrid back end throws exactly when the overlaps differ between directions; when it does not throw, the grid gets the requested overlap in every direction. Consequently coarse grid creation throws exactly when the per-direction overlaps derived from oversampling and micro cells differ.", "quantifier": "for all dimensions, all overlap vectors, all oversampling layer counts and micro cell vectors", "why_tests_cant": "Decision over an unbounded family of configurations.", "anchors": ["dune/multiscale/common/mygridfactory.hh: MyGridFactory<YaspGrid>::createCubeGrid", "dune/multiscale/common/grid_creation.cc: make_coarse_grid"]}
{"id": "C07", "title": "The check against a degenerate parallel distribution", "statement": "Coarse grid creation throws exactly when several processes take part and the calling process owns every cell of the coarse grid.", "quantifier": "for every number of processes, every coarse cell vector, every number of overlap layers and every distribution of the cells", "why_tests_cant": "The product of the cell counts is computed in 32-bit unsigned arithmetic; overflow needs grids no test builds.", "anchors": ["dune/multiscale/common/grid_creation.cc: make_coarse_grid (expected_elements)"]}
{"id": "C08", "title": "A successful point search returns an element for every point, all in one covering coarse cell", "statement": "When LocalGridSearch returns for a nonempty point list, it returned exactly one local-grid element per point, in the order of the points, each element contains its point, and the coarse cell it reports as current contains all points.", "quantifier": "for every coarse grid, every traversal order, every history of earlier successful searches, every nonempty list of points, every local element search that answers for all points of a covered cell", "why_tests_cant": "The search keeps iterator state between calls: the result must be correct for all histories.", "anchors": ["dune/multiscale/msfem/localproblems/localgridsearch.cc: LocalGridSearch::operator()", "dune/multiscale/msfem/localproblems/localgridsearch.hh"]}
{"id": "C09", "title": "Point search terminates and succeeds whenever a coarse cell covers the points", "statement": "A search over a grid with at least two cells performs at most (grid size times number of iterated cells) visits, returns successfully if some iterated coarse cell covers the points, wherever the previous successful search stopped, and throws if none does.", "quantifier": "for every grid with view size at least 2, every start position, every point list", "why_tests_cant": "Liveness over arbitrary histories is not observable in finitely many runs.", "anchors": ["dune/multiscale/msfem/localproblems/localgridsearch.cc: LocalGridSearch::operator()"]}
{"id": "C10", "title": "Point search works on a one-cell coarse grid and is reusable after a failure", "statement": "If the coarse grid has a single cell and the points lie in it, the search succeeds; and after a search has thrown, the object can be used again.", "quantifier": "for every one-cell grid and every point list in the cell; for every history including failed searches", "why_tests_cant": "Requires reasoning about iterator state on all paths; the minimal test configuration never runs the search to the end of the grid.", "anchors": ["dune/multiscale/msfem/localproblems/localgridsearch.cc: LocalGridSearch::operator()"]}
{"id": "C11", "title": "The in-memory solution store behaves like a map from coarse cells to lists", "statement": "Seen from a single thread, the store is a finite map from keys to lists of discrete functions: asking twice for the same key gives the same list, other keys are unaffected by appending, reading index i yields the i-th appended function and throws exactly when i is not below the number appended; clearing empties everything.", "quantifier": "for every sequence of get, append, read and clear operations over any keys", "why_tests_cant": "Refinement over all operation histories.", "anchors": ["dune/multiscale/common/df_io.hh: MemoryBackend, DiscreteFunctionIO::get", "dune/multiscale/common/df_io.cc: get_memory, clear"]}
{"id": "C12", "title": "Solution locations are decoded to the coarse cell index they were built from", "statement": "The key under which the solutions of a coarse cell are stored is the index of the cell: formatting the location string and extracting the key gives back the index, so different coarse cells never share a list.", "quantifier": "for every natural number index", "why_tests_cant": "Round trip of number formatting and parsing over all naturals.", "anchors": ["dune/multiscale/msfem/localproblems/localsolutionmanager.cc: localSolutionLocation_", "dune/multiscale/common/df_io.cc: DiscreteFunctionIO::get_memory"]}
{"id": "C13", "title": "Concurrent use of the solution store creates each list exactly once", "statement": "When several threads request lists from the store, all requests for one key receive the same list, no list is lost and no request fails.", "quantifier": "for every number of threads, every assignment of keys and every interleaving of their lookups and insertions", "why_tests_cant": "The lookup is made outside the lock; failing interleavings are rare and unpredictable.", "anchors": ["dune/multiscale/common/df_io.hh: DiscreteFunctionIO::get", "dune/multiscale/msfem/localproblems/localproblemsolver.cc: LocalProblemSolver::solve_for_all_cells"]}
{"id": "C14", "title": "Local solutions are recovered unchanged by later phases", "statement": "After all coarse cells have been solved and saved, loading the solutions of a cell through a freshly constructed manager yields the functions saved for that cell, in order and with unchanged values; processing order of the cells does not matter.", "quantifier": "for every set of distinct cells, every order of solving, every values, every order of loading through fresh managers", "why_tests_cant": "Functions are handed over by shared reference; absence of aliasing damage needs all histories.", "anchors": ["dune/multiscale/msfem/localproblems/localsolutionmanager.cc: load, save", "dune/multiscale/msfem/localproblems/localproblemsolver.cc: solve_for_all_cells"]}
{"id": "C15", "title": "Loading local solutions is repeatable", "statement": "Calling load twice on the same manager, or load on the manager that saved, leaves the stored solutions unchanged and yields the same values again.", "quantifier": "for every stored solution list and every manager history", "why_tests_cant": "Aliasing between the manager's array and the store only shows for particular call histories.", "anchors": ["dune/multiscale/msfem/localproblems/localsolutionmanager.cc: LocalproblemSolutionManager::load"]}
{"id": "C16", "title": "Fine-scale reconstruction combines correctors with the right coefficients and signs", "statement": "The correction computed for a coarse cell is the sum over its coarse basis functions of coefficient times corrector, plus the Dirichlet corrector, minus the Neumann corrector; each coarse solution coefficient meets the corrector of the same basis function.", "quantifier": "for every number of correctors, all corrector vectors and all coefficient vectors, without oversampling; with oversampling, at every degree of freedom inside the coarse cell", "why_tests_cant": "Algebraic identity over all vectors.", "anchors": ["dune/multiscale/msfem/msfem_solver.cc: Elliptic_MsFEM_Solver::identify_fine_scale_part"]}
{"id": "C17", "title": "Cutting the overlay leaves the reconstruction inside the coarse cell untouched", "statement": "With oversampling, setting degrees of freedom outside the coarse cell to zero does not change the value of the correction at any degree of freedom inside the (closed) coarse cell, is independent of the order in which elements are visited and of repetitions, and makes the basis-function part vanish at every visited point outside.", "quantifier": "for every list of visited elements with their evaluation points, every inside predicate on points, every vector", "why_tests_cant": "All element orders and all grids.", "anchors": ["dune/multiscale/msfem/msfem_solver.cc: identify_fine_scale_part (cut_overlay)"]}
{"id": "C18", "title": "Reconstruction can be repeated on the same stored correctors", "statement": "Running the fine-scale reconstruction twice from the same stored local solutions gives the same correction.", "quantifier": "for every stored corrector list and coefficient vector", "why_tests_cant": "In-place scaling of shared functions is invisible in a single run.", "anchors": ["dune/multiscale/msfem/msfem_solver.cc: identify_fine_scale_part"]}
{"id": "C19", "title": "Correctors of boundary values vanish away from the domain boundary", "statement": "For a coarse cell without boundary faces both boundary correctors are identically zero, and every other local solution solves its local system; the number of local solutions equals the number of coarse basis functions plus the number of boundary correctors.", "quantifier": "for every coarse cell, right-hand side list, and local solver that satisfies its equation", "why_tests_cant": "All cells, all right-hand sides, all initial contents of the output vectors.", "anchors": ["dune/multiscale/msfem/localproblems/localproblemsolver.cc: solve_all_on_single_cell", "dune/multiscale/msfem/localproblems/localoperator.cc: assemble_all_local_rhs"]}
{"id": "C20", "title": "All phases agree on which slot holds which corrector", "statement": "The slot in which the local right-hand side assembly puts the Neumann (Dirichlet) corrector is the slot from which coarse right-hand side assembly and reconstruction read it, all slots used are within the list of local solutions, and on simplex grids the computation is refused before any slot is used.", "quantifier": "for every number of coarse basis functions, cube or simplex grids", "why_tests_cant": "Cross-module index agreement for all element types.", "anchors": ["dune/multiscale/msfem/localproblems/localsolutionmanager.cc: constructor", "dune/multiscale/msfem/localproblems/localoperator.cc: BoundaryValueHelper", "dune/multiscale/msfem/coarse_rhs_functional.cc: CoarseRhsFunctional::apply", "dune/multiscale/msfem/msfem_solver.cc: identify_fine_scale_part"]}
{"id": "C21", "title": "The local solve returns the solution of the local system for every solver choice", "statement": "Whatever linear solver type is configured for local problems, a local solve that does not throw returns a vector that solves the local system for the given right-hand side and leaves the right-hand side unchanged.", "quantifier": "for every solver type, matrix, right-hand side, and linear solver obeying its contract", "why_tests_cant": "The tests run only the default solver type; the argument order of the generic branch needs a contract-level argument.", "anchors": ["dune/multiscale/msfem/localproblems/localoperator.cc: LocalProblemOperator::apply_inverse"]}
{"id": "C22", "title": "The coarse system matrix does not depend on the order of assembly", "statement": "Each entry of the assembled coarse matrix equals the sum, over coarse cells and the local cells attributed to them, of the local integrals for the pair of basis functions; the value does not depend on the order in which cells are visited nor on stale contents of temporary storage.", "quantifier": "for every list of cells with attributed local cells, dof maps, local integrals, every permutation of the cells, every initial temporary storage; exact arithmetic", "why_tests_cant": "All traversal orders and schedules.", "anchors": ["dune/multiscale/msfem/coarse_scale_assembler.cc: MsFemCodim0Matrix::assembleLocal, MsFEMCodim0Integral::apply", "dune/multiscale/msfem/coarse_scale_operator.cc: CoarseScaleOperator::CoarseScaleOperator"]}
{"id": "C23", "title": "The coarse system inherits symmetry and non-negativity", "statement": "If the diffusion tensor is symmetric (positive semidefinite) at every quadrature point, the assembled coarse matrix, before boundary conditions, is symmetric (its quadratic form is non-negative) and its quadratic form is the diffusion energy of the multiscale gradient of the coarse function.", "quantifier": "for every mesh, quadrature with positive weights, gradients of basis functions and correctors", "why_tests_cant": "Algebraic property for all data.", "anchors": ["dune/multiscale/msfem/coarse_scale_assembler.cc: MsFEMCodim0Integral::apply"]}
{"id": "C24", "title": "The coarse load vector is the multiscale load functional", "statement": "Each entry of the coarse right-hand side equals the sum over attributed local quadrature points of weight times (source times multiscale basis value minus diffusive flux of the boundary lifting times multiscale basis gradient), independent of order and of stale contents; the boundary lifting is Dirichlet extension plus Dirichlet corrector minus Neumann corrector.", "quantifier": "for every mesh, quadrature, source, diffusion, correctors; every order", "why_tests_cant": "All orders and all data.", "anchors": ["dune/multiscale/msfem/coarse_rhs_functional.cc: CoarseRhsFunctional::apply, assembleLocal"]}
{"id": "C25", "title": "The coarse solution attains the Dirichlet values and satisfies the Galerkin equations", "statement": "If the linear solver solves the constrained system, the returned coarse function equals the Dirichlet extension at every constrained degree of freedom and satisfies the unconstrained equation at every other one; it is the only such function whenever the free-free block is injective.", "quantifier": "for every matrix, load, Dirichlet extension and constrained set; every solver obeying its contract", "why_tests_cant": "Linear algebra identity over all systems.", "anchors": ["dune/multiscale/msfem/coarse_scale_operator.cc: CoarseScaleOperator constructor, apply_inverse"]}
{"id": "C26", "title": "The fine reference solve does not depend on what the output function held before", "statement": "The standard FEM solver returns a function equal to the Dirichlet data at the constrained degrees of freedom and satisfying the equations at the others, whatever the previous content of the output function; with a uniquely solvable system, solving twice into the same function gives the same result.", "quantifier": "for every previous content, matrix, load, Dirichlet data", "why_tests_cant": "History independence over all previous contents.", "anchors": ["dune/multiscale/msfem/fem_solver.cc: Elliptic_FEM_Solver::apply"]}
{"id": "C27", "title": "A failed or invalid coarse solve never yields a result", "statement": "The coarse solve returns normally only if the linear solver reported no failure and every solution coefficient is a valid number; otherwise it throws an invalid-state error.", "quantifier": "for every outcome of the linear solver", "why_tests_cant": "Failure paths of an external solver are not reachable in tests.", "anchors": ["dune/multiscale/msfem/coarse_scale_operator.cc: CoarseScaleOperator::apply_inverse"]}
{"id": "C28", "title": "Projection to the fine grid preserves nodal values", "statement": "Projecting the multiscale solution to the fine grid gives at every fine grid node the value of the solution there; in particular constants are reproduced.", "quantifier": "for every fine grid, every multiscale solution single-valued at nodes", "why_tests_cant": "The averaging at shared nodes must be right for every node multiplicity.", "anchors": ["dune/multiscale/common/heterogenous.cc: MsFEMProjection::project, postprocess, identifySharedNodes"]}
{"id": "C29", "title": "The set of reported error quantities is determined by what was available", "statement": "The map returned by the error computation contains exactly the documented keys for the available combination of exact solution, multiscale solution and reference solution; every key the statistics output reads has been entered before.", "quantifier": "for every combination of availabilities including failing reference solves, and every error value", "why_tests_cant": "Keyed lookups on rarely taken branches.", "anchors": ["dune/multiscale/common/error_calc.cc: ErrorCalculator::print", "dune/multiscale/common/error_calc.hh"]}
{"id": "C30", "title": "errors.csv can be read back", "statement": "Splitting the two lines of errors.csv at commas and pairing columns gives back exactly the map of reported errors, in key order.", "quantifier": "for every finite map whose keys and printed values contain neither comma nor newline", "why_tests_cant": "Round trip over all maps.", "anchors": ["dune/multiscale/common/error_calc.cc: ErrorCalculator::print (errors.csv)"]}
{"id": "C31", "title": "Visualisation files never overwrite each other", "statement": "All files written by one error computation have different names, whatever the names of the visualised functions; correction files of different coarse cells or ranks have different names.", "quantifier": "for all function names, all ranks and coarse cell indices, all output directories", "why_tests_cant": "Number formatting with padding over all indices; arbitrary function names.", "anchors": ["dune/multiscale/tools/misc/outputparameter.cc: OutputParameters::fullpath", "dune/multiscale/common/error_calc.cc: solution_output", "dune/multiscale/msfem/localsolution_proxy.cc: visualize_parts", "dune/multiscale/msfem/msfem_solver.cc"]}
{"id": "C32", "title": "Memory statistics are consistent", "statement": "The mean peak memory written by rank 0 never exceeds the maximum and is never below the minimum over ranks; the file has as many values as header columns and only rank 0 writes it.", "quantifier": "for every number of ranks at least 1 and every per-rank peak", "why_tests_cant": "All rank counts and values; integer division.", "anchors": ["dune/multiscale/common/main_init.cc: mem_usage"]}
{"id": "C33", "title": "Problem selection is total on the registered names and rejects everything else", "statement": "Constructing the problem container succeeds at the lookup stage exactly for the registered problem names, the six parts of the container all belong to the named problem, and any other name is rejected with an invalid-state error before anything is constructed.", "quantifier": "for every string", "why_tests_cant": "All strings.", "anchors": ["dune/multiscale/problems/selector.cc: FUNCTION_MAP, make_f, ProblemContainer::ProblemContainer"]}
{"id": "C34", "title": "The synthetic diffusion is uniformly elliptic", "statement": "For every point the synthetic diffusion matrix entries on the diagonal lie between 1/(16 pi^2) and 1/(4 pi^2), independent of epsilon, so the matrix is uniformly elliptic and bounded with these constants.", "quantifier": "for every point and every nonzero epsilon, two space dimensions", "why_tests_cant": "Continuum of points and parameters.", "anchors": ["dune/multiscale/problems/synthetic.cc: Diffusion::evaluate, diffusiveFlux"]}
{"id": "C35", "title": "The exact solution of the synthetic problem comes with its true gradient", "statement": "The jacobian reported for the exact solution is the gradient of the reported value.", "quantifier": "for every point and every nonzero epsilon", "why_tests_cant": "Analytic identity over a continuum.", "anchors": ["dune/multiscale/problems/synthetic.cc: ExactSolution::evaluate, jacobian"]}
{"id": "C36", "title": "The synthetic source belongs to the synthetic exact solution", "statement": "The source equals minus the divergence of the diffusive flux of the exact solution at every point.", "quantifier": "for every point and every nonzero epsilon", "why_tests_cant": "Analytic identity over a continuum; an error of the manufactured source would look like a convergence plateau.", "anchors": ["dune/multiscale/problems/synthetic.cc: Source::evaluate"]}
{"id": "C37", "title": "Evaluating a diffusion coefficient determines the whole matrix", "statement": "The result of evaluating a diffusion coefficient depends only on the point, not on the previous content of the result object.", "quantifier": "for every registered problem, every point, every previous content, space dimension 2 and 3", "why_tests_cant": "Uninitialised memory frequently happens to be zero in tests.", "anchors": ["dune/multiscale/problems/synthetic.cc: Diffusion::evaluate", "dune/multiscale/problems/er2007.cc: Diffusion::evaluate", "dune/multiscale/problems/spe10.cc: Diffusion::evaluate, diffusiveFlux", "dune/multiscale/problems/tarbert.cc: Diffusion::evaluate", "dune/multiscale/problems/random.cc: Diffusion::evaluate", "dune/multiscale/msfem/coarse_scale_assembler.cc: MsFEMCodim0Integral::apply"]}
{"id": "C38", "title": "The ER2007 data form a manufactured solution with correct derivatives", "statement": "The source equals minus the Laplacian of the exact solution, and the jacobians of source and exact solution are the gradients of their values.", "quantifier": "for every point", "why_tests_cant": "Analytic identity over a continuum.", "anchors": ["dune/multiscale/problems/er2007.hh: Source, ExactSolution", "dune/multiscale/problems/er2007.cc: Diffusion"]}
{"id": "C39", "title": "SPE10 permeability lookup stays inside the data set", "statement": "For every point of the model domain the three lookups address valid entries of the three component blocks, and points of different cells of the 60 x 220 x 85 raster address different entries.", "quantifier": "for every point of the closed domain box", "why_tests_cant": "Continuum of points, upper faces included.", "anchors": ["dune/multiscale/problems/spe10.cc: Diffusion::evaluate"]}
{"id": "C40", "title": "SPE10 data reading either yields the full data set or fails", "statement": "After reading, every entry of the permeability array is the affinely transformed corresponding number of the file; files with too few or too many numbers are rejected with an I/O error and memory outside the array is never written.", "quantifier": "for every file content", "why_tests_cant": "All file contents.", "anchors": ["dune/multiscale/problems/spe10.cc: Diffusion::readPermeability"]}
{"id": "C41", "title": "Tarbert permeability lookup stays inside the data set", "statement": "For every point of the model domain the lookups address valid entries of the right component block and of the raster cell containing the point.", "quantifier": "for every point of the domain box, two and three dimensions", "why_tests_cant": "Continuum of points.", "anchors": ["dune/multiscale/problems/tarbert.cc: Diffusion::evaluate"]}
{"id": "C42", "title": "Tarbert data reading yields exactly the file contents", "statement": "After reading, entry i of the permeability array is the i-th number of the file, and memory outside the array is never written.", "quantifier": "for every file content", "why_tests_cant": "All file contents, including a missing final newline, excess or malformed data.", "anchors": ["dune/multiscale/problems/tarbert.cc: Diffusion::readPermeability"]}
{"id": "C43", "title": "Tarbert diffusion can be evaluated from several threads", "statement": "Two threads evaluating the diffusion at different points each obtain the value of their own point.", "quantifier": "for every pair of points and every interleaving", "why_tests_cant": "Interleavings of accesses to shared scratch members.", "anchors": ["dune/multiscale/problems/tarbert.cc: Diffusion::evaluate (permIntervalls_, permMatrix_)", "dune/multiscale/problems/tarbert.hh"]}
{"id": "C44", "title": "The process grid of the random field uses every process exactly once", "statement": "For a power-of-two number of processes the process grid has exactly as many positions as processes, its side lengths differ by at most a factor two, and the rank to position map is a bijection onto the process grid; other process counts are detected.", "quantifier": "for every number of processes, every dimension, every rank", "why_tests_cant": "Unbounded process counts.", "anchors": ["dune/multiscale/problems/random_permeability.hh: Permeability::partition, gridPosition, setRange"]}
{"id": "C45", "title": "The local blocks of the random field cover the domain and contain their overlap", "statement": "Every grid node index between 0 and N belongs to the block of some process; each block contains the process's own nodes plus the requested overlap, clipped to the field; blocks are non-empty.", "quantifier": "for every N, overlap, process grid", "why_tests_cant": "Unbounded sizes.", "anchors": ["dune/multiscale/problems/random_permeability.hh: Permeability::setRange"]}
{"id": "C46", "title": "Redistribution hands every process its part of one common field", "statement": "After redistribution the local block holds at each node the value of the global field at that node, so that two processes evaluating the field at a common node see the same value, and every remote access is within the owner's slab.", "quantifier": "for every N, number of processes dividing 2N, block range", "why_tests_cant": "Index arithmetic over all sizes.", "anchors": ["dune/multiscale/problems/random_permeability.hh: Permeability::redistribute"]}
{"id": "C47", "title": "Random permeability is positive and bounded by the neighbouring nodal values", "statement": "Every value returned is at least the positive lower cut-off, lies between the smallest and the largest of the neighbouring nodal values unless cut off, equals the nodal value at nodes, and points outside the local block are rejected with a range error.", "quantifier": "for every field, every point", "why_tests_cant": "Continuum of points and fields.", "anchors": ["dune/multiscale/problems/random_permeability.hh: Permeability::operator()"]}
{"id": "C48", "title": "Random permeability evaluation never reads outside its block", "statement": "For every point accepted by the range check, all nodal values read lie inside the local block.", "quantifier": "for every accepted point, including the upper faces of the block", "why_tests_cant": "Boundary case of a closed range check.", "anchors": ["dune/multiscale/problems/random_permeability.hh: Permeability::operator()"]}
{"id": "C49", "title": "Each request for a new random field yields a new field", "statement": "Two consecutive requests never present the same Gaussian field; a transform is computed exactly on every second request.", "quantifier": "for every number of requests", "why_tests_cant": "Toggle state over all histories.", "anchors": ["dune/multiscale/problems/random_permeability.hh: Permeability::create", "dune/multiscale/problems/random.cc: prepare_new_evaluation"]}
{"id": "C50", "title": "The circulant embedding of the covariance is symmetric and exact on the domain", "statement": "The periodic extension used to generate the random field is even and assigns to every pair of nodes of the domain the covariance of their true distance.", "quantifier": "for every resolution, every pair of nodes", "why_tests_cant": "All resolutions and node pairs.", "anchors": ["dune/multiscale/problems/random_permeability.hh: Permeability::init", "dune/multiscale/problems/random.hh: Correlation"]}
{"id": "C51", "title": "Exit status reflects success", "statement": "The programs return zero only if no exception reached the main function; every exception derived from Dune::Exception or std::exception leads to an abort of all processes.", "quantifier": "for every outcome of the algorithm", "why_tests_cant": "Failure paths.", "anchors": ["src/msfem.cc: main", "src/cgfem.cc: main", "dune/multiscale/common/main_init.cc: handle_exception, init"]}
{"id": "C52", "title": "Reported problem parameters are the ones used", "statement": "The epsilon and coarse cell information printed in the log are the values used by the computation.", "quantifier": "for every configuration, including those leaving parameters unset", "why_tests_cant": "Defaults are duplicated at several places; tests always set the parameters.", "anchors": ["dune/multiscale/fem/print_info.cc: print_info", "dune/multiscale/problems/synthetic.cc: get_eps"]}
{"id": "C53", "title": "Grid parameters used for local grids agree with those used for the global grids", "statement": "The number of micro cells per macro cell used to build the local grids is the one the fine grid was built with.", "quantifier": "for every global configuration and every configuration stored in the problem container", "why_tests_cant": "Two configuration objects may diverge in library use.", "anchors": ["dune/multiscale/msfem/localproblems/localgridlist.cc: LocalGridList::LocalGridList", "dune/multiscale/common/grid_creation.cc: setup", "dune/multiscale/msfem/algorithm.cc: msfem_algorithm"]}
{"id": "C54", "title": "Coarse basis functions enter the coarse system at the position of the quadrature point", "statement": "The coarse matrix and load vector are those of the multiscale basis functions: at every quadrature point of a local cell, the coarse basis function and its gradient are taken at the position of that point in the coarse cell.", "quantifier": "for every coarse cell with any local grid, every quadrature rule, every diffusion and source", "why_tests_cant": "With constant coefficients on an equidistant local grid the two evaluations give the same sums for many test cases, so convergence tests on smooth data see only a slightly different error; the deviation depends on local grid, quadrature and coefficient.", "anchors": ["dune/multiscale/msfem/coarse_scale_assembler.cc: MsFEMCodim0Integral::apply", "dune/multiscale/msfem/coarse_rhs_functional.cc: RhsCodim0Integral::apply", "dune/multiscale/msfem/diffusion_evaluation.hh: CoarseBasisProduct::evaluate"]}
{"id": "C55", "title": "The Tarbert diffusion can be created, used and destroyed without undefined behaviour", "statement": "Constructing the diffusion, evaluating it any number of times and destroying it is well-defined; if the data file is missing, evaluation reports an I/O error.", "quantifier": "for every file content, every sequence of evaluation points", "why_tests_cant": "Mismatched allocation and release usually goes unnoticed at run time, and the data file is not part of the repository.", "anchors": ["dune/multiscale/problems/tarbert.cc: Diffusion::Diffusion, ~Diffusion, readPermeability, evaluate", "dune/multiscale/problems/tarbert.hh"]}
{"id": "C56", "title": "The generated Gaussian field has the requested covariance", "statement": "Between any two nodes of the unit cube the generated Gaussian field has the covariance requested for the difference of the nodes; the two fields obtained from one transform are uncorrelated.", "quantifier": "for every resolution, correlation length and standard deviation, every pair of nodes, two and three dimensions", "why_tests_cant": "A statement about a distribution: samples of a field with a slightly wrong covariance look as plausible as those of the right one, and eigenvalues become negative only for some parameters.", "anchors": ["dune/multiscale/problems/random_permeability.hh: Permeability::init, create", "dune/multiscale/problems/random.hh: Correlation"]}
{"id": "C57", "title": "A point which the local search does not find cannot be answered with another point's element", "statement": "If a cell's local grid search finds only some of the points (rounding at cell faces, holes in the local grid), the point search either fails or still returns, at every position, an element containing the point at that position.", "quantifier": "for every number of coarse cells, every set of points, every outcome of the local searches, every previous use of the search object", "why_tests_cant": "Only points that a covering cell misses trigger it, which depends on rounding in the local search; the answer returned then is a valid element, just not one containing the point, so nothing crashes.", "anchors": ["dune/multiscale/msfem/localproblems/localgridsearch.cc: LocalGridSearch::operator()"]}
{"id": "C58", "title": "Inside a coarse cell the reconstructed solution is the fine-scale solution with the coarse solution's boundary values", "statement": "Without oversampling, in every coarse cell the reconstruction (coarse solution plus its linear combination of local correctors plus boundary correctors) satisfies the local fine-scale equation with the Neumann data, at every unconstrained node, and equals the coarse solution at every constrained node; in a cell without boundary faces it is a-harmonic.", "quantifier": "for every coefficient, every local grid, every coarse solution, every Dirichlet extension, every number of assembly passes, every solver meeting its contract", "why_tests_cant": "The error of a reconstruction is compared with a tolerance against a reference solution on one grid; a wrong boundary corrector changes only the cells at the boundary and only with inhomogeneous data.", "anchors": ["dune/multiscale/msfem/diffusion_evaluation.hh: CoarseBasisProduct, DirichletProduct", "dune/multiscale/msfem/localproblems/localoperator.cc: LocalProblemOperator", "dune/multiscale/msfem/msfem_solver.cc: identify_fine_scale_part", "dune/multiscale/msfem/localsolution_proxy.cc: add", "dune/multiscale/msfem/coarse_scale_operator.cc: apply_inverse"]}
{"id": "C59", "title": "Neumann data act with the same sign in the correctors as in the global systems", "statement": "The residual of the reconstructed solution in a coarse cell at the Neumann boundary is the one of the global fine-scale system with the same data: the boundary integral enters both with the same sign.", "quantifier": "for every coefficient, every local grid, every Neumann data, every coarse solution", "why_tests_cant": "Only problems with inhomogeneous Neumann data show it; the result stays bounded and plausible and the difference resembles a discretisation error near the boundary.", "anchors": ["dune/multiscale/msfem/localproblems/localoperator.cc: assemble_all_local_rhs", "dune/multiscale/msfem/msfem_solver.cc: identify_fine_scale_part", "dune/multiscale/msfem/fem_solver.cc: Elliptic_FEM_Solver::apply", "dune/multiscale/msfem/coarse_scale_operator.cc: CoarseScaleOperator"]}
{"id": "C60", "title": "Boundary conditions of the problems are complete and their data act", "statement": "For every problem, every boundary face of the domain is of exactly one type, at least one face is a Dirichlet face, the faces are the documented ones for every normal computed up to the tolerance, and the nonzero Neumann data lie on Neumann faces and so enter the global systems.", "quantifier": "for every problem, two and three dimensions, every comparison meeting the tolerance contract, every perturbation of the normals below the tolerance, every boundary point", "why_tests_cant": "A wrong face type gives another well-posed problem that is solved without complaint; whether all normals for all rounding errors are classified is a universal statement.", "anchors": ["dune/multiscale/problems/synthetic.cc: boundary_settings", "dune/multiscale/problems/random.cc: boundary_settings", "dune/multiscale/problems/spe10.cc: boundary_settings, NeumannData", "dune/multiscale/problems/tarbert.cc: boundary_settings, NeumannData"]}
{"id": "C61", "title": "Local correctors vanish on the whole boundary of the local grid", "statement": "In every problem the local corrector problems are constrained at all boundary nodes of the local grid, so the reconstruction is continuous across coarse faces and each multiscale basis function has the values of its coarse basis function on the cell boundary.", "quantifier": "for every problem, dimension, local grid, coarse solution, pair of neighbouring cells", "why_tests_cant": "An unconstrained part of the boundary gives a solvable local problem as long as some face is constrained; the basis functions are then wrong everywhere without any failure.", "anchors": ["dune/multiscale/msfem/localproblems/localoperator.cc: LocalProblemOperator", "dune/multiscale/problems/spe10.cc: ModelProblemData", "dune/multiscale/problems/tarbert.cc: ModelProblemData"]}
{"id": "C62", "title": "The projected multiscale solution takes the values of the coarse cell containing the fine element", "statement": "When the multiscale solution is projected to the fine grid, the values computed on each fine element are those of the reconstruction of the one coarse cell that contains the element, for whatever cells the search object of the processing thread visited before.", "quantifier": "for every cube grid hierarchy, tolerance below the relative width of a fine cell, distribution of elements to threads, processing order, history of the search objects", "why_tests_cant": "Nodes on coarse faces belong to several cells and the search starts at the cell found last; a wrong choice depends on thread schedule and history and changes the result only at a few nodes.", "anchors": ["dune/multiscale/common/heterogenous.cc: MsFEMProjection::project", "dune/multiscale/msfem/localproblems/localgridsearch.cc: covers_strict, operator()", "dune/multiscale/msfem/localsolution_proxy.cc: local_function"]}
{"id": "C63", "title": "The projected solution does not depend on thread schedule or element order", "statement": "Two projections of the same multiscale solution give the same fine function, whatever the order in which the elements are processed and the thread that processes them.", "quantifier": "for every multiscale solution, permutation of the elements, assignment of threads, previous content of the target function", "why_tests_cant": "Schedules cannot be enumerated by running, and for continuous solutions the order does not matter, so that usual examples do not show a dependence.", "anchors": ["dune/multiscale/common/heterogenous.cc: MsFEMProjection::project", "dune/multiscale/msfem/localsolution_proxy.cc: local_function"]}
{"id": "C64", "title": "The multiscale solution object can be created on every process", "statement": "After the local problems are solved, the object that represents the multiscale solution is created on every process, with or without assertions, and finds the correction of each of the process's coarse cells.", "quantifier": "for every partition of the coarse grid, including overlap cells and processes without own cells, with and without assertions", "why_tests_cant": "The partitions depend on the number of processes and the load balancer; the failing ones need particular overlaps or more processes than cells.", "anchors": ["dune/multiscale/msfem/localsolution_proxy.cc: LocalsolutionProxy", "dune/multiscale/msfem/msfem_solver.cc: identify_fine_scale_part"]}
{"id": "C65", "title": "Calls of the multiscale solver in one program do not influence each other", "statement": "In a program that calls the multiscale solver several times, with any problems and grids, each call that completes gives the result determined by its own local solutions and its own coarse problem, even if an earlier call ended with an exception after storing part of its local solutions.", "quantifier": "for every sequence of calls, every point of failure of each call, all cell numbers, all local solutions and coarse problems", "why_tests_cant": "Local solutions are kept in a process-wide store under cell numbers that repeat from call to call; a stale entry gives a plausible result. Tests run one call per process or identical calls.", "anchors": ["dune/multiscale/common/df_io.hh: ClearGuard, clear_guard", "dune/multiscale/common/df_io.cc: clear", "dune/multiscale/msfem/msfem_solver.cc: Elliptic_MsFEM_Solver::apply", "dune/multiscale/msfem/localproblems/localsolutionmanager.cc: save, load"]}
{"id": "C66", "title": "The flux belongs to the diffusion matrix", "statement": "For every problem the flux function, which enters the right-hand sides of the local problems and the coarse load, is the diffusion matrix, which enters the system matrices, times the direction; both fail for the same points.", "quantifier": "for every registered problem, every point, every direction, every previous content of flux object and local variables, two and three dimensions", "why_tests_cant": "An inconsistency only shows as a slightly wrong multiscale solution; unassigned components depend on what memory held before.", "anchors": ["dune/multiscale/problems/synthetic.cc: Diffusion::diffusiveFlux", "dune/multiscale/problems/er2007.cc: Diffusion::diffusiveFlux", "dune/multiscale/problems/random.cc: Diffusion::diffusiveFlux", "dune/multiscale/problems/spe10.cc: Diffusion::diffusiveFlux", "dune/multiscale/problems/tarbert.cc: Diffusion::diffusiveFlux", "dune/multiscale/msfem/diffusion_evaluation.hh: CoarseBasisProduct, DirichletProduct"]}
{"id": "C67", "title": "The diffusion of every problem is elliptic in the dimension of the build", "statement": "For every registered problem the diffusion matrix at every point is symmetric with a quadratic form bounded from below by a positive constant and from above, in two dimensions and in three dimensions, which is the default of the build.", "quantifier": "for every registered problem, every point, every admissible data file, every random field, two and three dimensions", "why_tests_cant": "Continuum of points and data; a degenerate direction does not make the solvers fail.", "anchors": ["dune/multiscale/problems/synthetic.cc: Diffusion::evaluate", "dune/multiscale/problems/er2007.cc: Diffusion::evaluate", "dune/multiscale/problems/random.cc: Diffusion::evaluate", "dune/multiscale/problems/spe10.cc: Diffusion::evaluate, readPermeability", "dune/multiscale/problems/tarbert.cc: Diffusion::evaluate", "cmake/modules/DuneMultiscaleMacros.cmake: MSFEM_MACRO_GRIDDIM"]}
{"id": "C68", "title": "Every process can evaluate the random field in the local grids of its own coarse cells", "statement": "The number of segments of the random field is the largest power of two not above the number of coarse cells, and on every process the field can be evaluated, without a range error, at every point inside the local grid (oversampling included) of every coarse cell that the grid's load balancer assigns to this process.", "quantifier": "for every number of processes that is a power of two, every rank, every number of coarse cells divisible accordingly, all local cells, oversampling layers and overlap, every point, two and three dimensions", "why_tests_cant": "Unbounded numbers of processes and grids; the relevant failures need particular numbers of MPI processes in three dimensions.", "anchors": ["dune/multiscale/problems/random.cc: Diffusion::init", "dune/multiscale/problems/random_permeability.hh: setRange, partition, evaluate", "dune/multiscale/common/mygridfactory.hh: createCubeGrid", "dune/multiscale/common/grid_creation.cc: make_coarse_grid", "dune/multiscale/msfem/localproblems/localgridlist.cc: LocalGridList"]}
{"id": "C69", "title": "The fine part of each process lies in its coarse part", "statement": "Coarse and fine grid are distributed to the processes such that every fine cell of a process lies in a coarse cell of the same process, so that the projection of the multiscale solution, which searches the own coarse cells only, finds every own fine element.", "quantifier": "for every number of processes, all numbers of coarse cells and all refinements of the directions, every rank and every cell", "why_tests_cant": "Depends on the interplay of number of processes, cells and refinement; the check in the code compares nothing, and tests run few configurations.", "anchors": ["dune/multiscale/common/grid_creation.cc: make_coarse_grid, make_fine_grid, make_grids", "dune/multiscale/common/mygridfactory.hh: createCubeGrid", "dune/multiscale/msfem/localproblems/localgridsearch.cc: operator()", "dune/multiscale/common/heterogenous.cc: MsFEMProjection::project"]}
{"id": "C70", "title": "Processes draw unrelated random numbers", "statement": "The engines of different processes, seeded with the global rank plus one, produce different numbers that are neither copies of each other with a delay nor correlated.", "quantifier": "for all ranks and all numbers drawn, over the whole period of the generator", "why_tests_cant": "A statement about about 2^31 numbers per process and all ranks; statistical tests of one field do not compare processes.", "anchors": ["dune/multiscale/problems/random.cc: Diffusion::init", "dune/multiscale/problems/random_permeability.hh: init, create"]}
{"id": "C71", "title": "The coarse system of the multiscale method has exactly one solution", "statement": "For every registered problem, after all local problems have been solved, the constrained coarse matrix is regular, so the coarse system has exactly one solution for its load and Dirichlet data.", "quantifier": "for all numbers of coarse and local cells, both dimensions, all positive definite diffusions, all Gauss rules with at least two points per direction", "why_tests_cant": "The coarse matrix is a sum over all coarse cells of products of local solutions; regularity is a property of all grids and coefficients. An iterative solver returns something for many singular systems as well, so a run does not show it.", "anchors": ["dune/multiscale/msfem/coarse_scale_operator.cc: CoarseScaleOperator", "dune/multiscale/msfem/coarse_scale_assembler.cc", "dune/multiscale/msfem/localproblems/localproblemsolver.cc", "dune/multiscale/problems/spe10.cc", "dune/multiscale/problems/tarbert.cc"]}
{"id": "C72", "title": "Without anything to correct the multiscale method is the finite element method on the coarse grid", "statement": "If coarse cells are not refined, or if the diffusion is constant and diagonal, all correctors vanish, the coarse system is the finite element system of the coarse grid, and the multiscale solution on every coarse cell is the multilinear interpolation of the finite element solution.", "quantifier": "for all registered problems, both dimensions, all numbers of cells, all boundary data and sources, any correct linear solvers", "why_tests_cant": "An identity between two assembled systems and their solutions for all grids and data; a run compares one pair of solutions up to a discretisation error which hides a misplaced sample.", "anchors": ["dune/multiscale/msfem/coarse_scale_assembler.cc", "dune/multiscale/msfem/coarse_rhs_functional.cc", "dune/multiscale/msfem/coarse_scale_operator.cc", "dune/multiscale/msfem/localproblems/localoperator.cc", "dune/multiscale/msfem/msfem_solver.cc"]}
{"id": "C73", "title": "Solutions of neighbouring coarse cells fit together, also with oversampling", "statement": "The multiscale solution has one value at every fine node: the functions reconstructed on two coarse cells (coarse solution plus correctors, computed on patches with any number of layers) coincide at their common fine nodes. Inside each coarse cell the reconstruction still satisfies the equations of the fine problem.", "quantifier": "for all coarse grids, refinements and numbers of layers for which patches consist of fine cells, all coarse solutions, boundary data and diffusions, any correct linear solver", "why_tests_cant": "A run shows one merged function: the projection overwrites one of the two values, so a disagreement is invisible in the output and hidden in the error norms; agreement for all data is a statement about two linear systems on different patches.", "anchors": ["dune/multiscale/msfem/msfem_solver.cc", "dune/multiscale/msfem/localproblems/localgridlist.cc", "dune/multiscale/msfem/localproblems/localoperator.cc", "dune/multiscale/msfem/localsolution_proxy.cc"]}
{"id": "C74", "title": "The comparison of coarse and fine grid accepts exactly the distributions the projection can handle, with the same outcome on all processes", "statement": "Before the multiscale solution is projected, match_check compares the parts of the coarse and the fine grid of each process. It succeeds exactly if every fine cell of a process lies in a coarse cell of the same process, and if the grids do not match every process notices, so that the program stops with the error message.", "quantifier": "for all coarse grids, refinements, numbers of processes and process grids, all comparison functions that distinguish neighbouring coordinates of the fine grid", "why_tests_cant": "Only parts and bounding boxes are compared, so that a mismatch which leaves the box unchanged would be missed; which combinations of cell counts and processes fail is arithmetic over all of them, and a hang on some processes does not show as a failed assertion.", "anchors": ["dune/multiscale/common/error_calc.cc", "dune/multiscale/common/main_init.cc", "dune/multiscale/common/grid_creation.cc"]}
{"id": "C75", "title": "The flow in the log is the flow of the multiscale solution through the left side", "statement": "The number written after FLOW is the integral of A grad u . n over the faces of the coarse grid at the left side of the domain (computed with the rule on the faces), u being the multiscale solution on the coarse grid; it does not depend on the distribution over processes.", "quantifier": "for all structured coarse grids, numbers of processes and distributions, all coefficient vectors and diffusions", "why_tests_cant": "A single number in the log has no reference value; whether it is the flow of the solution at all, and at which positions the gradient is evaluated, is only visible when compared with the integral for arbitrary functions.", "anchors": ["dune/multiscale/common/error_calc.cc"]}
{"id": "C76", "title": "The reference solution is the finite element solution, and it exists for every problem", "statement": "Elliptic_FEM_Solver returns the function with the Dirichlet values at the Dirichlet nodes that satisfies the discrete weak form (integral of A grad u . grad v equals integral of f v plus Neumann term) for all test functions vanishing there. For every registered problem there is exactly one such function on the coarse and on the fine grid.", "quantifier": "for all structured grids with multilinear elements, quadrature rules, positive definite diffusions, sources, boundary data, previous contents of the output, correct linear solvers; exact arithmetic, one process; an assembler that drops its functors after a walk", "why_tests_cant": "The reference is what everything else is compared with, so a wrong reference is not visible in any error norm; existence and uniqueness for all grids and diffusions is a theorem about matrices of unbounded size.", "anchors": ["dune/multiscale/msfem/fem_solver.cc", "dune/multiscale/msfem/coarse_scale_operator.cc", "dune/multiscale/common/error_calc.cc"]}
{"id": "C77", "title": "Numbers of cells in the configuration give grids that fit together", "statement": "For every accepted pair of coarse cells and micro cells per coarse cell, the coarse grid lines are fine grid lines, and the local grids have the mesh width of the fine grid.", "quantifier": "for all domains and all numbers of at least one in the two configuration entries, which are read as floating point numbers", "why_tests_cant": "The entries are doubles, the validators only compare with 1; tests use integers.", "anchors": ["dune/multiscale/common/grid_creation.cc", "dune/multiscale/msfem/localproblems/localgridlist.cc"]}
{"id": "C78", "title": "The quadrature rules make the assembled systems uniquely solvable", "statement": "The rules chosen from the declared orders of diffusion and elements see every gradient of the elements, so that the local problems, the coarse problem and the reference problem of every registered problem have exactly one discrete solution; operator and right-hand sides of the local problems use the same rule.", "quantifier": "for all registered problems in two and three dimensions, all structured grids, positive definite diffusions, data", "why_tests_cant": "A rule with too few points gives a matrix that looks right and may still be solved by an iterative solver; whether it is singular depends on grid, dimension and boundary conditions together.", "anchors": ["dune/multiscale/problems/random.cc", "dune/multiscale/problems/base.hh", "dune/multiscale/problems/synthetic.cc", "dune/multiscale/msfem/fem_solver.cc", "dune/multiscale/msfem/localproblems/localoperator.cc", "dune/multiscale/msfem/coarse_scale_assembler.cc", "dune/multiscale/msfem/diffusion_evaluation.hh"]}
{"id": "C79", "title": "The reported error norms are norms of the errors", "statement": "The numbers printed and written to errors.csv are the L2 norms and H1 semi norms of the differences: exact for differences of discrete functions, zero only for equal functions (functions with equal gradients), and consistent with each other (triangle inequality); the relative numbers are numbers.", "quantifier": "for all structured grids in two and three dimensions, all discrete functions, exact solutions of any order, all values of over_integrate", "why_tests_cant": "The norms are integrals computed with rules chosen from declared orders; a test compares numbers for one solution and cannot see which parts of an error the rule misses.", "anchors": ["dune/multiscale/common/error_calc.cc", "dune/multiscale/common/error_calc.hh", "dune/multiscale/problems/synthetic.cc", "dune/multiscale/problems/er2007.hh", "dune/multiscale/problems/base.hh"]}
{"id": "C80", "title": "The reported numbers of the multiscale solution are those of the multiscale solution", "statement": "The numbers printed and written to errors.csv for the multiscale solution are the norm of the multiscale solution and its differences to the reference solutions; in particular, if the multiscale method and the finite element method on the coarse grid give the same function (C72), the reported difference of the two is zero.", "quantifier": "for all structured grids in two and three dimensions, all refinements, all data, all correct solvers, all values of over_integrate", "why_tests_cant": "The numbers are compared with values recorded from an earlier run of the same code, so a factor that was always there stays; whether the projected function is the multiscale solution is a statement about all functions and grids.", "anchors": ["dune/multiscale/common/error_calc.cc", "dune/multiscale/common/heterogenous.hh", "dune/multiscale/msfem/proxygridview.hh", "dune/multiscale/msfem/localsolution_proxy.cc"]}
{"id": "C81", "title": "The reference solution is the function of least energy", "statement": "For symmetric diffusion the reference solution has less energy (half the quadratic form minus the load) than every other function on the grid with the same Dirichlet values, and the boundary flow it implies balances source and Neumann data.", "quantifier": "for all structured grids, all symmetric positive definite diffusions, all data, all correct solvers, all competing functions", "why_tests_cant": "An infinite set of competitors; a test compares with a few numbers recorded earlier, and a solution of a slightly different system has a similar energy.", "anchors": ["dune/multiscale/msfem/fem_solver.cc"]}
{"id": "C82", "title": "The multiscale solution depends linearly on the data and not on the units", "statement": "If source, Neumann data and Dirichlet data are a combination of those of two other problems with the same diffusion, the coarse solution and the multiscale solution are the same combination of theirs; if diffusion, source and Neumann data are multiplied by the same positive number, the solution stays the same. The solvers, the temporary storage and the indices used do not matter.", "quantifier": "for all structured grids without oversampling, all positive definite diffusions, all boundary types for which the coarse system has at most one solution, all data, all coefficients, all solvers that solve the systems they return from", "why_tests_cant": "A relation between three runs of a long computation with arbitrary data; any phase that reads stale data, drops a slot or adds a constant breaks it, but for each single run the result looks plausible.", "anchors": ["dune/multiscale/msfem/msfem_solver.cc", "dune/multiscale/msfem/localproblems/localproblemsolver.cc", "dune/multiscale/msfem/localproblems/localoperator.cc", "dune/multiscale/msfem/coarse_scale_operator.cc", "dune/multiscale/msfem/localsolution_proxy.cc"]}
{"id": "C83", "title": "Constant and linear solutions are reproduced", "statement": "If the exact solution is constant (no source, no Neumann data, constant Dirichlet data), the multiscale solution and the reference solution are this constant for every diffusion; if diffusion is constant and diagonal and the exact solution is linear, both are that linear function; with or without oversampling.", "quantifier": "for all structured grids, all refinements, all positive definite diffusions, all constants and linear functions, all solvers that solve the systems they return from", "why_tests_cant": "The classical patch test for all coefficients and grids at once; the registered problems have no constant solution, and their homogeneous or mixed boundary values hide an error in the boundary correctors.", "anchors": ["dune/multiscale/msfem/msfem_solver.cc", "dune/multiscale/msfem/localproblems/localoperator.cc", "dune/multiscale/msfem/fem_solver.cc"]}
{"id": "C84", "title": "Neumann data act on the Neumann faces of the domain only", "statement": "The functional of the Neumann data in the local problems of a coarse cell is the Neumann term of the fine problem: the integral over the faces of the local cells that lie on the boundary of the domain and are of Neumann type. Values of the Neumann data inside the domain or on Dirichlet faces have no influence on the multiscale solution.", "quantifier": "for all structured grids, all boundary types, all Neumann data, all rules on faces, all runs", "why_tests_cant": "A function for Neumann data is defined everywhere and tests only use functions that vanish away from one face; whether other values are ever read can not be seen from the results of such tests.", "anchors": ["dune/multiscale/msfem/localproblems/localoperator.cc", "dune/multiscale/msfem/coarse_scale_operator.cc", "dune/multiscale/problems/spe10.cc", "dune/multiscale/problems/tarbert.cc"]}
{"id": "C85", "title": "The order in which threads run has no influence on the results", "statement": "The local problems are solved, and their solutions loaded for the assembly of the coarse system, in several threads. In whatever order the threads take their turns, every load gives the local solutions of its own coarse cell, and a whole run, with or without oversampling, gives the coarse coefficients and the multiscale solution of a run in one thread.", "quantifier": "for all numbers of coarse cells and threads, all interleavings of their steps in which every thread gets enough turns, all grids, coefficients, data", "why_tests_cant": "A test sees the few interleavings that happen on one machine; a wrong value for one rare order of events passes nearly always.", "anchors": ["dune/multiscale/msfem/localproblems/localproblemsolver.cc", "dune/multiscale/msfem/localproblems/localsolutionmanager.cc", "dune/multiscale/common/df_io.hh", "dune/multiscale/msfem/coarse_scale_assembler.cc", "dune/multiscale/msfem/coarse_rhs_functional.cc", "dune/multiscale/msfem/msfem_solver.cc"]}
{"id": "C86", "title": "A run with oversampling has exactly one result, linear in the data", "statement": "With oversampling the local problems live on grids that overlap and the coarse system is assembled from the parts of their solutions on the coarse cells. If the local problems are constrained on the boundaries of their grids, some node of the boundary of the domain is a Dirichlet node, the diffusion is positive definite and a coarse cell has at least two local cells in some direction, then the coarse matrix is regular, the run returns, its result does not depend on solvers, order of threads or leftover values, it is linear in source, Neumann and Dirichlet data, and it stays the same if diffusion, source and Neumann data are multiplied by one positive number. With zero layers, or with one coarse cell and any number of layers, the result is that of a run without oversampling.", "quantifier": "for all dimensions from two on, grids, numbers of layers up to the local cells per coarse cell, positive definite coefficients, data, solvers that solve their systems", "why_tests_cant": "The corrected basis functions of different coarse cells do not fit together with oversampling, so regularity of the coarse matrix is not a consequence of the variational form; a test can show it for single grids and coefficients only.", "anchors": ["dune/multiscale/msfem/localproblems/localproblemsolver.cc", "dune/multiscale/msfem/localproblems/localoperator.cc", "dune/multiscale/msfem/localproblems/localgridlist.cc", "dune/multiscale/msfem/coarse_scale_operator.cc", "dune/multiscale/msfem/coarse_scale_assembler.cc", "dune/multiscale/msfem/coarse_rhs_functional.cc", "dune/multiscale/msfem/msfem_solver.cc"]}
{"id": "C87", "title": "The log announces the number of coarse cells for which local problems are solved", "statement": "Before and after the local problems are solved, each process writes for how many coarse cells it solves them. This number is the number of cells it visits.", "quantifier": "for all numbers of cells per direction, parts of the grid, layers of overlap", "why_tests_cant": "The number is right without overlap, so a test in the default configuration passes; it is wrong for all grids with overlap on one process.", "anchors": ["dune/multiscale/msfem/localproblems/localproblemsolver.cc"]}
{"id": "C88", "title": "The result does not depend on the origin and the unit of length", "statement": "A problem given in other coordinates (another origin, another unit of length, also different ones in different directions), with the data converted accordingly, has the same coefficients of the coarse solution, the same values on all local grids with or without oversampling, and the same reference solution.", "quantifier": "for all dimensions, grids, quadrature rules, origins, positive units per direction, diffusion tensors, sources, Neumann and Dirichlet data, correct linear solvers", "why_tests_cant": "A test compares two or three units of one problem; a missing or misplaced integration element or Jacobian shows only if the widths of cells in different directions differ and are not one.", "anchors": ["dune/multiscale/msfem/coarse_scale_assembler.hh", "dune/multiscale/msfem/localproblems/localoperator.cc", "dune/multiscale/msfem/coarse_scale_operator.cc", "dune/multiscale/msfem/fem_solver.cc"]}
{"id": "C89", "title": "Integrals are exact for data of the declared polynomial order", "statement": "The quadrature rules of the assembled systems integrate source times shape function, and diffusion times derivatives of two shape functions, exactly whenever source and diffusion are polynomials of the order which the problem declares.", "quantifier": "for all problems, dimensions, polynomials up to the declared degree, shape functions", "why_tests_cant": "An order that is too low changes results by a small amount that looks like discretisation error; a test with constant data passes.", "anchors": ["dune/multiscale/msfem/coarse_scale_assembler.cc", "dune/multiscale/msfem/coarse_rhs_functional.cc", "dune/multiscale/msfem/diffusion_evaluation.hh", "dune/multiscale/msfem/fem_solver.cc", "dune/multiscale/problems/base.hh"]}
{"id": "C90", "title": "Results do not depend on names and orientation of the directions", "statement": "If a problem is described with renamed directions (rotated or reflected domain) or with directions that run the other way, a run gives the same solution, at the corresponding nodes. In particular, problems with mirror symmetry have symmetric solutions.", "quantifier": "for all dimensions, grids, numbers of oversampling layers, permutations and reflections of the directions, data, boundary types, orders of the cells and of the quadrature points", "why_tests_cant": "A mistake in one direction (swapped indices, sign of a derivative, wrong face) shows only for data that differ between directions; tests use cubes with isotropic data.", "anchors": ["dune/multiscale/msfem/msfem_solver.cc", "dune/multiscale/msfem/coarse_scale_operator.cc", "dune/multiscale/msfem/localproblems/localoperator.cc", "dune/multiscale/msfem/coarse_scale_assembler.cc", "dune/multiscale/msfem/coarse_rhs_functional.cc", "dune/multiscale/msfem/fem_solver.cc", "dune/multiscale/common/grid_creation.cc"]}
{"id": "C91", "title": "The random field can be set up for every grid the program can create", "statement": "For a grid with the same number of cells in each direction the random field is set up with the exact sizes, offsets and scaling factor; the 32-bit integers used for sizes and indices do not overflow.", "quantifier": "for all numbers of cells per direction, two and three dimensions, numbers and positions of processes, overlaps", "why_tests_cant": "Overflow occurs only for fields with more than 2^31 nodes; such fields need tens of gigabytes and are distributed to many processes, no test can afford them.", "anchors": ["dune/multiscale/problems/random_permeability.hh", "dune/multiscale/problems/random.cc"]}
{"id": "C92", "title": "The tests of the repository accept correct results and reject wrong ones", "statement": "A comparison test passes exactly if the reported errors are below the bounds written for its setup and a second run reports the same errors; the grid tests pass exactly for fine grids lying in the coarse grid with the numbers of cells asked for; the projection test passes exactly for functions with the norm of the constant.", "quantifier": "for all results of the tested algorithms, all pairs of grids, all configurations generated from the .mini files", "why_tests_cant": "A test only shows what happens for the results the present code delivers; which other results it would accept cannot be seen by running it.", "anchors": ["dune/multiscale/test/compare_cgfem.cc", "dune/multiscale/test/compare_msfem.cc", "dune/multiscale/test/compare_cgfem.mini", "dune/multiscale/test/compare_msfem.mini", "dune/multiscale/test/common_grids.mini", "dune/multiscale/test/grid_creation.cc", "dune/multiscale/test/projection.cc"]}
{"id": "C93", "title": "The pictures of the local grids show the local grids", "statement": "The visualisation program writes, for every interior coarse cell, a function that differs from zero exactly on the fine cells of the local grid of this coarse cell, and no file overwrites another one.", "quantifier": "for all domains, numbers of coarse and micro cells, numbers of oversampling layers, numberings of the coarse cells", "why_tests_cant": "The program only writes pictures; no test reads them, and for zero layers they look right.", "anchors": ["src/thread_vis.cc", "dune/multiscale/msfem/localproblems/localgridlist.cc", "dune/multiscale/msfem/localproblems/localgridlist.hh"]}
{"id": "C94", "title": "Every number of oversampling layers that is accepted gives local grids which contain their coarse cell", "statement": "Whatever integer the configuration holds for msfem.oversampling_layers, the program either rejects it or computes on local grids with at least one cell that contain their coarse cell.", "quantifier": "for all values of an int, positions of the coarse cell, numbers of coarse and micro cells, dimensions", "why_tests_cant": "The tests use zero, one and two layers; negative numbers and numbers near the ends of the range of int are never tried.", "anchors": ["dune/multiscale/msfem/localproblems/localgridlist.cc", "dune/multiscale/common/grid_creation.cc", "dune/multiscale/msfem/msfem_solver.cc"]}
{"id": "C95", "title": "Numbers in errors.csv are the computed errors to six digits", "statement": "Every finite error is written to errors.csv as a decimal number with at most six digits, and no other number with six digits is nearer; hence the relative error is at most 5e-6, sign, zero and order are kept, numbers with six digits are written exactly; values that are not finite are not written as numbers.", "quantifier": "for all finite values of a double, and for all runs of the error computation", "why_tests_cant": "The tests look at the returned map, not at the file; the claim is about all doubles, including those rounded up to a further digit and those on the boundary between the styles of printing.", "anchors": ["dune/multiscale/common/error_calc.cc"]}
{"id": "C96", "title": "Rounding errors do not change the number of cells of the local grids", "statement": "In floating point arithmetic the local grid of every coarse cell has the number of cells which the exact computation gives, and its limits are the exact ones up to rounding errors.", "quantifier": "for all domains, numbers of coarse cells, micro cells and layers, positions of the coarse cell, and all ways of rounding with a small relative error", "why_tests_cant": "Whether a computed limit falls on one side of the boundary of the domain depends on the last bit for particular numbers of cells; tests try a handful of grids.", "anchors": ["dune/multiscale/msfem/localproblems/localgridlist.cc"]}
{"id": "C97", "title": "Rounding errors do not make the search lose the points of fine elements", "statement": "In floating point arithmetic the search for the corners of a fine element finds a coarse cell that covers them, and every corner gets an element of the local grid of that coarse cell which contains it.", "quantifier": "for all numbers of dimensions, domains, numbers of coarse cells, micro cells and layers, fine elements, states of the search and element searches that meet their contract, in every rounding to nearest", "why_tests_cant": "A corner on the end of a local grid is found or missed depending on the last bits of coordinates that are computed in three ways; a missed corner makes the search return elements of other corners without any error.", "anchors": ["dune/multiscale/msfem/localproblems/localgridsearch.cc", "dune/multiscale/common/heterogenous.hh", "dune/multiscale/msfem/localproblems/localgridlist.cc"]}
{"id": "C98", "title": "The grids are created with the configured numbers", "statement": "On the YaspGrid back end the constructor of the fine grid gets as many cells in each direction as coarse and micro cells of the configuration give and the configured overlap, all of them valid; a configuration for which this is not possible is refused. The coarse grid gets the configured numbers of cells.", "quantifier": "for all dimensions, all positive numbers of cells for which the conversions are defined, all values of grids.overlap", "why_tests_cant": "Values are converted between double, unsigned int and int on the way; tests use small numbers.", "anchors": ["dune/multiscale/common/grid_creation.cc: setup, make_coarse_grid, make_fine_grid", "dune/multiscale/common/mygridfactory.hh: MyGridFactory<YaspGrid>::createCubeGrid"]}
