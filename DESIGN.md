# Formal model of dune-multiscale: design

The subject is the source tree in `/repo` (wwu-numerik/dune-multiscale, pinned
commit).  It is read as text.  Nothing in `/repo` is built or changed.

## Layout

* `properties.jsonl`  the claims, one JSON object per line.
* `lean/Verif/Model/*.lean`  transcriptions of functions of the C++ code.
  Every definition carries a comment with file and lines.
* `lean/Verif/Spec/*.lean`  small specifications that do not mention the model.
* `lean/Verif/Lemmas/*.lean`  helper lemmas.
* `lean/Verif/Props/*.lean`  the property theorems `C..._...` and, beside each,
  an `example` with a concrete instance of the hypotheses.
* `MANIFEST.json`  status of each claim and the theorem names.
* `seeded/LOG.jsonl`  mutation experiments.  `killed` means that the build failed: `theorems_failed` are the
  theorems whose proofs broke, often auxiliary ones, and `dependent_claims` the claims that use them.  A broken proof
  does not by itself show that the statement became false; attempts for which the claim stays true carry a note.
  Ids `au…` are generated edits
  (swapped operators, constants and branches in the definitions, at most a few per definition); for these the build was
  stopped at the first failure.

## Modelling conventions
* Arithmetic on `double` is modelled by exact arithmetic in `ℚ` (or in a
  general linear ordered field / `ℝ` where `sin`, `cos`, `exp` occur), except
  where a claim is about rounding (C05, C39, C41, C77, C94-C97); there rounding is a
  parameter with the properties that are needed.  Props/Double proves these properties
  for every rounding to a nearest number with 53 binary digits (Spec/Binary), and that
  the function `double` of Model/RoundedGrid is one; limits of the exponent are left out.
* Integer arithmetic is `ℕ`/`ℤ`; where the code's width matters (C07) it is
  reduced modulo `2^32`.
* Undefined behaviour (out-of-bounds access, dereferencing `end`, reading
  uninitialised memory) is a distinct outcome of the model, never a default value.
* `assert` is a distinct outcome too when its violation is reachable.
* Exceptions are outcomes `throw`.
* Calls into DUNE, dune-gdt, dune-stuff, dune-xt, FFTW, MPI and the linear
  solvers are parameters; the hypotheses about them are written in the theorem
  and listed below under "assumptions about external code".
* If the code violates a claim, the negation is proved for a concrete witness
  (theorem name contains `violated`) and the part that does hold is proved in a
  theorem with suffix `_partial`.

## Trusted base

* Lean 4.33.0 kernel, Mathlib as installed.
* Axioms: only `propext`, `Classical.choice`, `Quot.sound`.  No own axioms, no
  `sorry`, no `native_decide`.
* The reading of the C++ text that turned functions into Lean definitions.

## Per property plan

(Status is recorded in MANIFEST.json; findings are listed at the end.)

* **C01** Local grid encloses its coarse cell and never leaves the domain. Model/LocalGrid: per-direction box of LocalGridList ctor over an ordered field. Direct order reasoning.
* **C02** Local grids resolve exactly the fine mesh. Same model, on an equidistant coarse grid; iff-characterisation `N = 1 or o <= mpm`; negation by witness.
* **C03** Local cells attributed to a coarse cell tile it exactly. `covers` on the aligned local grid: per-direction cell index set, product over directions, volume sum.
* **C04** The fine grid is nested in the coarse grid. Model/GridCreation: cell indices; unique coarse parent by division; counting.
* **C05** Coarse overlap is the least number of coarse layers holding the oversampling layers. Ceiling of rounded quotient with a rounding parameter; real-number estimate.
* **C06** Anisotropic overlap is rejected exactly when it would be misrepresented. Decision function of the YaspGrid factory, composed with the overlap formula.
* **C07** The check against a degenerate parallel distribution. 32-bit product, `size` with overlap layers per direction; exact condition under no-overflow; negations: any overlap, and 65537 x 65536.
* **C08** A successful point search returns an element for every point, all in one covering coarse cell. Model/Search: state machine over iterator position; loop invariant.
* **C09** Point search terminates and succeeds whenever a coarse cell covers the points. Variant function on (steps, position); success iff some cell covers.
* **C10** Point search works on a one-cell coarse grid and is reusable after a failure. Negation by witness; exact statement of the reachable bad states.
* **C11** The in-memory solution store behaves like a map from coarse cells to lists. Model/IOCache; abstract map of lists; simulation by induction over operations.
* **C12** Solution locations are decoded to the coarse cell index they were built from. Decimal print/parse on character lists; round trip by induction.
* **C13** Concurrent use of the solution store creates each list exactly once. Small-step interleaving model of get with the unlocked lookup; negation witness; positive theorem for serialised lookups.
* **C14** Local solutions are recovered unchanged by later phases. Heap model with references; separation invariant.
* **C15** Loading local solutions is repeatable. Heap model; negation witness; partial for fresh managers.
* **C16** Fine-scale reconstruction combines correctors with the right coefficients and signs. Heap/vectors model of identify_fine_scale_part; fold lemma.
* **C17** Cutting the overlay leaves the reconstruction inside the coarse cell untouched. Fold of point-wise cut; closed form.
* **C18** Reconstruction can be repeated on the same stored correctors. Negation witness; partial for a reload of fresh correctors.
* **C19** Correctors of boundary values vanish away from the domain boundary. Model of solve_all_on_single_cell with external solver parameter.
* **C20** All phases agree on which slot holds which corrector. Model of slot numbers in the three modules; equalities and bounds.
* **C21** The local solve returns the solution of the local system for every solver choice. Model of the two branches with the solver contract; negation for the generic branch.
* **C22** The coarse system matrix does not depend on the order of assembly. Fold with add_to_entry; sum formula; List.Perm invariance.
* **C23** The coarse system inherits symmetry and non-negativity. From sum formula; bilinear form manipulations.
* **C24** The coarse load vector is the multiscale load functional. Fold; sum formula.
* **C25** The coarse solution attains the Dirichlet values and satisfies the Galerkin equations. Constrained matrix/vector; linear algebra over a field.
* **C26** The fine reference solve does not depend on what the output function held before. Same plus history parameter.
* **C27** A failed or invalid coarse solve never yields a result. Decision model.
* **C28** Projection to the fine grid preserves nodal values. Fold with set followed by division by multiplicity; negation; partial (exact value = value/multiplicity).
* **C29** The set of reported error quantities is determined by what was available. State machine of print on key sets; exhaustive over booleans with arbitrary values.
* **C30** errors.csv can be read back. String model; split/join round trip.
* **C31** Visualisation files never overwrite each other. Prefix-code argument; padded decimal injectivity.
* **C32** Memory statistics are consistent. Nat division facts on lists.
* **C33** Problem selection is total on the registered names and rejects everything else. Lookup in the registered tables.
* **C34** The synthetic diffusion is uniformly elliptic. Real analysis: bounds of cos.
* **C35** The exact solution of the synthetic problem comes with its true gradient. HasDerivAt in both variables.
* **C36** The synthetic source belongs to the synthetic exact solution. HasDerivAt of the flux components.
* **C37** Evaluating a diffusion coefficient determines the whole matrix. Evaluate as a partial overwrite of the result object; negation for three dimensions and off-diagonals; partial.
* **C38** The ER2007 data form a manufactured solution with correct derivatives. HasDerivAt; negation for the source jacobian.
* **C39** SPE10 permeability lookup stays inside the data set. Floor bounds and mixed radix injectivity.
* **C40** SPE10 data reading either yields the full data set or fails. Stream model; overflow outcome; negation plus partial.
* **C41** Tarbert permeability lookup stays inside the data set. Floor bounds; negation for the upper face. Props/TarbertDouble: the same with the widths 6.096, 3.048, 0.6096 and the limits rounded, for every rounding to nearest.
* **C42** Tarbert data reading yields exactly the file contents. Stream model with eof flag; negation plus partial.
* **C43** Tarbert diffusion can be evaluated from several threads. Two-thread interleaving; negation; partial for atomic evaluation.
* **C44** The process grid of the random field uses every process exactly once. Powers of two; mixed radix bijection.
* **C45** The local blocks of the random field cover the domain and contain their overlap. Interval arithmetic on naturals.
* **C46** Redistribution hands every process its part of one common field. Index arithmetic on slabs; returned values are interpolations of the common field (weights zero where the read value is another node's).
* **C47** Random permeability is positive and bounded by the neighbouring nodal values. Convex combination bounds.
* **C48** Random permeability evaluation never reads outside its block. Bounds; negation at the upper face; exact conditions in two and three dimensions.
* **C49** Each request for a new random field yields a new field. Toggle automaton.
* **C50** The circulant embedding of the covariance is symmetric and exact on the domain. Index reflection.
* **C51** Exit status reflects success. Decision model of main.
* **C52** Reported problem parameters are the ones used. Defaults model; negation; partial when set.
* **C53** Grid parameters used for local grids agree with those used for the global grids. Two configuration parameters; iff; negation witness.
* **C54** Coarse basis functions enter the coarse system at the position of the quadrature point. Same model as C22-C24; samples taken by the code against samples of the multiscale basis; negation by witness, partial theorems.
* **C55** The Tarbert diffusion can be created, used and destroyed without undefined behaviour. Life of the object (read, evaluate, destroy); negation for every file that can be opened.
* **C56** The generated Gaussian field has the requested covariance. Discrete Fourier transform over `ZMod N`; covariance of the real part of the transform of scaled white noise as a sum; iff non-negative spectrum.
* **C57** A point which the local search does not find cannot be answered with another point's element. Model/Search with incomplete local searches; collected pointers are packed; negation by witness, partial if every local search finds all points or none; exact description when one cell covers the points.
* **C58** Inside a coarse cell the reconstructed solution is the fine-scale solution with the coarse solution's boundary values. Model/LocalAssembly: quadrature sums of `CoarseBasisProduct`, `DirichletProduct` and the elliptic operator, solves, reconstruction; residual theorem, exact condition, witness.
* **C59** Neumann data act with the same sign in the correctors as in the global systems. Same model; iff, and what holds.
* **C60** Boundary conditions of the problems are complete and their data act. Model/Boundary: settings, `NormalBased`, Neumann data; tolerance as contract; Tarbert in two dimensions is trivial.
* **C61** Local correctors vanish on the whole boundary of the local grid. Model/Boundary joined with LocalAssembly: constrained nodes per problem, continuity, consequence for SPE10 and Tarbert.
* **C62** The projected multiscale solution takes the values of the coarse cell containing the fine element. Model/Proxy: covering test with tolerance, search per thread, evaluation; joined with the search theorems C08, C09.
* **C63** The projected solution does not depend on thread schedule or element order. Same model; order and threads as parameters of the walk; partial for continuous reconstructions, witness from SPE10-type local problems.
* **C64** The multiscale solution object can be created on every process. Construction with cell lists of a process; exact condition.
* **C65** Calls of the multiscale solver in one program do not influence each other. Model/SolutionManager: `Run` (local solves, coarse problem as function of the loaded solutions, reconstruction) with the clearing guard, also on exceptions; the specification mentions only the data of the call.
* **C66** The flux belongs to the diffusion matrix. Model/Synthetic, Permeability: flux functions next to `evaluate`; specification `Belongs f A`; exact conditions on the previous content of the objects.
* **C67** The diffusion of every problem is elliptic in the dimension of the build. Specification `Elliptic l u A`; diagonal matrices; joined with the readers (C40) and the cut-off of the random field (C47); negation in three dimensions.
* **C68** Every process can evaluate the random field in the local grids of its own coarse cells. Model/LoadBalance: default load balancer of YaspGrid, parts, number of segments; joined with LocalGrid and RandomField. Lexicographic minimality of the chosen process grid; exact condition on overlap and oversampling; negation for 4, 32, … processes in three dimensions.
* **C69** The fine part of each process lies in its coarse part. Model/LoadBalance for both grids; parts are a partition; exact divisibility condition per direction; scaling of the cost function; negation for different refinements, joined with search and projection (C09, C62).
* **C70** Processes draw unrelated random numbers. Model/RandomStream: linear congruential engine; closed form of the numbers; order of the multiplier (Lucas); exact correlation by summation over the cycle.
* **C71** The coarse system has exactly one solution. Model/Q1Grid: multilinear elements on structured coarse and local grids, joined with LocalAssembly, CoarseAssembly, DirichletSolve and Boundary. Energy argument: a kernel vector has sampled gradient zero; unisolvence at tensor points; increments along the edges of coarse cells. Negation: functions of one coordinate lie in the kernel if local problems are constrained on one face only.
* **C72** Without anything to correct, the method is the finite element method on the coarse grid. Same model; specification `femSamples`, `femNeumann`; cancellation around an interior node in each direction (no exactness of the rule needed); means over local cells; negations.
* **C73** Reconstructions of neighbouring coarse cells agree, also with oversampling. Model/Oversampling: patches of LocalGrid with the elements of Q1Grid, functionals with the continued coarse basis functions, cut and prolongation. `Covered`/`Inner` in terms of node numbers; locality of the rows; a patch is a grid with one coarse cell, so the results for C71 and C72 apply; two negations with one unknown per cell.
* **C74** The comparison of coarse and fine grid before the projection. Model/GridCheck: limits of the coordinates of the cells of a process (parts of Partition), comparison per direction. `Tells`: the comparison of floating point numbers separates grid coordinates. The parts are boxes, so equal limits mean equal sets of cells; with all processes one inclusion suffices. Negation: three processes, 5x5 cells refined by 2, two of them throw, and by C51 the program hangs.
* **C75** The flow in the log. Model/Flow: faces of a structured grid, quadrature on faces, sum over processes. Specification `inflow` with difference quotients of the multilinear function (`slope`) at the local position. The counted faces are those at the left side (`faces_sum`). Negations: the function is a new one (zero), the gradient is taken at the global position, first interior cell dereferenced without check.
* **C76** The reference solution. Model/FemSolver: both walks of the assembler, subtraction of the extension, constraints, solve. Specification `IsGalerkin` with difference quotients of the multilinear functions. The assembled matrix tested with v is the weak form (`matrix_dot`); zero energy means constant (`constant_of_energy`). The behaviour of the assembler in its second walk is a parameter: `C76_second_walk` says what happens if functors are kept.
* **C77** Numbers of cells that are not integers. Model/CellCounts: conversion of `double` to `unsigned int` with undefined range, the three places that compute numbers of cells. Specification `Nested`, `Fit` by grid lines and mesh widths. Exact condition on the fractions, separate one for local grids with oversampling; negations.
* **C78** Quadrature rules. Model/Quadrature: orders of the diffusions, of the operator of dune-gdt and of the integrals in the repository, number of Gauss points, tensor products. Gauss rules enter by a contract (positive weights, exact moments), from which the one-point rule and two different points follow. `Resolving` for all problems but the random one; flat functions (zero gradient at cell centres) decide the rest: zero if they vanish on the lower faces (local problems) or on one face in two dimensions, alternating modes in three.
* **C79** Error norms. Model/ErrorNorms: orders of the differences and products, sums over cells and quadrature points, square roots, quotients with infinity and not-a-number. Spec: Bochner integrals over the reference cube. Products of affine functions factor over tensor rules; two points are exact, one point loses the variance. Flat functions (C78) decide when a zero means equality, per problem; quadratic forms give the triangle inequality.
* **C80** Chain of results. Model/Report: fine grid of the structured refinement, the heterogeneous projection of the multiscale solution onto it (C28, C63), prolongation of the coarse solution, the reported numbers (C79). Spec: interpolation as a sum of hat functions, number of cells at a node as a product over the directions. Every node value is divided by the number of its cells; from that the printed norm, the exact condition for a zero difference, and with C72 and C76 the printed relative difference of two equal solutions.
* **C81** Model/FemSolver (C76). Spec: energy as a sum over quadrature points, minimisation over all nodal functions with the given boundary values. Energy difference of an admissible function to the solution is half the quadratic form of the difference; hence solutions are exactly the minimisers. Balance: the residuals at the Dirichlet nodes add up to minus the total source and Neumann data.
* **C82** Model/Pipeline: one run from the problem data to the multiscale solution, with local problems, storage, coarse system and reconstruction. What a run computes is characterised by the equations of correctors and coarse solution, the corner condition of C71 gives uniqueness, and the equations are linear in the data. The run is shown to succeed if the solvers return. Same for the reference solution.
* **C83** Model/Pipeline (C82), Model/FemSolver (C76). The correctors of the basis functions of a cell add up to zero; the Dirichlet corrector is the combination of them with the Dirichlet values, which the reconstruction adds a second time. So constants are reproduced exactly if the part of the constant at the Dirichlet nodes solves the local equations; witness with a jump. Linear functions with constant diagonal diffusion: no correctors, slopes on both sides of a node cancel. With oversampling (Props/LayeredConstants): the Dirichlet extension has kinks inside the local grid, the Dirichlet corrector does not vanish even for the Laplace equation.
* **C84** Model/NeumannFaces: intersections visited by the walk, condition of the functional, on top of Model/Pipeline. Spec: face integrals with hat functions given by distances, Neumann term as a sum over faces of the domain boundary. The local functional is the sum over all faces, inner faces twice; equality for data that vanish elsewhere, which holds for the registered problems; otherwise every run gives a function that is not zero although the data are.
* **C85** Model/Threads: one step is one access to common memory, a schedule lists whose turn it is, the phases solve and load are folds over a schedule; the run on top of Model/Pipeline. Spec: what any observer loads equals the given local solutions; the run equals the sequential one of C81-C83. Invariant: functions of different threads lie in disjoint ranges of memory, the list of a key is a prefix of the list of its own thread. Indices of coarse cells have to be distinct; with equal indices two schedules give different results. C85_missing: a thread that expects more solutions than are stored throws under every schedule. C85_same_layers (Model/LayeredThreads, Props/LayeredThreads): runs with oversampling.
* **C86** Model/OversampledRun: local solutions on grids of different sizes, coarse cells with the cells of the local grid that their centre puts into the coarse cell, assembly, solution, identify_fine_scale_part. Spec: the weak equations of all problems (IsCorrector, Computed), uniqueness by run against run. The assembled system is that of the grid without layers with the local solutions restricted to the coarse cell. Key to regularity (Props/TwoDirections): zero energy makes the corrected function constant on every coarse cell, so mixed second differences of the corrections cancel those of the coarse function; on the boundary of the domain the corrections vanish, so the coarse function is constant there. With Dirichlet faces in two directions the matrix is regular for arbitrary local solutions, in particular inaccurate ones. Props/NoLayers: without layers, or with one coarse cell and any number of layers, the run is the one of Model/Pipeline (nodes of the two local grids correspond, so the theorems on runs without oversampling apply).
* **C87** Model/GridCreation: announced number as size minus number of layers, visited cells as own cells. Spec: number of index tuples in the box of the process (Set.ncard). Exact error of the number; violated in every run on one process with oversampling, the announced number can be negative.
* **C88** Props/Units: spec `move`, `moveTensor` (coordinates x ↦ a + c x, diffusion c_i c_j A_ij). All forms get the factor product of the units times unit of the flux, so `Computed` carries over and uniqueness (C82) gives equality. C88_unit for the faces of the program (`boundaryOf`) and a common unit: source divided by the square, Neumann data by the unit. C88_same_reference for the reference solver. C88_same_layers (Props/LayeredUnits) for runs with oversampling: the local grids have the same numbers of cells, nodes correspond by their numbers.
* **C89** Model/Quadrature: orders of the sources, rule of the load of the reference problem. Spec: Bochner integrals over the reference cube of multivariate polynomials. Exactness from the degree in each direction; the counterexamples are the powers of one coordinate, where a two-point rule gives 7/36 for the fourth power and a one-point rule 1/8 for the third. Holds for the coarse matrix and the reference load; violated for the coarse load (order of the diffusion instead of the source) and for the elliptic operators.
* **C90** Spec.Turning: a permutation of the axes and a set of mirrored axes acting on points, directions, tensors, cells, nodes and corners. Shape functions, quadrature samples, local and coarse matrices and loads are carried over term by term; uniqueness (C82) then gives equality. The faces of the program (boundaryOf) are carried over if boundary info and rules on faces are. Same for the reference solution. With oversampling (Props/LayeredTurn) a mirrored cell has its left and right layers exchanged, so the local grids correspond too (`C90_turned_layers`).
* **C91** Model/FieldSize evaluates all expressions of type int with range checks. Exact condition on the number of cells; below it all values agree with the natural numbers used in Model/RandomField, above it init is undefined on every process.
* **C92** Model/Tests gives the tests as predicates of what the tested code delivers, and the expansion of the .mini files to configurations. For each test the exact set of accepted results is characterised independently of the program text.
* **C93** Model/ThreadVis: loop over coarse and fine cells, slots of the vectors, names of the files. Spec: the box of the local grid of Model/LocalGrid. Values of the functions exactly; violated with layers and for ids divisible by 2^32; partial without.
* **C94** Model/LayerCount: the arithmetic of localgridlist.cc:59-73 with an int number of layers, conversions to unsigned as outcomes. Non-negative numbers give the grids of Model/LocalGrid. Negative numbers: exact grid, exact range in which it is undefined, points of the domain in no local grid, share of the volume that is left, overlap of the coarse grid.
* **C95** Model/Printing: operator<<(double) of the standard library on an unconfigured stream (%.6g, rounding half to even) for rational numbers. Spec/Decimal: a reader of decimal numbers, numbers with six digits. Nearest number, relative error, exactness (iff), sign, monotonicity (from nearest alone), characters; with C30 the contents of the file.
* **C96** Model/RoundedGrid: the loop of localgridlist.cc with every operation rounded; `double` rounds to 53 digits. Error analysis of the limits; the exact limits are a whole number of fine cells away from the boundary, so the decision can only be wrong where a local grid should end on it. Exact condition, corollaries for fewer layers than micro cells and for double precision, negation by a grid of 5 coarse and 11 micro cells.
* **C97** Model/RoundedSearch: coordinates of the fine, coarse and local grids, geometry and inside test of DUNE with every operation rounded, put into the loop of Model/Search. Cells of one grid share computed coordinates, so there are no gaps inside a local grid and points are lost at its ends only. Proved for powers of two (all coordinates exact) and, with at least one layer on the unit cube, for at most 60 coarse cells and local grids smaller than a quarter of the domain (Props/OversampledSearch); reduced to a condition for each direction alone, met by the setups p_small, p_aniso and p_fail (Props/ShippedSearch) and p_wover (Props/LayeredSearch); negated for the configurations `p_large` (20 coarse, 40 micro cells) and `p_huge` (40 coarse, 120 micro cells), for 78 coarse and 3 micro cells and 65 coarse and 27 micro cells (search throws) and for 3 coarse and 44 micro cells (elements a whole cell off).
* **C98** Model/GridArguments: the conversions from the configuration to the arguments of the YaspGrid constructor (double to `unsigned int`, `int` to `unsigned int`, `unsigned int` to `int`, the last one modulo 2^32). Exact condition; negated for negative `grids.overlap` and from 2^31 cells per direction on. What YaspGrid does with such arguments is not modelled.

## Findings (claims that the code does not satisfy)

Each of these is a theorem whose name contains `violated` (or which says so in
its comment).

| Claim | What happens | Where |
|---|---|---|
| C02 | If the oversampling layers exceed the fine cells per coarse cell, the local grid of a cell near the boundary has another mesh size than the fine grid. | localgridlist.cc |
| C07 | The check multiplies `int`s; 65537 x 65536 cells wrap around. It subtracts the number of overlap layers (`overlapSize`) instead of the number of overlap cells: with overlap, as with oversampling, it never fires. | grid_creation.cc:59-64 |
| C10 | On a one-cell coarse grid every non-empty search throws; after a failed search the iterator stays at the end. | localgridsearch.cc |
| C13 | The lookup before the lock races with insertion. | df_io.hh |
| C15, C18 | `load` zeroes the function a slot points to before redirecting it, reconstruction scales the stored correctors in place. | localsolutionmanager.cc, msfem_solver.cc |
| C21 | For solvers other than UMFPACK solution and right-hand side are swapped, the result is zero. | localoperator.cc:191 |
| C23, C24, C54 | Coarse basis functions are evaluated at the local reference coordinate of the fine cell instead of the coarse cell. | coarse_scale_assembler.cc, coarse_rhs_functional.cc |
| C27 | Validity is checked before the Dirichlet extension is added. | coarse_scale_operator.cc |
| C28 | `set` overwrites, then the value is divided by the multiplicity. | heterogenous.cc |
| C29 | Documented keys `_H1`, reported keys `_H1s`; coarse errors against a reference that could not be built. | error_calc.cc |
| C37 | Synthetic, ER2007 and SPE10 assign only the diagonal. | problems/*.cc |
| C38 | Jacobian of the ER2007 source is that of the exact solution. | er2007.hh |
| C40 | A longer data file is written beyond the array before the count is checked. | spe10.cc |
| C41 | On the upper face in the first direction a wrong raster cell is read, also in double precision. In the second and third direction this happens in exact arithmetic only: the rounded quotients are below 220 and 35. | dune/multiscale/problems/tarbert.cc:110, 136-137 |
| C42 | Without white space after the last number this number is lost; text leads to an endless write; a file with too few numbers is accepted and later reads are of memory never written. | tarbert.cc |
| C43 | Scratch members shared by all threads. | tarbert.hh |
| C44 | A process count that is not a power of two is detected, the result is ignored. | random_permeability.hh |
| C45, C48 | More processes than segments; evaluation on the upper faces of a block is let through by the range check. | random_permeability.hh |
| C51 | The exception handler performs collective operations before aborting. | src/*.cc, main_init.cc |
| C52 | Different defaults for epsilon, reported refinement level unused. | print_info.cc |
| C53 | Global configuration is used for local grids. | localgridlist.cc |
| C55 | `new[]` is paired with `delete`. | tarbert.cc |
| C56 | Negative eigenvalues of the embedding are replaced by their absolute values. | random_permeability.hh |
| C57 | Finds are packed, so a point can get the element of another point, or a write passes the end. | localgridsearch.cc |
| C58 | The correction of the Dirichlet extension enters twice: the coarse coefficients contain the extension and the Dirichlet corrector is added as well. | coarse_scale_operator.cc:133, msfem_solver.cc:103 |
| C59 | The Neumann corrector is subtracted, the global systems add the same functional. | msfem_solver.cc:105 |
| C60 | Tarbert 2D: the nonzero Neumann data lie on the Dirichlet face, the solution is zero. | tarbert.cc |
| C61 | SPE10, Tarbert: local grids use the boundary types of the domain, so only one face is constrained; multiscale basis functions of the coarse nodes off this face vanish. | spe10.cc:35, tarbert.cc:25, localoperator.cc:102 |
| C63 | Where reconstructions of neighbouring cells differ (SPE10, Tarbert), the value written last stays, so the result depends on the schedule. | heterogenous.cc |
| C64 | The first correction is dereferenced even if there is none; the number of corrections is asserted to be the number of all cells including overlap. | localsolution_proxy.cc:14, 20 |
| C66, C67 | Synthetic and ER2007 assign two components only; the default build has three dimensions, so the third diagonal entry and the third flux component are those from before the call, and the diffusion is degenerate if they are zero. | synthetic.cc, er2007.cc |
| C68 | The random field splits the domain in other directions than YaspGrid if the logarithm of the number of processes leaves remainder 2 on division by 3 (three dimensions), so a process gets range errors in its own cells; `grids.overlap` is not compared with the oversampling either. | random_permeability.hh:209-256, random.cc:68 |
| C69 | Load balancing of the fine grid does not know the coarse grid: with different refinements, or numbers of cells not divisible by the processes, own fine elements lie in foreign coarse cells and the projection throws.  The block after `check_partitioning` only logs.  `make_grids` passes its communicator to the coarse grid only. | grid_creation.cc:69-130 |
| C70 | Seeds `rank + 1` of a multiplicative generator (libstdc++): the numbers of rank `r` are `r + 1` times those of rank 0 modulo 2^31 - 1, correlated with 1/2 for ranks 0 and 1; rank 16806 repeats rank 0. | random.cc:64-74, random_permeability.hh:109 |
| C71 | SPE10, Tarbert: because of C61 every coarse function of `y` alone is in the kernel of the coarse matrix, which is therefore singular after applying the constraints; in three dimensions the system with the Neumann data of the problem has no solution. | spe10.cc:35, tarbert.cc:25, coarse_scale_operator.cc:36-92 |
| C72 | Even without correctors the load of a refined coarse cell is not the finite element load: every local cell is sampled with the values of the coarse shape functions over the whole reference cell (C54), which amounts to replacing source and diffusion by means over the local cells. | coarse_rhs_functional.cc:76-78, coarse_scale_assembler.cc:46-110 |
| C73 | With oversampling the correctors of neighbouring coarse cells are not zero at common nodes: values written to the same fine node differ (6/5 and 4/5 of the coarse value for diffusion 1 + x, one layer).  The Dirichlet extension is piecewise multilinear on a patch while the basis functions are continued as polynomials, so even for the Laplace equation with Dirichlet data 1 boundary cells and inner cells disagree; the Dirichlet and Neumann correctors are added after the cut. | msfem_solver.cc:82-109, localoperator.cc:61-170 |
| C74 | The outcome of the grid comparison differs between processes (5x5 coarse cells, refinement 2, three processes: ranks 0 and 1 throw, rank 2 goes on), so the program hangs in different collective operations instead of stopping with the message. | error_calc.cc:116-136 |
| C75 | The value after FLOW is always 0: it is computed for a newly made function, not for the solution. For a given function the gradient is evaluated at the global position instead of the local one (wrong sign possible on domains larger than the unit square). Undefined on processes without interior coarse cells, e.g. with more processes than coarse cells. | error_calc.cc:184-187, 356-358, 372-376 |
| C77 | The numbers of cells are read as `double` and truncated at different places: 2.5 coarse cells with 2 micro cells give 2 coarse and 5 fine cells, which are not nested; 2.25 micro cells give a wrong mesh width of oversampled local grids only. Products from 2^32 on are undefined. | grid_creation.cc:35-44, 100, localgridlist.cc:63-69 |
| C78 | The diffusion of the random problem declares order 1, so dune-gdt integrates its elliptic operators with the midpoint rule. In three dimensions, where two opposite faces are Dirichlet faces, the matrix of the reference problem is singular (modes that alternate in the other two directions). The right-hand sides of the local problems use another rule than the operator. | random.cc:157-160, fem_solver.cc:64-70, diffusion_evaluation.hh:83 |
| C79 | With the default `over_integrate` the H1 semi norm of a difference of discrete functions is computed with the midpoint rule: too small in general, zero for functions arbitrarily far apart; in three dimensions even for solutions with the same Dirichlet values (SPE10, Tarbert, Random). With ER2007 the numbers against the exact solution use another rule, so the three numbers violate the triangle inequality. The relative difference to the coarse solution is `nan` or `inf` for a zero solution (as for Tarbert in two dimensions, C60). | error_calc.cc:144, 202-253, 291 |
| C80 | The numbers for the multiscale solution are those of the projected function, whose values are divided by the number of fine cells at the node (C28). With homogeneous Dirichlet values the printed norm is 2^-d of the norm, and if the multiscale solution and the coarse solution are the same function, the printed relative difference is 3 in two dimensions and 7 in three. | error_calc.cc:175-178, 229-241, 286-291 |
| C83 | The reconstruction adds the Dirichlet corrector to a combination of correctors that has the Dirichlet values already, so with Dirichlet data one and no source the multiscale solution is not one if the diffusion jumps inside a coarse cell at the boundary. | localoperator.cc:60-75, msfem_solver.cc:43-80 |
| C83 | With oversampling layers the boundary value one is not reproduced even for the Laplace equation: the Dirichlet extension is piecewise linear on the coarse grid, with kinks inside the local grids, and its corrector is added to the reconstruction. Without layers the result is one. | localoperator.cc:60-77, localproblemsolver.cc:67-90 |
| C84 | The Neumann functional of the local problems is added without a condition on the intersections, so it integrates over all faces of all local cells (inner ones twice). With Neumann data that do not vanish off the Neumann faces, e.g. constant data in a problem without Neumann faces, the multiscale solution is wrong on all coarse cells at the boundary. The registered problems are not affected. | localoperator.cc:77-81 |
| C87 | The log announces `size(0) - overlapSize(0)` coarse cells. `overlapSize` is a number of layers, not of cells. With oversampling the number is too small on one process (it can be negative) and in general too large on several (`C87_announced`, `C87_violated_serial`, `C87_violated`). | localproblemsolver.cc:118-122, 161 |
| C89 | The order of the quadrature of the coarse load is that of the diffusion plus that of the elements; the source does not enter. For ER2007, SPE10 and Tarbert it is too low for sources of the declared order 3, while the reference load is exact (`C89_coarse_load_partial`; SPE10 and Tarbert have source zero, so only ER2007 is affected). The elliptic operators of dune-gdt reduce the order by one per gradient, which is too low for multilinear elements (`C89_violated_operator`). | coarse_rhs_functional.cc:40, diffusion_evaluation.hh:83 |
| C91 | the scaling factor is computed as 1.0 / (_2N * _2N * _2N) with 32-bit integers: undefined behaviour on grids with 1024 or more cells per direction in three dimensions (32768 in two), on every process and for any number of processes | random_permeability.hh:154, 187 |
| C92 | compare_msfem cannot pass: the bounds are stored as expected_errors.fem_exact_*, the test reads expected_errors.msfem_exact_* with default -1; compare_cgfem accepts a run without any reported error (operator[] inserts zero); check_fine_lp_in_coarse accepts every fine grid, since it takes local coordinates with respect to the fine element itself; check_dimensions compares total numbers of cells only | test/compare_msfem.mini:29-31, test/compare_msfem.cc:20-21, test/grid_creation.cc:67, 118-125 |
| C93 | subgrid_vis marks the fine cells of the coarse cell (covers_strict tests the coarse cell), not those of its local grid: oversampling layers are never shown; a coarse cell with id zero is invisible; the files *_coarse_cell are zero everywhere | src/thread_vis.cc:130-148 |
| C94 | negative numbers of oversampling layers are accepted without a message: -k cuts k layers of cells off every coarse cell, no local grid contains a coarse node, and the coarse system is assembled on a part of the domain; undefined conversion if 2k exceeds the micro cells | dune/multiscale/msfem/localproblems/localgridlist.cc:38,64-69 |
| C96 | with as many layers as micro cells per macro cell a rounding error decides whether a local grid that should end on the boundary is taken to exceed it; with 5 coarse cells, 11 micro cells and 11 layers on the unit interval the local grid of the second coarse cell has 22 instead of 33 cells and no longer resolves its coarse cell | dune/multiscale/msfem/localproblems/localgridlist.cc:64-69 |
| C97 | without oversampling, or with few coarse cells, the search misses corners of fine elements because of rounding errors and fills in elements found for other corners: in double precision for 20 coarse and 40 micro cells (p_large) the left corners of the elements with index 120 lie in no element of the local grid; for 3 coarse and 44 micro cells elements a whole fine cell away are returned; with two coarse cells, 126 micro cells and six layers the corners at the right end of the domain are missed; for 78 coarse and 3 micro cells no coarse cell covers the corners of the elements with index 209 and the search throws | dune/multiscale/msfem/localproblems/localgridsearch.cc:29-68 |
| C98 | a negative `grids.overlap` is not refused and reaches the constructor of the grid; from 2^31 fine cells in one direction on the constructor gets a negative number of cells | grid_creation.cc:46, 100, mygridfactory.hh:74, 80 |

## Assumptions about external code

None of the following code is in the repository.  The assumptions are
parameters or hypotheses of the theorems, or part of the transcription.

* **Rounding** (C05, C39, C41, C77, C94): operations on `double` round to a nearest number
  with 53 binary digits (relative error, order and integers follow, Props/Double).
  Otherwise arithmetic is exact.
* **Linear solvers** (C19-C21, C25-C27): a call that returns has solved the
  system; it may also throw.
* **Constraints of dune-gdt**: `apply` on a matrix yields unit rows, on a
  vector zeros at the constrained degrees of freedom.
* **Grid walkers**: every element of the view is visited once, in an arbitrary
  order; the theorems quantify over the order.
  `assemble` called several times adds the same contributions again if the
  functors are kept; C58 holds for any positive number of passes.  For the
  global systems (C25-C27, C71-C73, C76) functors have to be dropped after a
  walk; `C76_second_walk_wrong` shows that this assumption is needed.
* **Local spaces** (C58): the coarse basis functions of a cell lie in the fine
  space of its local grid (`Cell.Nested`), prolongation is nodal interpolation,
  all functionals and the operator use the same quadrature points (C78: true for
  all problems but the random one).
* **`NormalBased`, `AllDirichlet`, `DirichletConstraints`** (C60, C61): compare
  normals with a tolerance (contract `Tolerance`); a node is constrained if
  it lies on a Dirichlet face.
* **`LocalDoFVector::set`** (C28): overwrites.  The theorem for the accumulating
  reading is there as well.
* **FieldMatrix/FieldVector**: a new object has arbitrary content (C37 states
  what follows if it is zero).
* **`std::map`, `std::vector`, `shared_ptr`, streams, `to_string`**: standard
  semantics as far as used, transcribed in Model/Text, IOCache, OutputFiles.
* **Configuration of dune-xt**: a map from key paths to strings with defaults.
* **Entity search in a leaf view** (C08-C10, C57): returns, per point, an
  element containing the point or nothing.  C57 is about searches which find
  some points only.
* **Coordinates of YaspGrid** (C96, C97): the default grid with equidistant coordinates computes coordinate `i` as `a + i * h` with
  `h = (b - a) / n`; `AxisAlignedCubeGeometry` maps with `lower + t * (upper - lower)` and back with a quotient; `checkInside` has the
  tolerance `64 * 2^-52` (the positive theorems allow tolerances from `2^-49` to `2^-44`).  From knowledge of dune-grid and dune-geometry.
* **`checkInside`** (C62): reference coordinates in the unit cube up to a
  tolerance.  Threads interleave element by element, each with its own search
  object; data races inside `set` are not modelled.
* **FFTW** (C46, C56): unnormalised discrete Fourier transform with the sign of
  `FFTW_FORWARD`, slabs along the first direction.  **MPI**: an active put
  or get between fences reads and writes the addressed window.
* **Load balancing of YaspGrid** (C68, C69): no balancer is passed, so the default
  one of dune-grid is used; `YLoadBalanceDefault` and the `Torus` class are
  transcribed in Model/LoadBalance from knowledge of dune-grid.
* **`std::default_random_engine`** (C70): `minstd_rand0`, as in libstdc++; the
  standard leaves the choice to the implementation.  The transformation to
  normal numbers is not modelled, C70 is about the numbers of the engine.
* **Grid limits** (C74): `DSG::dimensions` gives the smallest and largest coordinate of the
  cells of a view; `FloatCmp::eq` holds for equal numbers and not for two different
  coordinates of fine grid lines (`Tells`).
* **Flow** (C75): new discrete functions have coefficients zero; `jacobian` of a local function
  takes positions of the reference element; faces of cube grids as in dune-grid.
* **Quadrature** (C78): the elliptic operator of dune-gdt is integrated with the order of the diffusion plus the orders of the
  gradients (`ellipticOrder`, from knowledge of dune-gdt); dune-geometry uses the tensor product of the smallest Gauss rule
  that is exact (`IsGauss`).
* **Products** (C79): the localizable products of dune-gdt integrate with twice the order of the function (L2), twice the order of
  its gradient (H1 semi norm, the elliptic evaluation with the constant one), plus `over_integrate`; a difference has the larger
  of the two orders (transcribed, dune-stuff).
* **Prolongation** (C80): the Lagrange prolongation evaluates the coarse function at the fine nodes, in any coarse cell that contains
  the node (dune-gdt).
* **Walk** `SystemAssembler::add` without a second argument applies a face functional on all intersections (`ApplyOn::AllIntersections`, C84).
* **Threads** (C85): allocation of memory and one access to the store of saved functions are atomic (that the store is not locked on all paths is C13). The walker hands every coarse cell to exactly one thread.
* **dune-testtools, gtest** (C92): the generator makes one configuration of each value marked `expand` and replaces references in braces, inner ones first; a test passes if no `EXPECT_…` failed.
* **Elements** (C71-C73): continuous multilinear elements (dune-pdelab, order one),
  reference corners numbered by bits, tensor Gauss rules with positive weights
  and two or more points per direction (`Resolving`; C78 shows for which problems
  and systems this holds).  A face functional is
  zero at interior nodes (for the local problems see C84).
* **Random numbers** (C49, C56): the second moments of independent standard
  normal numbers, as hypotheses on an expectation functional.

## What is modelled

| Source | Model | Not modelled |
|---|---|---|
| common/grid_creation.cc, mygridfactory.hh | GridCreation, CellCounts, LoadBalance | grid construction inside dune-grid |
| common/df_io.{hh,cc} | IOCache, Text | the bytes of the disk format (external serialisation) |
| common/error_calc.cc | ErrorReport, GridCheck, Flow, ErrorNorms, Report | reduction over processes |
| common/heterogenous.{hh,cc} | Projection, Proxy | geometry of reference elements |
| common/main_init.cc, src/cgfem.cc, src/msfem.cc, src/fail.cc | Program | logging, profiler tables |
| msfem/algorithm.cc, fem/algorithm.cc | OutputFiles, Program, ErrorReport | VTK content |
| fem/print_info.cc | Config | formatting |
| msfem/localproblems/localgridlist.cc | LocalGrid, RoundedGrid, CellCounts, Config | |
| msfem/localproblems/localgridsearch.cc | Search, RoundedSearch | search inside one leaf view |
| msfem/localproblems/localsolutionmanager.cc | SolutionManager, LocalSolve | |
| msfem/localproblems/localoperator.cc, localproblemsolver.cc, msfem/diffusion_evaluation.hh | LocalSolve, LocalAssembly, Q1Grid, Oversampling, NeumannFaces | |
| boundary infos and boundary data in problems/*.cc | Boundary | |
| msfem/coarse_scale_{assembler,operator}.cc, coarse_rhs_functional.cc | CoarseAssembly, DirichletSolve | |
| msfem/fem_solver.cc | DirichletSolve, FemSolver, Quadrature | options of the linear solver |
| msfem/msfem_solver.cc, localsolution_proxy.cc | SolutionManager, LocalAssembly, Proxy, Pipeline | |
| problems/selector.cc | Selector | |
| problems/synthetic.cc, er2007.* | Synthetic | |
| problems/spe10.cc, tarbert.cc | Permeability | |
| problems/random.cc, random_permeability.hh | RandomField, Covariance, LoadBalance, RandomStream, Quadrature | transformation of engine to normal numbers |
| tools/misc/outputparameter.* | OutputFiles | |
| problems/thirteen.* | - | not registered, does not match its header |
| test/*, src/minimal.cc, src/thread_vis.cc | - | test and demonstration programs |

Axioms used by every manifest theorem are listed in `AXIOMS.txt` (generated
from `#print axioms`); no other axioms occur.
