{
 "claims": [
  {
   "property": "C01",
   "status": "proved",
   "theorems": [
    "Verif.LocalGrid.C01_local_grid_box"
   ],
   "note": ""
  },
  {
   "property": "C02",
   "status": "partial",
   "theorems": [
    "Verif.LocalGrid.C02_single_cell",
    "Verif.LocalGrid.C02_resolves_fine_mesh_partial",
    "Verif.LocalGrid.C02_violated"
   ],
   "note": "Fails in general (C02_violated). C02_resolves_fine_mesh_partial: it holds for all coarse cells iff per direction there is one coarse cell or the layers do not exceed the micro cells per macro cell; C02_single_cell is the exact condition per coarse cell."
  },
  {
   "property": "C03",
   "status": "proved",
   "theorems": [
    "Verif.LocalGrid.C03_covered_cells_tile",
    "Verif.LocalGrid.C03_fails_without_alignment",
    "Verif.LocalGrid.C03_strict_iff"
   ],
   "note": "Under the alignment hypothesis, which is necessary (C03_fails_without_alignment)."
  },
  {
   "property": "C04",
   "status": "proved",
   "theorems": [
    "Verif.GridCreation.C04_fine_grid_nested"
   ],
   "note": ""
  },
  {
   "property": "C05",
   "status": "proved",
   "theorems": [
    "Verif.GridCreation.C05_coarse_overlap_least",
    "Verif.Double.C05_double",
    "Verif.Double.double_nearest"
   ],
   "note": "Floating point division and ceil enter through the contract Rounding, which rounding to nearest double precision numbers meets."
  },
  {
   "property": "C06",
   "status": "proved",
   "theorems": [
    "Verif.GridCreation.C06_yasp_overlap",
    "Verif.GridCreation.C06_coarse_grid",
    "Verif.GridCreation.C06_spgrid",
    "Verif.Double.C06_double"
   ],
   "note": ""
  },
  {
   "property": "C07",
   "status": "partial",
   "theorems": [
    "Verif.GridCreation.C07_rank0_check_partial",
    "Verif.GridCreation.C07_size_counts",
    "Verif.GridCreation.C07_violated_overlap",
    "Verif.GridCreation.C07_violated"
   ],
   "note": "Violated twice: the number of overlap layers is subtracted instead of the number of overlap cells, so that with overlap the check never fires (C07_violated_overlap), and 32-bit wrap-around makes it fire for a process that owns one row (C07_violated). C07_rank0_check_partial is the exact condition when the product of cell counts is below 2^31."
  },
  {
   "property": "C08",
   "status": "proved",
   "theorems": [
    "Verif.Search.C08_search_result",
    "Verif.Search.C08_search_elements"
   ],
   "note": ""
  },
  {
   "property": "C09",
   "status": "proved",
   "theorems": [
    "Verif.Search.C09_terminates",
    "Verif.Search.C09_succeeds",
    "Verif.Search.C09_throws"
   ],
   "note": ""
  },
  {
   "property": "C10",
   "status": "partial",
   "theorems": [
    "Verif.Search.C10_violated_single_cell",
    "Verif.Search.C10_violated_witness",
    "Verif.Search.C10_violated_reuse",
    "Verif.Search.C10_copy_is_usable_partial"
   ],
   "note": "Violated: with a single coarse cell every non-empty search throws, and after a failed search the object runs into the end iterator. Partial: a fresh copy succeeds with at least two coarse cells."
  },
  {
   "property": "C11",
   "status": "proved",
   "theorems": [
    "Verif.IOCache.C11_store_refines_map",
    "Verif.IOCache.C11_disk_always_throws",
    "Verif.IOCache.C11_disk_directories"
   ],
   "note": ""
  },
  {
   "property": "C12",
   "status": "proved",
   "theorems": [
    "Verif.IOCache.C12_location_roundtrip",
    "Verif.IOCache.C12_distinct_cells",
    "Verif.IOCache.C12_names_alias"
   ],
   "note": ""
  },
  {
   "property": "C13",
   "status": "partial",
   "theorems": [
    "Verif.IOCache.C13_same_key_same_backend_partial",
    "Verif.IOCache.C13_no_assert_distinct_keys_partial",
    "Verif.IOCache.C13_read_phase_safe_partial",
    "Verif.IOCache.C13_violated_race",
    "Verif.IOCache.C13_violated_assert"
   ],
   "note": "Violated: the unlocked lookup races with insertions. Partial theorems: safety of running states, absence of assertion failures for distinct keys, safety of the read phase."
  },
  {
   "property": "C14",
   "status": "proved",
   "theorems": [
    "Verif.Manager.C14_loaded_is_saved",
    "Verif.Manager.C14_order_irrelevant",
    "Verif.Manager.C14_too_many_throws"
   ],
   "note": ""
  },
  {
   "property": "C15",
   "status": "partial",
   "theorems": [
    "Verif.Manager.C15_fresh_loads_repeatable_partial",
    "Verif.Manager.C15_violated_second_load",
    "Verif.Manager.C15_violated_load_after_save"
   ],
   "note": "Violated: a second load on the same manager, or a load on the manager that saved, sets the stored solutions to zero. Partial: repeated loads through fresh managers."
  },
  {
   "property": "C16",
   "status": "proved",
   "theorems": [
    "Verif.Manager.C16_reconstruction",
    "Verif.Manager.C16_other_cells_undisturbed"
   ],
   "note": ""
  },
  {
   "property": "C17",
   "status": "proved",
   "theorems": [
    "Verif.Manager.C17_cut",
    "Verif.Manager.C17_order_irrelevant"
   ],
   "note": ""
  },
  {
   "property": "C18",
   "status": "partial",
   "theorems": [
    "Verif.Manager.C18_second_run",
    "Verif.Manager.C18_repeat_agrees_partial",
    "Verif.Manager.C18_violated"
   ],
   "note": "Violated: reconstruction modifies the stored correctors in place. A repetition uses the squared coefficients (C18_second_run). Partial: exact condition under which both runs agree."
  },
  {
   "property": "C19",
   "status": "proved",
   "theorems": [
    "Verif.LocalSolve.C19_local_solutions",
    "Verif.LocalSolve.C19_interior_cells_zero"
   ],
   "note": ""
  },
  {
   "property": "C20",
   "status": "proved",
   "theorems": [
    "Verif.LocalSolve.C20_slots_end_to_end",
    "Verif.LocalSolve.C20_slots_coarse_rhs",
    "Verif.LocalSolve.C20_simplex_refused",
    "Verif.LocalSolve.C20_list_too_short",
    "Verif.LocalSolve.C20_simplex_counts"
   ],
   "note": ""
  },
  {
   "property": "C21",
   "status": "partial",
   "theorems": [
    "Verif.LocalSolve.C21_direct_solver_partial",
    "Verif.LocalSolve.C21_violated_generic",
    "Verif.LocalSolve.C21_violated_witness",
    "Verif.LocalSolve.C21_reported"
   ],
   "note": "Violated: the generic branch passes solution and right-hand side in the other order, so it returns zero. Partial: the direct solver branch."
  },
  {
   "property": "C22",
   "status": "proved",
   "theorems": [
    "Verif.CoarseAssembly.C22_matrix_entries",
    "Verif.CoarseAssembly.C22_order_irrelevant",
    "Verif.CoarseAssembly.C22_local_order_irrelevant"
   ],
   "note": ""
  },
  {
   "property": "C23",
   "status": "partial",
   "theorems": [
    "Verif.CoarseAssembly.C23_symmetric",
    "Verif.CoarseAssembly.C23_nonneg",
    "Verif.CoarseAssembly.C23_energy_as_sampled",
    "Verif.CoarseAssembly.C23_energy_partial",
    "Verif.CoarseAssembly.C54_violated_matrix"
   ],
   "note": "Symmetry and non-negativity hold in full. The energy identity holds for the basis as sampled by the code; with respect to the multiscale gradient only if the coarse basis is sampled in place (C54)."
  },
  {
   "property": "C24",
   "status": "partial",
   "theorems": [
    "Verif.CoarseAssembly.C24_load_entries",
    "Verif.CoarseAssembly.C24_order_irrelevant",
    "Verif.CoarseAssembly.C54_sampled_in_place_partial",
    "Verif.CoarseAssembly.C54_violated_load"
   ],
   "note": "The sum formula and order independence hold for the basis as sampled by the code; the values are those of the multiscale basis only if it is sampled in place (C54). The Dirichlet extension is never filled, so it contributes zero."
  },
  {
   "property": "C25",
   "status": "proved",
   "theorems": [
    "Verif.DirichletSolve.C25_coarse_solution",
    "Verif.DirichletSolve.C25_unique",
    "Verif.DirichletSolve.C25_system_solvable"
   ],
   "note": "The linear solver is a parameter with the contract that a returned vector solves the system."
  },
  {
   "property": "C26",
   "status": "proved",
   "theorems": [
    "Verif.DirichletSolve.C26_fem_solution",
    "Verif.DirichletSolve.C26_history_irrelevant",
    "Verif.DirichletSolve.C26_twice",
    "Verif.DirichletSolve.C26_agrees_with_coarse"
   ],
   "note": "The linear solver is a parameter with the contract that a returned vector solves the system."
  },
  {
   "property": "C27",
   "status": "partial",
   "theorems": [
    "Verif.DirichletSolve.C27_returns_iff_partial",
    "Verif.DirichletSolve.C27_invalid_state_iff_partial",
    "Verif.DirichletSolve.C27_result_valid_partial",
    "Verif.DirichletSolve.C27_violated_result",
    "Verif.DirichletSolve.C27_violated_exception"
   ],
   "note": "Violated twice: the validity check runs before the Dirichlet extension is added, and a solver exception other than a linear solver failure is passed on unchanged. The partial theorems give the exact conditions."
  },
  {
   "property": "C28",
   "status": "partial",
   "theorems": [
    "Verif.Projection.C28_projection_result_partial",
    "Verif.Projection.C28_violated",
    "Verif.Projection.C28_violated_constant",
    "Verif.Projection.C28_projection_accumulating",
    "Verif.Projection.C28_missing_point_throws",
    "Verif.Projection.C28_defined",
    "Verif.Projection.C28_out_of_bounds"
   ],
   "note": "Violated if LocalDoFVector::set of dune-gdt overwrites, as its name says; if it accumulated, the property would hold (C28_projection_accumulating). That function is not in the repository."
  },
  {
   "property": "C29",
   "status": "partial",
   "theorems": [
    "Verif.ErrorReport.C29_reported_partial",
    "Verif.ErrorReport.C29_throws_iff",
    "Verif.ErrorReport.C29_violated_documented_keys",
    "Verif.ErrorReport.C29_violated_coarse_failure",
    "Verif.ErrorReport.C29_names_partial",
    "Verif.ErrorReport.C29_reference",
    "Verif.ErrorReport.C29_registered",
    "Verif.ErrorReport.C29_missing"
   ],
   "note": "The documentation lists _H1 keys, the code reports _H1s; a failed coarse reference solve drops the fine reference but still reports coarse errors. The partial theorems give the exact set of keys."
  },
  {
   "property": "C30",
   "status": "proved",
   "theorems": [
    "Verif.ErrorReport.C30_roundtrip",
    "Verif.ErrorReport.C30_report_roundtrip",
    "Verif.ErrorReport.C30_keys_ascending",
    "Verif.ErrorReport.C30_injective"
   ],
   "note": "For the values as printed. Printing a double with the default six digits is a parameter here; C95 treats it."
  },
  {
   "property": "C31",
   "status": "proved",
   "theorems": [
    "Verif.OutputFiles.C31_error_files_distinct",
    "Verif.OutputFiles.C31_corrections_distinct",
    "Verif.OutputFiles.C31_parts_distinct",
    "Verif.OutputFiles.C31_msfem_run_distinct",
    "Verif.OutputFiles.C31_reference_files",
    "Verif.OutputFiles.C31_coarse_files",
    "Verif.OutputFiles.C31_fixed_width"
   ],
   "note": "For whole runs: the files of msfem_algorithm are distinct; cgfem_algorithm writes its solution twice under one name (cgfem_writes_twice)."
  },
  {
   "property": "C32",
   "status": "proved",
   "theorems": [
    "Verif.OutputFiles.C32_mean_between",
    "Verif.OutputFiles.C32_columns",
    "Verif.OutputFiles.C32_only_rank0",
    "Verif.OutputFiles.C32_needs_fit",
    "Verif.OutputFiles.C32_values"
   ],
   "note": "For non-negative peaks whose total fits in a long; C32_needs_fit shows that this is needed."
  },
  {
   "property": "C33",
   "status": "proved",
   "theorems": [
    "Verif.Selector.C33_lookup_iff",
    "Verif.Selector.C33_rejected",
    "Verif.Selector.C33_accepted",
    "Verif.Selector.C33_total",
    "Verif.Selector.C33_default",
    "Verif.Selector.C33_name_unique"
   ],
   "note": ""
  },
  {
   "property": "C34",
   "status": "proved",
   "theorems": [
    "Verif.Synthetic.C34_diagonal_bounds",
    "Verif.Synthetic.C34_uniformly_elliptic",
    "Verif.Synthetic.C34_flux_elliptic"
   ],
   "note": "Two dimensions, exact real arithmetic. The bounds for evaluate are for a result object which is zero before the call (see C37); those for diffusiveFlux need no such assumption."
  },
  {
   "property": "C35",
   "status": "proved",
   "theorems": [
    "Verif.Synthetic.C35_gradient"
   ],
   "note": "Two dimensions, exact real arithmetic. In higher dimensions the further components are not assigned (jacobian_third_component)."
  },
  {
   "property": "C36",
   "status": "proved",
   "theorems": [
    "Verif.Synthetic.C36_source",
    "Verif.Synthetic.C36_boundary_value_problem",
    "Verif.Synthetic.C36_homogeneous"
   ],
   "note": "Two dimensions, exact real arithmetic, for the flux built from the exact solution's gradient."
  },
  {
   "property": "C37",
   "status": "partial",
   "theorems": [
    "Verif.Permeability.C37_random_tarbert_partial",
    "Verif.Permeability.C37_violated",
    "Verif.Permeability.C37_same_off_diagonal_partial",
    "Verif.Permeability.C37_reuse_partial",
    "Verif.Synthetic.C37_random_isotropic"
   ],
   "note": "Holds for Random and Tarbert; violated for Synthetic, ER2007 and SPE10, which assign only the diagonal. For result objects that are zero before the first use the result is determined."
  },
  {
   "property": "C38",
   "status": "partial",
   "theorems": [
    "Verif.Synthetic.C38_exact_gradient_partial",
    "Verif.Synthetic.C38_source_partial",
    "Verif.Synthetic.C38_violated",
    "Verif.Synthetic.C38_violated_iff"
   ],
   "note": "Exact solution, its gradient and the source fit together; violated for the jacobian of the source, which is the one of the exact solution."
  },
  {
   "property": "C39",
   "status": "proved",
   "theorems": [
    "Verif.Permeability.C39_in_block",
    "Verif.Permeability.C39_conversion_defined",
    "Verif.Permeability.C39_right_cell",
    "Verif.Permeability.C39_distinct",
    "Verif.Permeability.C39_cells_cover",
    "Verif.Double.C39_double",
    "Verif.Double.C39_right_cell_double",
    "Verif.Double.C39_face"
   ],
   "note": "Index bounds for every monotone rounding, in particular double precision; the cell is the one containing the point in exact arithmetic, and in double precision except within 2^-43 of the width of a cell from its inner faces."
  },
  {
   "property": "C40",
   "status": "partial",
   "theorems": [
    "Verif.Permeability.C40_read_partial",
    "Verif.Permeability.C40_missing_file",
    "Verif.Permeability.C40_violated",
    "Verif.Permeability.C40_default_identity"
   ],
   "note": "Holds for files with at most as many numbers as expected; violated for longer files: the array is overrun before the count is checked."
  },
  {
   "property": "C41",
   "status": "partial",
   "theorems": [
    "Verif.Permeability.C41_in_block_partial",
    "Verif.Permeability.C41_right_cell_partial",
    "Verif.Permeability.C41_violated",
    "Verif.Permeability.C41_value_partial",
    "Verif.Double.C41_in_block_double_partial",
    "Verif.Double.C41_right_cell_double_partial",
    "Verif.Double.C41_violated_double",
    "Verif.Double.C41_upper_faces_double"
   ],
   "note": "Array bounds hold on the closed domain, also with rounded widths and limits. The right cell is used below the upper boundary in exact arithmetic, and in every rounding to nearest at least 2^-43 widths away from the faces of the raster. On the upper faces a wrong cell is used: in exact arithmetic in all directions, in double precision in the first direction only."
  },
  {
   "property": "C42",
   "status": "partial",
   "theorems": [
    "Verif.Permeability.C42_read_partial",
    "Verif.Permeability.C42_violated_last",
    "Verif.Permeability.C42_violated_short",
    "Verif.Permeability.C42_violated_overflow",
    "Verif.Permeability.C42_violated_garbage"
   ],
   "note": "Holds for well-formed files ending with white space; violated if the file ends directly after the last number, has too many or too few numbers, or contains text."
  },
  {
   "property": "C43",
   "status": "partial",
   "theorems": [
    "Verif.Permeability.C43_sequential_partial",
    "Verif.Permeability.C43_same_cell_partial",
    "Verif.Permeability.C43_violated",
    "Verif.Permeability.C43_violated_mixed"
   ],
   "note": "Violated: shared scratch members. Holds for one evaluation after the other and for points in the same raster cell."
  },
  {
   "property": "C44",
   "status": "partial",
   "theorems": [
    "Verif.RandomField.C44_bijection",
    "Verif.RandomField.C44_power_of_two",
    "Verif.RandomField.C44_others_detected",
    "Verif.RandomField.C44_violated"
   ],
   "note": "Process grid and bijection hold; partition detects other process counts, but its caller ignores the result and computes with uninitialised numbers."
  },
  {
   "property": "C45",
   "status": "partial",
   "theorems": [
    "Verif.RandomField.C45_block",
    "Verif.RandomField.C45_cover_partial",
    "Verif.RandomField.C45_all_nodes_partial",
    "Verif.RandomField.C45_violated"
   ],
   "note": "Shape of the blocks holds in general. They cover the field if there are not more processes per direction than segments; violated otherwise."
  },
  {
   "property": "C46",
   "status": "proved",
   "theorems": [
    "Verif.RandomField.C46_redistribute2",
    "Verif.RandomField.C46_redistribute3",
    "Verif.RandomField.C46_common_value2",
    "Verif.RandomField.C46_common_value3",
    "Verif.RandomField.C46_window2",
    "Verif.RandomField.C46_window3",
    "Verif.RandomField.C46_outside2",
    "Verif.RandomField.C46_outside3"
   ],
   "note": "Contents of the blocks, validity of remote accesses, and every value returned by evaluation depends only on the common field and the point, also on the faces of the block. Where evaluation is undefined see C48. Exact arithmetic."
  },
  {
   "property": "C47",
   "status": "proved",
   "theorems": [
    "Verif.RandomField.C47_value2",
    "Verif.RandomField.C47_value3",
    "Verif.RandomField.C47_range_error",
    "Verif.RandomField.C47_at_least_minimal"
   ],
   "note": "For every value that is returned, also on the faces of the block; where evaluation is undefined see C48. Exact arithmetic."
  },
  {
   "property": "C48",
   "status": "partial",
   "theorems": [
    "Verif.RandomField.C48_no_ub_partial",
    "Verif.RandomField.C48_violated",
    "Verif.RandomField.C48_ub_iff2",
    "Verif.RandomField.C48_ub_iff3"
   ],
   "note": "Violated on the upper faces of the block, which the range check accepts; exact conditions in two and three dimensions."
  },
  {
   "property": "C49",
   "status": "proved",
   "theorems": [
    "Verif.RandomField.C49_visible",
    "Verif.RandomField.C49_all_new"
   ],
   "note": "Given that the transforms yield different fields, which is a property of the random numbers."
  },
  {
   "property": "C50",
   "status": "proved",
   "theorems": [
    "Verif.Covariance.C50_even",
    "Verif.Covariance.C50_exact",
    "Verif.Covariance.C50_correlation"
   ],
   "note": "Exact real arithmetic."
  },
  {
   "property": "C51",
   "status": "partial",
   "theorems": [
    "Verif.Program.C51_exit_zero_iff",
    "Verif.Program.C51_exception_aborts",
    "Verif.Program.C51_success",
    "Verif.Program.C51_zero_means_no_exception",
    "Verif.Program.C51_all_fail_partial",
    "Verif.Program.C51_violated_general",
    "Verif.Program.C51_violated",
    "Verif.Program.C51_violated_msfem_late",
    "Verif.Program.C51_cgfem_late_partial"
   ],
   "note": "The exit status part holds. The abort part holds for one process and if all processes fail at the same point; it is violated if only some fail, because the handler performs collective operations before aborting."
  },
  {
   "property": "C52",
   "status": "partial",
   "theorems": [
    "Verif.Config.C52_epsilon_iff_partial",
    "Verif.Config.C52_violated_epsilon",
    "Verif.Config.C52_violated_level",
    "Verif.Config.C52_violated_level_default",
    "Verif.Config.C52_throws"
   ],
   "note": "Violated: different defaults for epsilon, and the reported refinement level is not used by any computation. print_info is not called by the programs."
  },
  {
   "property": "C53",
   "status": "partial",
   "theorems": [
    "Verif.Config.C53_msfem_algorithm_partial",
    "Verif.Config.C53_agree_iff_partial",
    "Verif.Config.C53_violated",
    "Verif.Config.C53_oversampling",
    "Verif.Config.C53_differ_in_dim"
   ],
   "note": "Holds inside msfem_algorithm; violated for a problem container whose configuration differs from the global one."
  },
  {
   "property": "C54",
   "status": "partial",
   "theorems": [
    "Verif.CoarseAssembly.C54_sampled_in_place_partial",
    "Verif.CoarseAssembly.C54_matrix_constant_gradients_partial",
    "Verif.CoarseAssembly.C54_violated_load",
    "Verif.CoarseAssembly.C54_violated_matrix"
   ],
   "note": "Violated: the coarse basis is evaluated at the reference position in the local cell. Partial: local grid equal to the coarse cell, or (matrix) constant gradients."
  },
  {
   "property": "C55",
   "status": "partial",
   "theorems": [
    "Verif.Permeability.C55_no_file_partial",
    "Verif.Permeability.C55_violated"
   ],
   "note": "Violated whenever the data file can be opened: new[] is paired with delete."
  },
  {
   "property": "C56",
   "status": "partial",
   "theorems": [
    "Verif.Covariance.C56_covariance",
    "Verif.Covariance.C56_uncorrelated",
    "Verif.Covariance.C56_exact_partial",
    "Verif.Covariance.C56_variance_iff",
    "Verif.Covariance.C56_nodes_partial",
    "Verif.Covariance.C56_violated"
   ],
   "note": "Holds exactly if the circulant embedding has no negative eigenvalue; the program takes absolute values instead of reporting. Violated e.g. for two segments and correlation length 2."
  },
  {
   "property": "C57",
   "status": "partial",
   "theorems": [
    "Verif.Search.C57_collected_partial",
    "Verif.Search.C57_all_or_none_partial",
    "Verif.Search.C57_one_cover_partial",
    "Verif.Search.C57_overrun",
    "Verif.Search.C57_violated_wrong_element",
    "Verif.Search.C57_violated_ub"
   ],
   "note": "Violated: finds of repeated visits are packed together regardless of the position of the point, and may be written behind the end of the result. Holds if every local search finds all points or none. If one cell covers the points and finds f of N, the result is N/f copies of the finds (C57_one_cover_partial), and if f does not divide N the write passes the end (C57_overrun)."
  },
  {
   "property": "C58",
   "status": "partial",
   "theorems": [
    "Verif.LocalAssembly.C58_right_hand_sides",
    "Verif.LocalAssembly.C58_residual_partial",
    "Verif.LocalAssembly.C58_multiscale_basis",
    "Verif.LocalAssembly.C58_harmonic_partial",
    "Verif.LocalAssembly.C58_harmonic_iff",
    "Verif.LocalAssembly.C58_violated_doubled",
    "Verif.LocalAssembly.C58_violated",
    "Verif.Q1Grid.C58_structured_residual_partial",
    "Verif.Q1Grid.C58_structured_partial"
   ],
   "note": "Without oversampling. Holds in cells without boundary faces and for a Dirichlet extension whose local residual vanishes (C58_harmonic_iff, exact); violated otherwise since the extension's correction enters twice."
  },
  {
   "property": "C59",
   "status": "partial",
   "theorems": [
    "Verif.LocalAssembly.C59_negative_sign_partial",
    "Verif.LocalAssembly.C59_violated_sign"
   ],
   "note": "Violated: the Neumann data enter the local equation with a negative sign. Agrees with the global sign only if the boundary integrals vanish (C59_violated_sign, exact)."
  },
  {
   "property": "C60",
   "status": "partial",
   "theorems": [
    "Verif.Boundary.C60_exclusive",
    "Verif.Boundary.C60_dirichlet_faces",
    "Verif.Boundary.C60_some_dirichlet",
    "Verif.Boundary.C60_one_dimension",
    "Verif.Boundary.C60_neumann_acts_partial",
    "Verif.Boundary.C60_violated_tarbert_2d",
    "Verif.Boundary.C60_violated_tarbert_2d_zero"
   ],
   "note": "Face types hold for all problems. The Neumann data act for SPE10 and three-dimensional Tarbert; violated for two-dimensional Tarbert, whose only solution is zero."
  },
  {
   "property": "C61",
   "status": "partial",
   "theorems": [
    "Verif.Boundary.C61_all_constrained_partial",
    "Verif.Boundary.C61_violated",
    "Verif.Boundary.C61_continuous_partial",
    "Verif.Boundary.C61_violated_basis_vanishes",
    "Verif.Boundary.C61_violated_coefficients_ignored"
   ],
   "note": "Holds for Synthetic, ER2007 and Random. Violated for SPE10 and Tarbert, where only one face of each local grid is constrained; basis functions of coarse nodes off that face vanish."
  },
  {
   "property": "C62",
   "status": "proved",
   "theorems": [
    "Verif.Proxy.C62_covering_cell",
    "Verif.Proxy.C62_element_values",
    "Verif.Proxy.C62_walk",
    "Verif.Proxy.C62_failure_throws",
    "Verif.Proxy.C62_search_failure"
   ],
   "note": "Search inside one local grid is external: it returns elements containing the points."
  },
  {
   "property": "C63",
   "status": "partial",
   "theorems": [
    "Verif.Proxy.C63_order_irrelevant_partial",
    "Verif.Proxy.C63_violated"
   ],
   "note": "Holds where the reconstructions of neighbouring cells agree at common nodes. Violated otherwise, as for SPE10-type local problems: the value written last stays."
  },
  {
   "property": "C64",
   "status": "partial",
   "theorems": [
    "Verif.Proxy.C64_construct_iff",
    "Verif.Proxy.C64_sequential_partial",
    "Verif.Proxy.C64_violated"
   ],
   "note": "Exact condition. Violated on processes with overlap cells (assertions on) and on processes without own cells."
  },
  {
   "property": "C65",
   "status": "proved",
   "theorems": [
    "Verif.Manager.C65_runs_independent",
    "Verif.Manager.C65_without_guard"
   ],
   "note": "Also shown: without the guard, later runs would see the solutions of the first."
  },
  {
   "property": "C66",
   "status": "partial",
   "theorems": [
    "Verif.Flux.C66_synthetic_er_iff",
    "Verif.Flux.C66_two_dimensions_partial",
    "Verif.Flux.C66_violated_three_dimensions",
    "Verif.Flux.C66_random",
    "Verif.Flux.C66_tarbert",
    "Verif.Flux.C66_spe10_iff"
   ],
   "note": "Holds for Random and Tarbert (three dimensions) always, for Synthetic and ER2007 in two dimensions; exact conditions otherwise. Violated in three dimensions for Synthetic and ER2007: the third component of the flux is not assigned. SPE10: if the two result objects agree off the diagonal."
  },
  {
   "property": "C67",
   "status": "partial",
   "theorems": [
    "Verif.Flux.C67_synthetic_er_partial",
    "Verif.Flux.C67_violated_three_dimensions",
    "Verif.Flux.C67_callers_entry",
    "Verif.Flux.C67_random",
    "Verif.Flux.C67_random_positive",
    "Verif.Flux.C67_spe10",
    "Verif.Flux.C67_tarbert"
   ],
   "note": "Holds for Random, SPE10 and Tarbert with admissible data, and for Synthetic and ER2007 in two dimensions. Violated for Synthetic and ER2007 in three dimensions, where the third diagonal entry is not assigned."
  },
  {
   "property": "C68",
   "status": "partial",
   "theorems": [
    "Verif.LoadBalance.C68_yasp_process_grid",
    "Verif.LoadBalance.C68_same_process_grid_iff",
    "Verif.LoadBalance.C68_segments",
    "Verif.LoadBalance.C68_no_exception",
    "Verif.LoadBalance.C68_evaluable2",
    "Verif.LoadBalance.C68_evaluable3",
    "Verif.LoadBalance.C68_all_processes2",
    "Verif.LoadBalance.C68_all_processes3_partial",
    "Verif.LoadBalance.C68_sufficient",
    "Verif.LoadBalance.C68_violated_oversampling",
    "Verif.LoadBalance.C68_violated_process_grids"
   ],
   "note": "Exact condition on overlap and oversampling in two dimensions, and in three if log2 of the number of processes is 0 or 1 modulo 3. Violated otherwise in three dimensions, and for too many oversampling layers. The load balancer is external and transcribed."
  },
  {
   "property": "C69",
   "status": "partial",
   "theorems": [
    "Verif.LoadBalance.C69_parts",
    "Verif.LoadBalance.C69_direction_iff",
    "Verif.LoadBalance.C69_isotropic_partial",
    "Verif.LoadBalance.C69_cube_iff",
    "Verif.LoadBalance.C69_search_iff",
    "Verif.LoadBalance.C69_projection_fails",
    "Verif.LoadBalance.C69_violated_anisotropic",
    "Verif.LoadBalance.C69_violated_isotropic",
    "Verif.LoadBalance.C69_violated_projection"
   ],
   "note": "Holds for equal refinement of the directions if the number of processes divides the numbers of coarse cells; exact condition per direction and for cubes. Violated for different refinements, and for equal refinements of indivisible numbers of cells; the projection then fails. The load balancer is external and transcribed."
  },
  {
   "property": "C70",
   "status": "partial",
   "theorems": [
    "Verif.RandomStream.C70_range",
    "Verif.RandomStream.C70_distinct_partial",
    "Verif.RandomStream.C70_period",
    "Verif.RandomStream.C70_violated_linear",
    "Verif.RandomStream.C70_violated_overlap",
    "Verif.RandomStream.C70_violated_correlation"
   ],
   "note": "Processes never draw the same number at the same time. Violated: the numbers are linearly related, copies with a delay exist, and ranks 0 and 1 are correlated with nearly 1/2 over the period. Engine of libstdc++."
  },
  {
   "property": "C71",
   "status": "partial",
   "theorems": [
    "Verif.Q1Grid.C71_free_injective",
    "Verif.Q1Grid.C71_unique_partial",
    "Verif.Q1Grid.C71_local_solutions_exist",
    "Verif.Q1Grid.C71_violated_kernel",
    "Verif.Q1Grid.C71_violated_singular",
    "Verif.Q1Grid.C71_violated_unsolvable",
    "Verif.Q1Grid.C71_violated_problems"
   ],
   "note": "Holds for Synthetic, ER2007 and Random (positive definite diffusion), in general whenever the local problems are constrained at the corners of the coarse cells. Violated for SPE10 and Tarbert: the constrained coarse matrix has determinant zero, and in three dimensions the system with the source and Neumann data of the problem has no solution. Exact arithmetic, no oversampling, one process, multilinear elements on structured grids."
  },
  {
   "property": "C72",
   "status": "partial",
   "theorems": [
    "Verif.Q1Grid.C72_is_fem",
    "Verif.Q1Grid.C72_system",
    "Verif.Q1Grid.C72_no_correction",
    "Verif.Q1Grid.C72_means",
    "Verif.Q1Grid.C72_problems_partial",
    "Verif.Q1Grid.C72_fem_free_injective",
    "Verif.Q1Grid.C72_violated_source",
    "Verif.Q1Grid.C72_violated_problems"
   ],
   "note": "Holds for Synthetic, ER2007 and Random if coarse cells are not refined (any diffusion and source) or if diffusion and source are constant. Violated for refined cells and a source that is not constant: the load uses the mean over the local cells (C72_means, C72_violated_source); violated for SPE10 and Tarbert in every case. Exact arithmetic, no oversampling, one process, same assumptions as C71."
  },
  {
   "property": "C73",
   "status": "partial",
   "theorems": [
    "Verif.Oversampling.C73_residual_partial",
    "Verif.Oversampling.C73_constrained_partial",
    "Verif.Oversampling.C73_no_correction_partial",
    "Verif.Oversampling.C73_agree_partial",
    "Verif.Oversampling.C73_violated_varying",
    "Verif.Oversampling.C73_violated_dirichlet"
   ],
   "note": "Fine equations hold at free nodes inside coarse cells without boundary faces for any number of layers; the residual at the boundary is given. Agreement at nodes constrained in both local problems, which is every common node without layers if local problems are constrained on their whole boundary; with layers for constant diagonal diffusion and no Dirichlet data (or away from the boundary). Violated with one layer for a diffusion that varies (values 6/5 and 4/5 of the coarse solution), and with constant diffusion and Dirichlet data 1. Exact arithmetic, multilinear elements, one process."
  },
  {
   "property": "C74",
   "status": "partial",
   "theorems": [
    "Verif.GridCheck.C74_match_iff",
    "Verif.GridCheck.C74_all_iff",
    "Verif.GridCheck.C74_violated_uniform",
    "Verif.GridCheck.C74_violated_hang"
   ],
   "note": "A process accepts exactly if its fine cells are those in its coarse cells; all processes accept exactly if every fine cell lies in a coarse cell of its own process. Violated: with 5x5 coarse cells, refinement 2 and three processes two processes throw and one goes on, so the program hangs. Assumes that the comparison separates coordinates of the fine grid (Tells)."
  },
  {
   "property": "C75",
   "status": "partial",
   "theorems": [
    "Verif.Flow.C75_flow_partial",
    "Verif.Flow.C75_violated_log",
    "Verif.Flow.C75_violated_position",
    "Verif.Flow.C75_violated_empty",
    "Verif.Flow.C75_violated_processes",
    "Verif.Flow.C75_faces"
   ],
   "note": "surface_flow_gdt computes the flow of a given function if the domain starts at zero, the first row of the diffusion is diagonal at the left side and the derivative in the first direction is constant on each cell there. Violated: the logged value is 0 for every solution (the function is new); for other functions the gradient is taken at the global position; undefined for a process without interior coarse cells. Exact arithmetic, multilinear elements on structured grids."
  },
  {
   "property": "C76",
   "status": "partial",
   "theorems": [
    "Verif.FemSolver.C76_galerkin",
    "Verif.FemSolver.C76_unique",
    "Verif.FemSolver.C76_problems_partial",
    "Verif.FemSolver.C76_second_walk",
    "Verif.FemSolver.C76_second_walk_wrong"
   ],
   "note": "The result is the discrete solution for all problems; existence and uniqueness needs a rule that resolves the elements, which holds for all problems but the random one (C78: there it still holds in two dimensions, violated in three). Rests on the assumption that the assembler of dune-gdt drops its functors after a walk (parameter forgets = true): fem_solver.cc walks twice with the same assembler. If they are kept, the result is the finite element solution only if the extension is orthogonal to all test functions, and never for Dirichlet data 1 (C76_second_walk, C76_second_walk_wrong). Exact arithmetic, one process, structured grids."
  },
  {
   "property": "C77",
   "status": "partial",
   "theorems": [
    "Verif.CellCounts.C77_integers",
    "Verif.Double.C77_double",
    "Verif.CellCounts.C77_fit_iff_partial",
    "Verif.CellCounts.C77_width_iff_partial",
    "Verif.CellCounts.C77_violated_coarse",
    "Verif.CellCounts.C77_violated_micro",
    "Verif.CellCounts.C77_violated_oversampling",
    "Verif.CellCounts.C77_violated_range",
    "Verif.CellCounts.C77_range"
   ],
   "note": "Holds for integers with product below 2^32. For other numbers, which the validators let pass, the exact conditions are given; violated e.g. for 2.5 coarse cells with 2 micro cells (not nested) and 2.25 micro cells with oversampling (wrong local mesh width). Fractions in exact arithmetic."
  },
  {
   "property": "C78",
   "status": "partial",
   "theorems": [
    "Verif.Quadrature.C78_exact",
    "Verif.Quadrature.C78_rules",
    "Verif.Quadrature.C78_same_rule",
    "Verif.Quadrature.C78_local",
    "Verif.Quadrature.C78_reference_iff_partial",
    "Verif.Quadrature.C78_violated_random"
   ],
   "note": "Local problems: holds for all problems. The rule of the coarse matrix resolves the elements for all problems (C71 then applies). Reference problem: holds exactly if the problem is not the random one, or the dimension is two, or there is one layer of cells between the Dirichlet faces; violated for the random problem in three dimensions, whose matrix is singular. Operator and right-hand sides of the local problems use the same rule for all problems but the random one. Orders and rules of dune-gdt and dune-geometry are transcribed."
  },
  {
   "property": "C79",
   "status": "partial",
   "theorems": [
    "Verif.ErrorNorms.C79_l2_exact",
    "Verif.ErrorNorms.C79_l2_zero",
    "Verif.ErrorNorms.C79_norm",
    "Verif.ErrorNorms.C79_l2_triangle",
    "Verif.ErrorNorms.C79_exact_zero_iff",
    "Verif.ErrorNorms.C79_h1_exact_partial",
    "Verif.ErrorNorms.C79_h1_definite_partial",
    "Verif.ErrorNorms.C79_h1_zero_iff",
    "Verif.ErrorNorms.C79_h1_le_partial",
    "Verif.ErrorNorms.C79_violated_h1",
    "Verif.ErrorNorms.C79_h1_dirichlet_iff_partial",
    "Verif.ErrorNorms.C79_h1_triangle_partial",
    "Verif.ErrorNorms.C79_violated_triangle",
    "Verif.ErrorNorms.C79_triangle_iff_partial",
    "Verif.ErrorNorms.C79_ratio_iff_partial",
    "Verif.ErrorNorms.C79_violated_ratio",
    "Verif.ErrorNorms.C79_ratio_fine"
   ],
   "note": "L2 norms hold: exact, definite, triangle inequality for exact solutions of any order. H1 semi norms hold with over_integrate two or more; with the default they are lower bounds, violated otherwise, with the exact condition per problem when zero still means equality for solutions with the same Dirichlet values. The relative difference to the coarse solution is a number exactly if the multiscale solution is not zero. One process; orders of dune-gdt products transcribed."
  },
  {
   "property": "C80",
   "status": "partial",
   "theorems": [
    "Verif.Report.C80_projected_partial",
    "Verif.Report.C80_projected_accumulating",
    "Verif.Report.C80_prolongation",
    "Verif.Report.C80_numbers_partial",
    "Verif.Report.C80_zero_iff_partial",
    "Verif.Report.C80_same_solution",
    "Verif.Report.C80_zero_accumulating",
    "Verif.Report.C80_violated_norm",
    "Verif.Report.C80_violated_relative",
    "Verif.Report.C80_violated_data",
    "Verif.Report.C80_violated_instance"
   ],
   "note": "Violated by the code: the projected function is the multiscale solution divided by the number of cells at the node, so the reported difference to an equal coarse solution is zero exactly if that solution vanishes at all nodes that are not corners of the domain; printed norm and relative difference computed exactly for homogeneous Dirichlet values, from the data to the printed number. Holds if the projection accumulates. One process, no oversampling."
  },
  {
   "property": "C81",
   "status": "proved",
   "theorems": [
    "Verif.FemSolver.C81_energy_difference",
    "Verif.FemSolver.C81_least_energy",
    "Verif.FemSolver.C81_result",
    "Verif.FemSolver.C81_problems",
    "Verif.FemSolver.C81_balance"
   ],
   "note": "Exact arithmetic, quadrature as in the code; if the functors of the first walk are forgotten before the second (C76)."
  },
  {
   "property": "C82",
   "status": "proved",
   "theorems": [
    "Verif.Pipeline.C82_succeeds",
    "Verif.Pipeline.C82_run_exists",
    "Verif.Pipeline.C82_superposition",
    "Verif.Pipeline.C82_scaling",
    "Verif.Pipeline.C82_problems",
    "Verif.FemSolver.C82_reference"
   ],
   "note": "One process, no oversampling, direct local solver, exact arithmetic, boundary types that constrain the corners of the coarse cells (Synthetic, ER2007, Random; for SPE10 and Tarbert the coarse system is singular, C71)."
  },
  {
   "property": "C83",
   "status": "partial",
   "theorems": [
    "Verif.Pipeline.C83_corrected_twice",
    "Verif.Pipeline.C83_constant_iff",
    "Verif.Pipeline.C83_constant_corners",
    "Verif.Pipeline.C83_violated_constant",
    "Verif.Pipeline.C83_linear",
    "Verif.FemSolver.C83_reference_constant",
    "Verif.FemSolver.C83_reference_linear"
   ],
   "note": "Violated by the code for the multiscale solution: exact condition, and a witness for which every run gives something else. Holds for the reference solution, and without oversampling for linear solutions with constant diagonal diffusion. With oversampling constants are lost also for constant diffusion (exact condition and witness). One process."
  },
  {
   "property": "C84",
   "status": "partial",
   "theorems": [
    "Verif.Pipeline.C84_all_faces",
    "Verif.Pipeline.C84_inner_twice",
    "Verif.Pipeline.C84_coarse",
    "Verif.Pipeline.C84_equal_partial",
    "Verif.Pipeline.C84_problems",
    "Verif.Pipeline.C84_violated"
   ],
   "note": "Holds for all registered problems in two and three dimensions, and for data that vanish off the Neumann faces. Violated otherwise: all faces of all local cells are integrated (default of the walker, external), and a problem without Neumann faces and zero data gives a solution that is not zero."
  },
  {
   "property": "C85",
   "status": "proved",
   "theorems": [
    "Verif.Manager.C85_any_schedule",
    "Verif.Manager.C85_finishes",
    "Verif.Manager.C85_loads",
    "Verif.Manager.C85_missing",
    "Verif.Manager.C85_needs_distinct_keys",
    "Verif.Pipeline.C85_same_run",
    "Verif.Oversampling.C85_same_layers"
   ],
   "note": "For all schedules in which all threads finish, which they do when they get enough turns. Accesses to the store are taken to be atomic (see C13); the order in which threads add to the coarse matrix is C22 and C24."
  },
  {
   "property": "C86",
   "status": "proved",
   "theorems": [
    "Verif.Oversampling.C86_free_injective",
    "Verif.Oversampling.C86_any_local_solutions",
    "Verif.Oversampling.C86_succeeds",
    "Verif.Oversampling.C86_run_exists",
    "Verif.Oversampling.C86_unique",
    "Verif.Oversampling.C86_superposition",
    "Verif.Oversampling.C86_scaling",
    "Verif.Oversampling.C86_cell",
    "Verif.Oversampling.C86_no_layers",
    "Verif.Oversampling.C86_problems"
   ],
   "note": "For exact arithmetic. Synthetic, ER2007 and Random meet the conditions (C86_problems); SPE10 and Tarbert constrain their local problems on one face only. Not covered: a single local cell per coarse cell, more layers than local cells per coarse cell (there the local grids are not aligned, C02)."
  },
  {
   "property": "C87",
   "status": "partial",
   "theorems": [
    "Verif.GridCreation.C87_no_overlap_partial",
    "Verif.GridCreation.C87_announced",
    "Verif.GridCreation.C87_violated_serial",
    "Verif.GridCreation.C87_violated",
    "Verif.GridCreation.C87_solved"
   ],
   "note": "Right without overlap. With overlap the number of layers is subtracted instead of the number of overlap cells; C87_announced gives the exact error."
  },
  {
   "property": "C88",
   "status": "proved",
   "theorems": [
    "Verif.Pipeline.C88_same_run",
    "Verif.Pipeline.C88_unit",
    "Verif.Oversampling.C88_same_layers",
    "Verif.FemSolver.C88_same_reference"
   ],
   "note": "For runs with and without oversampling and for the reference solver; exact arithmetic. Conditions of uniqueness (C82, C86, C76) are assumed."
  },
  {
   "property": "C89",
   "status": "partial",
   "theorems": [
    "Verif.QuadratureOrder.C89_coarse_load_partial",
    "Verif.QuadratureOrder.C89_coarse_matrix",
    "Verif.QuadratureOrder.C89_reference_load",
    "Verif.QuadratureOrder.C89_violated_operator",
    "Verif.QuadratureOrder.C89_over"
   ],
   "note": "Holds for the coarse matrix and for the load of the reference problem. Violated for the coarse load of ER2007, SPE10 and Tarbert, and for the elliptic operators (order chosen by dune-gdt, external)."
  },
  {
   "property": "C90",
   "status": "proved",
   "theorems": [
    "Verif.Pipeline.C90_turned",
    "Verif.Pipeline.C90_turned_exists",
    "Verif.Pipeline.C90_symmetric",
    "Verif.Pipeline.C90_boundary",
    "Verif.FemSolver.C90_reference",
    "Verif.Oversampling.C90_turned_layers",
    "Verif.Oversampling.C90_turned_layers_exists"
   ],
   "note": "For runs without and with oversampling and for the reference solver; exact arithmetic, conditions of uniqueness as in C82, C86 and C76; the statement on the faces of the program is for runs without oversampling. Quadrature rules of the second problem are those of the first in the new coordinates, up to order."
  },
  {
   "property": "C91",
   "status": "partial",
   "theorems": [
    "Verif.FieldSize.C91_exact",
    "Verif.FieldSize.C91_cells_partial",
    "Verif.FieldSize.C91_violated",
    "Verif.FieldSize.C91_too_fine",
    "Verif.FieldSize.C91_one_cell",
    "Verif.FieldSize.C91_unequal",
    "Verif.FieldSize.C91_dimension",
    "Verif.FieldSize.C91_source2",
    "Verif.FieldSize.C91_source3",
    "Verif.FieldSize.C91_cell2",
    "Verif.FieldSize.C91_cell3"
   ],
   "note": "Violated for 32768 or more (two dimensions), 1024 or more (three dimensions) cells per direction, and for one cell. Partial: the exact range in which everything is computed correctly, including later offsets and indices."
  },
  {
   "property": "C92",
   "status": "partial",
   "theorems": [
    "Verif.Tests.C92_compare_partial",
    "Verif.Tests.C92_cgfem_partial",
    "Verif.Tests.C92_msfem_violated",
    "Verif.Tests.C92_msfem_names",
    "Verif.Tests.C92_missing_violated",
    "Verif.Tests.C92_check_inside",
    "Verif.Tests.C92_lp_violated",
    "Verif.Tests.C92_lp_witness",
    "Verif.Tests.C92_dimensions",
    "Verif.Tests.C92_dimensions_violated",
    "Verif.Tests.C92_projection",
    "Verif.Tests.C92_projection_constant"
   ],
   "note": "Violated: compare_msfem never passes; compare_cgfem accepts missing errors; check_fine_lp_in_coarse accepts everything; check_dimensions does not see the directions. Partial: exact sets of results accepted by the tests."
  },
  {
   "property": "C93",
   "status": "partial",
   "theorems": [
    "Verif.ThreadVis.C93_values",
    "Verif.ThreadVis.C93_shows_partial",
    "Verif.ThreadVis.C93_violated",
    "Verif.ThreadVis.C93_zero_violated",
    "Verif.ThreadVis.C93_files",
    "Verif.ThreadVis.C93_mismatch",
    "Verif.ThreadVis.C93_files_distinct"
   ],
   "note": "Violated with oversampling layers and for ids divisible by 2^32. Partial: exact values of the functions, pictures correct without oversampling; files proved distinct."
  },
  {
   "property": "C94",
   "status": "partial",
   "theorems": [
    "Verif.LayerCount.C94_serves_iff_partial",
    "Verif.LayerCount.C94_nonneg_partial",
    "Verif.LayerCount.C94_overflow",
    "Verif.LayerCount.C94_negative",
    "Verif.LayerCount.C94_violated",
    "Verif.LayerCount.C94_gaps",
    "Verif.LayerCount.C94_volume",
    "Verif.LayerCount.C94_overlap",
    "Verif.Double.C94_double"
   ],
   "note": "Violated for negative numbers, which nothing rejects. Exact condition if the numbers of cells fit in the types of the program; exact description of what negative numbers do. Coordinates are exact."
  },
  {
   "property": "C95",
   "status": "proved",
   "theorems": [
    "Verif.Printing.C95_nearest",
    "Verif.Printing.C95_relative",
    "Verif.Printing.C95_exact_iff",
    "Verif.Printing.C95_sign",
    "Verif.Printing.C95_monotone",
    "Verif.Printing.C95_file",
    "Verif.Printing.C95_not_a_number",
    "Verif.Printing.C95_not_injective"
   ],
   "note": "operator<< of the standard library (%.6g, classic locale, exact conversion with half to even) is transcribed from the C++ and C standards. Discharges the assumption of C30 that printed numbers contain neither comma nor newline. Errors that differ by less than 5e-6 may look equal (C95_not_injective)."
  },
  {
   "property": "C96",
   "status": "partial",
   "theorems": [
    "Verif.RoundedGrid.C96_count_iff_partial",
    "Verif.RoundedGrid.C96_few_layers_partial",
    "Verif.RoundedGrid.C96_double_partial",
    "Verif.RoundedGrid.C96_box",
    "Verif.RoundedGrid.C96_violated",
    "Verif.RoundedGrid.C96_not_aligned",
    "Verif.RoundedGrid.double_accurate"
   ],
   "note": "Limits hold in general. Numbers of cells hold for no layers and for every number of layers that lets no local grid end on the boundary of the domain, in particular fewer layers than micro cells; exact condition otherwise. Violated in double precision for 5 coarse cells, 11 micro cells and 11 layers. Sums and products are rounded one by one (no fused operations), no overflow or underflow."
  },
  {
   "property": "C97",
   "status": "partial",
   "theorems": [
    "Verif.RoundedSearch.C97_dyadic_partial",
    "Verif.RoundedSearch.C97_layers_partial",
    "Verif.RoundedSearch.C97_oversampled_partial",
    "Verif.RoundedSearch.C97_directions",
    "Verif.RoundedSearch.C97_setups_partial",
    "Verif.RoundedSearch.C97_wover_partial",
    "Verif.RoundedSearch.C97_violated_cells",
    "Verif.RoundedSearch.C97_no_gaps",
    "Verif.RoundedSearch.C97_violated_p_large",
    "Verif.RoundedSearch.C97_violated_p_huge",
    "Verif.RoundedSearch.C97_violated_layers",
    "Verif.RoundedSearch.C97_violated_throws",
    "Verif.RoundedSearch.C97_violated_elements"
   ],
   "note": "Holds for numbers of coarse and micro cells that are powers of two on domains with integer limits; on the unit cube also for at most 60 coarse cells with at least one layer, fewer layers than micro cells and local grids smaller than a quarter of the domain. On the unit cube the search succeeds exactly if it does so in every single direction; in double precision this is the case for the setups p_small, p_aniso, p_fail and, with layers, p_wover of the repository. Violated in double precision without layers (p_large, p_huge, 3x44), with layers for two coarse cells (2x126, 6 layers), and for 65 or 78 coarse cells with any layers. Coordinates, geometry and inside test of DUNE are assumptions; operations are rounded one by one, no overflow or underflow."
  },
  {
   "property": "C98",
   "status": "partial",
   "theorems": [
    "Verif.GridArguments.C98_fine_iff",
    "Verif.GridArguments.C98_fine_partial",
    "Verif.GridArguments.C98_coarse_partial",
    "Verif.GridArguments.C98_different_overlap",
    "Verif.GridArguments.C98_violated_overlap",
    "Verif.GridArguments.C98_violated_cells"
   ],
   "note": "Exact condition for the fine grid: less than 2^31 cells in each direction and no negative grids.overlap. Violated otherwise: a negative overlap is passed on to the grid, and from 2^31 cells on the number of cells becomes negative; nothing is thrown. Conversion to int is taken modulo 2^32."
  }
 ]
}
