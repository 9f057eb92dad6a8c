Verif.LocalGrid.C01_local_grid_box: propext, Classical.choice, Quot.sound
Verif.LocalGrid.C02_single_cell: propext, Classical.choice, Quot.sound
Verif.LocalGrid.C02_resolves_fine_mesh_partial: propext, Classical.choice, Quot.sound
Verif.LocalGrid.C02_violated: propext, Classical.choice, Quot.sound
Verif.LocalGrid.C03_covered_cells_tile: propext, Classical.choice, Quot.sound
Verif.LocalGrid.C03_fails_without_alignment: propext, Classical.choice, Quot.sound
Verif.LocalGrid.C03_strict_iff: propext, Classical.choice, Quot.sound
Verif.GridCreation.C04_fine_grid_nested: propext, Classical.choice, Quot.sound
Verif.GridCreation.C05_coarse_overlap_least: propext, Classical.choice, Quot.sound
Verif.Double.C05_double: propext, Classical.choice, Quot.sound
Verif.Double.double_nearest: propext, Classical.choice, Quot.sound
Verif.GridCreation.C06_yasp_overlap: propext, Classical.choice, Quot.sound
Verif.GridCreation.C06_coarse_grid: propext, Classical.choice, Quot.sound
Verif.GridCreation.C06_spgrid: propext, Classical.choice, Quot.sound
Verif.Double.C06_double: propext, Classical.choice, Quot.sound
Verif.GridCreation.C07_rank0_check_partial: propext, Classical.choice, Quot.sound
Verif.GridCreation.C07_size_counts: propext, Classical.choice, Quot.sound
Verif.GridCreation.C07_violated_overlap: propext, Classical.choice, Quot.sound
Verif.GridCreation.C07_violated: propext
Verif.Search.C08_search_result: propext, Classical.choice, Quot.sound
Verif.Search.C08_search_elements: propext, Classical.choice, Quot.sound
Verif.Search.C09_terminates: propext, Classical.choice, Quot.sound
Verif.Search.C09_succeeds: propext, Classical.choice, Quot.sound
Verif.Search.C09_throws: propext, Classical.choice, Quot.sound
Verif.Search.C10_violated_single_cell: propext, Classical.choice, Quot.sound
Verif.Search.C10_violated_witness: none
Verif.Search.C10_violated_reuse: propext, Classical.choice, Quot.sound
Verif.Search.C10_copy_is_usable_partial: propext, Classical.choice, Quot.sound
Verif.IOCache.C11_store_refines_map: propext, Classical.choice, Quot.sound
Verif.IOCache.C11_disk_always_throws: none
Verif.IOCache.C11_disk_directories: propext, Classical.choice, Quot.sound
Verif.IOCache.C12_location_roundtrip: propext, Classical.choice, Quot.sound
Verif.IOCache.C12_distinct_cells: propext, Classical.choice, Quot.sound
Verif.IOCache.C12_names_alias: propext, Classical.choice, Quot.sound
Verif.IOCache.C13_same_key_same_backend_partial: propext, Quot.sound
Verif.IOCache.C13_no_assert_distinct_keys_partial: propext, Quot.sound
Verif.IOCache.C13_read_phase_safe_partial: propext
Verif.IOCache.C13_violated_race: none
Verif.IOCache.C13_violated_assert: none
Verif.Manager.C14_loaded_is_saved: propext, Classical.choice, Quot.sound
Verif.Manager.C14_order_irrelevant: propext, Classical.choice, Quot.sound
Verif.Manager.C14_too_many_throws: propext, Classical.choice, Quot.sound
Verif.Manager.C15_fresh_loads_repeatable_partial: propext, Classical.choice, Quot.sound
Verif.Manager.C15_violated_second_load: propext, Classical.choice, Quot.sound
Verif.Manager.C15_violated_load_after_save: propext, Classical.choice, Quot.sound
Verif.Manager.C16_reconstruction: propext, Classical.choice, Quot.sound
Verif.Manager.C16_other_cells_undisturbed: propext, Classical.choice, Quot.sound
Verif.Manager.C17_cut: propext, Quot.sound
Verif.Manager.C17_order_irrelevant: propext, Quot.sound
Verif.Manager.C18_second_run: propext, Classical.choice, Quot.sound
Verif.Manager.C18_repeat_agrees_partial: propext, Classical.choice, Quot.sound
Verif.Manager.C18_violated: propext, Classical.choice, Quot.sound
Verif.LocalSolve.C19_local_solutions: propext, Classical.choice, Quot.sound
Verif.LocalSolve.C19_interior_cells_zero: propext, Classical.choice, Quot.sound
Verif.LocalSolve.C20_slots_end_to_end: propext, Classical.choice, Quot.sound
Verif.LocalSolve.C20_slots_coarse_rhs: propext, Classical.choice, Quot.sound
Verif.LocalSolve.C20_simplex_refused: none
Verif.LocalSolve.C20_list_too_short: propext, Quot.sound
Verif.LocalSolve.C20_simplex_counts: propext, Classical.choice, Quot.sound
Verif.LocalSolve.C21_direct_solver_partial: propext, Classical.choice, Quot.sound
Verif.LocalSolve.C21_violated_generic: propext, Classical.choice, Quot.sound
Verif.LocalSolve.C21_violated_witness: propext, Classical.choice, Quot.sound
Verif.LocalSolve.C21_reported: propext, Quot.sound
Verif.CoarseAssembly.C22_matrix_entries: propext, Classical.choice, Quot.sound
Verif.CoarseAssembly.C22_order_irrelevant: propext, Classical.choice, Quot.sound
Verif.CoarseAssembly.C22_local_order_irrelevant: propext, Classical.choice, Quot.sound
Verif.CoarseAssembly.C23_symmetric: propext, Classical.choice, Quot.sound
Verif.CoarseAssembly.C23_nonneg: propext, Classical.choice, Quot.sound
Verif.CoarseAssembly.C23_energy_as_sampled: propext, Classical.choice, Quot.sound
Verif.CoarseAssembly.C23_energy_partial: propext, Classical.choice, Quot.sound
Verif.CoarseAssembly.C54_violated_matrix: propext, Classical.choice, Quot.sound
Verif.CoarseAssembly.C24_load_entries: propext, Classical.choice, Quot.sound
Verif.CoarseAssembly.C24_order_irrelevant: propext, Classical.choice, Quot.sound
Verif.CoarseAssembly.C54_sampled_in_place_partial: propext, Classical.choice, Quot.sound
Verif.CoarseAssembly.C54_violated_load: propext, Classical.choice, Quot.sound
Verif.DirichletSolve.C25_coarse_solution: propext, Classical.choice, Quot.sound
Verif.DirichletSolve.C25_unique: propext, Classical.choice, Quot.sound
Verif.DirichletSolve.C25_system_solvable: propext, Classical.choice, Quot.sound
Verif.DirichletSolve.C26_fem_solution: propext, Classical.choice, Quot.sound
Verif.DirichletSolve.C26_history_irrelevant: propext, Classical.choice, Quot.sound
Verif.DirichletSolve.C26_twice: propext, Classical.choice, Quot.sound
Verif.DirichletSolve.C26_agrees_with_coarse: propext, Classical.choice, Quot.sound
Verif.DirichletSolve.C27_returns_iff_partial: propext, Quot.sound
Verif.DirichletSolve.C27_invalid_state_iff_partial: propext, Quot.sound
Verif.DirichletSolve.C27_result_valid_partial: propext, Quot.sound
Verif.DirichletSolve.C27_violated_result: propext, Classical.choice, Quot.sound
Verif.DirichletSolve.C27_violated_exception: propext, Classical.choice, Quot.sound
Verif.Projection.C28_projection_result_partial: propext, Quot.sound
Verif.Projection.C28_violated: propext, Classical.choice, Quot.sound
Verif.Projection.C28_violated_constant: propext, Classical.choice, Quot.sound
Verif.Projection.C28_projection_accumulating: propext, Classical.choice, Quot.sound
Verif.Projection.C28_missing_point_throws: propext, Classical.choice, Quot.sound
Verif.Projection.C28_defined: propext, Classical.choice, Quot.sound
Verif.Projection.C28_out_of_bounds: propext, Classical.choice, Quot.sound
Verif.ErrorReport.C29_reported_partial: propext, Classical.choice, Quot.sound
Verif.ErrorReport.C29_throws_iff: propext, Classical.choice, Quot.sound
Verif.ErrorReport.C29_violated_documented_keys: propext, Classical.choice, Quot.sound
Verif.ErrorReport.C29_violated_coarse_failure: propext, Classical.choice, Quot.sound
Verif.ErrorReport.C29_names_partial: propext, Classical.choice, Quot.sound
Verif.ErrorReport.C29_reference: propext
Verif.ErrorReport.C29_registered: propext, Classical.choice, Quot.sound
Verif.ErrorReport.C29_missing: propext, Classical.choice, Quot.sound
Verif.ErrorReport.C30_roundtrip: propext, Quot.sound
Verif.ErrorReport.C30_report_roundtrip: propext, Classical.choice, Quot.sound
Verif.ErrorReport.C30_keys_ascending: propext, Classical.choice, Quot.sound
Verif.ErrorReport.C30_injective: propext, Quot.sound
Verif.OutputFiles.C31_error_files_distinct: propext, Classical.choice, Quot.sound
Verif.OutputFiles.C31_corrections_distinct: propext, Classical.choice, Quot.sound
Verif.OutputFiles.C31_parts_distinct: propext, Classical.choice, Quot.sound
Verif.OutputFiles.C31_msfem_run_distinct: propext, Classical.choice, Quot.sound
Verif.OutputFiles.C31_reference_files: propext, Classical.choice, Quot.sound
Verif.OutputFiles.C31_coarse_files: propext, Classical.choice, Quot.sound
Verif.OutputFiles.C31_fixed_width: propext, Classical.choice, Quot.sound
Verif.OutputFiles.C32_mean_between: propext, Classical.choice, Quot.sound
Verif.OutputFiles.C32_columns: propext, Classical.choice, Quot.sound
Verif.OutputFiles.C32_only_rank0: propext, Classical.choice, Quot.sound
Verif.OutputFiles.C32_needs_fit: propext
Verif.OutputFiles.C32_values: propext, Classical.choice, Quot.sound
Verif.Selector.C33_lookup_iff: propext, Classical.choice, Quot.sound
Verif.Selector.C33_rejected: propext, Quot.sound
Verif.Selector.C33_accepted: propext
Verif.Selector.C33_total: propext, Quot.sound
Verif.Selector.C33_default: none
Verif.Selector.C33_name_unique: none
Verif.Synthetic.C34_diagonal_bounds: propext, Classical.choice, Quot.sound
Verif.Synthetic.C34_uniformly_elliptic: propext, Classical.choice, Quot.sound
Verif.Synthetic.C34_flux_elliptic: propext, Classical.choice, Quot.sound
Verif.Synthetic.C35_gradient: propext, Classical.choice, Quot.sound
Verif.Synthetic.C36_source: propext, Classical.choice, Quot.sound
Verif.Synthetic.C36_boundary_value_problem: propext, Classical.choice, Quot.sound
Verif.Synthetic.C36_homogeneous: propext, Classical.choice, Quot.sound
Verif.Permeability.C37_random_tarbert_partial: propext, Classical.choice, Quot.sound
Verif.Permeability.C37_violated: propext, Classical.choice, Quot.sound
Verif.Permeability.C37_same_off_diagonal_partial: propext, Classical.choice, Quot.sound
Verif.Permeability.C37_reuse_partial: propext, Classical.choice, Quot.sound
Verif.Synthetic.C37_random_isotropic: propext, Classical.choice, Quot.sound
Verif.Synthetic.C38_exact_gradient_partial: propext, Classical.choice, Quot.sound
Verif.Synthetic.C38_source_partial: propext, Classical.choice, Quot.sound
Verif.Synthetic.C38_violated: propext, Classical.choice, Quot.sound
Verif.Synthetic.C38_violated_iff: propext, Classical.choice, Quot.sound
Verif.Permeability.C39_in_block: propext, Classical.choice, Quot.sound
Verif.Permeability.C39_conversion_defined: propext, Classical.choice, Quot.sound
Verif.Permeability.C39_right_cell: propext, Classical.choice, Quot.sound
Verif.Permeability.C39_distinct: propext, Classical.choice, Quot.sound
Verif.Permeability.C39_cells_cover: propext, Classical.choice, Quot.sound
Verif.Double.C39_double: propext, Classical.choice, Quot.sound
Verif.Double.C39_right_cell_double: propext, Classical.choice, Quot.sound
Verif.Double.C39_face: propext, Classical.choice, Quot.sound
Verif.Permeability.C40_read_partial: propext, Classical.choice, Quot.sound
Verif.Permeability.C40_missing_file: propext, Classical.choice, Quot.sound
Verif.Permeability.C40_violated: propext, Classical.choice, Quot.sound
Verif.Permeability.C40_default_identity: propext, Classical.choice, Quot.sound
Verif.Permeability.C41_in_block_partial: propext, Classical.choice, Quot.sound
Verif.Permeability.C41_right_cell_partial: propext, Classical.choice, Quot.sound
Verif.Permeability.C41_violated: propext, Classical.choice, Quot.sound
Verif.Permeability.C41_value_partial: propext, Classical.choice, Quot.sound
Verif.Double.C41_in_block_double_partial: propext, Classical.choice, Quot.sound
Verif.Double.C41_right_cell_double_partial: propext, Classical.choice, Quot.sound
Verif.Double.C41_violated_double: propext, Classical.choice, Quot.sound
Verif.Double.C41_upper_faces_double: propext, Classical.choice, Quot.sound
Verif.Permeability.C42_read_partial: propext, Classical.choice, Quot.sound
Verif.Permeability.C42_violated_last: propext, Classical.choice, Quot.sound
Verif.Permeability.C42_violated_short: propext, Classical.choice, Quot.sound
Verif.Permeability.C42_violated_overflow: propext, Classical.choice, Quot.sound
Verif.Permeability.C42_violated_garbage: propext, Quot.sound
Verif.Permeability.C43_sequential_partial: none
Verif.Permeability.C43_same_cell_partial: propext
Verif.Permeability.C43_violated: none
Verif.Permeability.C43_violated_mixed: none
Verif.RandomField.C44_bijection: propext, Classical.choice, Quot.sound
Verif.RandomField.C44_power_of_two: propext, Classical.choice, Quot.sound
Verif.RandomField.C44_others_detected: propext, Classical.choice, Quot.sound
Verif.RandomField.C44_violated: propext, Classical.choice, Quot.sound
Verif.RandomField.C45_block: propext, Classical.choice, Quot.sound
Verif.RandomField.C45_cover_partial: propext, Classical.choice, Quot.sound
Verif.RandomField.C45_all_nodes_partial: propext, Classical.choice, Quot.sound
Verif.RandomField.C45_violated: propext, Quot.sound
Verif.RandomField.C46_redistribute2: propext, Classical.choice, Quot.sound
Verif.RandomField.C46_redistribute3: propext, Classical.choice, Quot.sound
Verif.RandomField.C46_common_value2: propext, Classical.choice, Quot.sound
Verif.RandomField.C46_common_value3: propext, Classical.choice, Quot.sound
Verif.RandomField.C46_window2: propext, Quot.sound
Verif.RandomField.C46_window3: propext, Classical.choice, Quot.sound
Verif.RandomField.C46_outside2: propext, Classical.choice, Quot.sound
Verif.RandomField.C46_outside3: propext, Classical.choice, Quot.sound
Verif.RandomField.C47_value2: propext, Classical.choice, Quot.sound
Verif.RandomField.C47_value3: propext, Classical.choice, Quot.sound
Verif.RandomField.C47_range_error: propext, Classical.choice, Quot.sound
Verif.RandomField.C47_at_least_minimal: propext, Quot.sound
Verif.RandomField.C48_no_ub_partial: propext, Classical.choice, Quot.sound
Verif.RandomField.C48_violated: propext, Classical.choice, Quot.sound
Verif.RandomField.C48_ub_iff2: propext, Classical.choice, Quot.sound
Verif.RandomField.C48_ub_iff3: propext, Classical.choice, Quot.sound
Verif.RandomField.C49_visible: propext, Classical.choice, Quot.sound
Verif.RandomField.C49_all_new: propext, Classical.choice, Quot.sound
Verif.Covariance.C50_even: propext, Classical.choice, Quot.sound
Verif.Covariance.C50_exact: propext, Classical.choice, Quot.sound
Verif.Covariance.C50_correlation: propext, Classical.choice, Quot.sound
Verif.Program.C51_exit_zero_iff: propext
Verif.Program.C51_exception_aborts: none
Verif.Program.C51_success: none
Verif.Program.C51_zero_means_no_exception: propext, Quot.sound
Verif.Program.C51_all_fail_partial: none
Verif.Program.C51_violated_general: propext, Classical.choice, Quot.sound
Verif.Program.C51_violated: propext, Classical.choice, Quot.sound
Verif.Program.C51_violated_msfem_late: propext, Classical.choice, Quot.sound
Verif.Program.C51_cgfem_late_partial: propext, Quot.sound
Verif.Config.C52_epsilon_iff_partial: propext, Classical.choice, Quot.sound
Verif.Config.C52_violated_epsilon: propext, Classical.choice, Quot.sound
Verif.Config.C52_violated_level: propext, Quot.sound
Verif.Config.C52_violated_level_default: propext, Quot.sound
Verif.Config.C52_throws: propext, Classical.choice, Quot.sound
Verif.Config.C53_msfem_algorithm_partial: propext, Quot.sound
Verif.Config.C53_agree_iff_partial: propext, Quot.sound
Verif.Config.C53_violated: propext, Quot.sound
Verif.Config.C53_oversampling: propext, Quot.sound
Verif.Config.C53_differ_in_dim: propext, Quot.sound
Verif.CoarseAssembly.C54_matrix_constant_gradients_partial: propext, Classical.choice, Quot.sound
Verif.Permeability.C55_no_file_partial: propext, Classical.choice, Quot.sound
Verif.Permeability.C55_violated: propext, Classical.choice, Quot.sound
Verif.Covariance.C56_covariance: propext, Classical.choice, Quot.sound
Verif.Covariance.C56_uncorrelated: propext, Classical.choice, Quot.sound
Verif.Covariance.C56_exact_partial: propext, Classical.choice, Quot.sound
Verif.Covariance.C56_variance_iff: propext, Classical.choice, Quot.sound
Verif.Covariance.C56_nodes_partial: propext, Classical.choice, Quot.sound
Verif.Covariance.C56_violated: propext, Classical.choice, Quot.sound
Verif.Search.C57_collected_partial: propext, Classical.choice, Quot.sound
Verif.Search.C57_all_or_none_partial: propext, Classical.choice, Quot.sound
Verif.Search.C57_one_cover_partial: propext, Classical.choice, Quot.sound
Verif.Search.C57_overrun: propext, Classical.choice, Quot.sound
Verif.Search.C57_violated_wrong_element: none
Verif.Search.C57_violated_ub: none
Verif.LocalAssembly.C58_right_hand_sides: propext, Classical.choice, Quot.sound
Verif.LocalAssembly.C58_residual_partial: propext, Classical.choice, Quot.sound
Verif.LocalAssembly.C58_multiscale_basis: propext, Classical.choice, Quot.sound
Verif.LocalAssembly.C58_harmonic_partial: propext, Classical.choice, Quot.sound
Verif.LocalAssembly.C58_harmonic_iff: propext, Classical.choice, Quot.sound
Verif.LocalAssembly.C58_violated_doubled: propext, Classical.choice, Quot.sound
Verif.LocalAssembly.C58_violated: propext, Classical.choice, Quot.sound
Verif.Q1Grid.C58_structured_residual_partial: propext, Classical.choice, Quot.sound
Verif.Q1Grid.C58_structured_partial: propext, Classical.choice, Quot.sound
Verif.LocalAssembly.C59_negative_sign_partial: propext, Classical.choice, Quot.sound
Verif.LocalAssembly.C59_violated_sign: propext, Classical.choice, Quot.sound
Verif.Boundary.C60_exclusive: propext
Verif.Boundary.C60_dirichlet_faces: propext, Classical.choice, Quot.sound
Verif.Boundary.C60_some_dirichlet: propext
Verif.Boundary.C60_one_dimension: propext, Quot.sound
Verif.Boundary.C60_neumann_acts_partial: propext, Classical.choice, Quot.sound
Verif.Boundary.C60_violated_tarbert_2d: propext, Classical.choice, Quot.sound
Verif.Boundary.C60_violated_tarbert_2d_zero: propext, Classical.choice, Quot.sound
Verif.Boundary.C61_all_constrained_partial: propext, Quot.sound
Verif.Boundary.C61_violated: propext, Classical.choice, Quot.sound
Verif.Boundary.C61_continuous_partial: propext, Classical.choice, Quot.sound
Verif.Boundary.C61_violated_basis_vanishes: propext, Classical.choice, Quot.sound
Verif.Boundary.C61_violated_coefficients_ignored: propext, Classical.choice, Quot.sound
Verif.Proxy.C62_covering_cell: propext, Classical.choice, Quot.sound
Verif.Proxy.C62_element_values: propext, Classical.choice, Quot.sound
Verif.Proxy.C62_walk: propext, Classical.choice, Quot.sound
Verif.Proxy.C62_failure_throws: propext, Quot.sound
Verif.Proxy.C62_search_failure: propext, Classical.choice, Quot.sound
Verif.Proxy.C63_order_irrelevant_partial: propext, Classical.choice, Quot.sound
Verif.Proxy.C63_violated: propext, Classical.choice, Quot.sound
Verif.Proxy.C64_construct_iff: propext, Classical.choice, Quot.sound
Verif.Proxy.C64_sequential_partial: propext, Classical.choice, Quot.sound
Verif.Proxy.C64_violated: propext, Classical.choice, Quot.sound
Verif.Manager.C65_runs_independent: propext, Classical.choice, Quot.sound
Verif.Manager.C65_without_guard: propext, Classical.choice, Quot.sound
Verif.Flux.C66_synthetic_er_iff: propext, Classical.choice, Quot.sound
Verif.Flux.C66_two_dimensions_partial: propext, Classical.choice, Quot.sound
Verif.Flux.C66_violated_three_dimensions: propext, Classical.choice, Quot.sound
Verif.Flux.C66_random: propext, Classical.choice, Quot.sound
Verif.Flux.C66_tarbert: propext, Classical.choice, Quot.sound
Verif.Flux.C66_spe10_iff: propext, Classical.choice, Quot.sound
Verif.Flux.C67_synthetic_er_partial: propext, Classical.choice, Quot.sound
Verif.Flux.C67_violated_three_dimensions: propext, Classical.choice, Quot.sound
Verif.Flux.C67_callers_entry: propext, Classical.choice, Quot.sound
Verif.Flux.C67_random: propext, Classical.choice, Quot.sound
Verif.Flux.C67_random_positive: propext, Classical.choice, Quot.sound
Verif.Flux.C67_spe10: propext, Classical.choice, Quot.sound
Verif.Flux.C67_tarbert: propext, Classical.choice, Quot.sound
Verif.LoadBalance.C68_yasp_process_grid: propext, Classical.choice, Quot.sound
Verif.LoadBalance.C68_same_process_grid_iff: propext, Classical.choice, Quot.sound
Verif.LoadBalance.C68_segments: propext, Classical.choice, Quot.sound
Verif.LoadBalance.C68_no_exception: propext, Classical.choice, Quot.sound
Verif.LoadBalance.C68_evaluable2: propext, Classical.choice, Quot.sound
Verif.LoadBalance.C68_evaluable3: propext, Classical.choice, Quot.sound
Verif.LoadBalance.C68_all_processes2: propext, Classical.choice, Quot.sound
Verif.LoadBalance.C68_all_processes3_partial: propext, Classical.choice, Quot.sound
Verif.LoadBalance.C68_sufficient: propext
Verif.LoadBalance.C68_violated_oversampling: propext, Classical.choice, Quot.sound
Verif.LoadBalance.C68_violated_process_grids: propext, Classical.choice, Quot.sound
Verif.LoadBalance.C69_parts: propext, Classical.choice, Quot.sound
Verif.LoadBalance.C69_direction_iff: propext, Classical.choice, Quot.sound
Verif.LoadBalance.C69_isotropic_partial: propext, Classical.choice, Quot.sound
Verif.LoadBalance.C69_cube_iff: propext, Classical.choice, Quot.sound
Verif.LoadBalance.C69_search_iff: propext, Classical.choice, Quot.sound
Verif.LoadBalance.C69_projection_fails: propext, Classical.choice, Quot.sound
Verif.LoadBalance.C69_violated_anisotropic: propext, Classical.choice, Quot.sound
Verif.LoadBalance.C69_violated_isotropic: propext, Classical.choice, Quot.sound
Verif.LoadBalance.C69_violated_projection: propext, Classical.choice, Quot.sound
Verif.RandomStream.C70_range: propext, Classical.choice, Quot.sound
Verif.RandomStream.C70_distinct_partial: propext, Classical.choice, Quot.sound
Verif.RandomStream.C70_period: propext, Classical.choice, Quot.sound
Verif.RandomStream.C70_violated_linear: propext, Classical.choice, Quot.sound
Verif.RandomStream.C70_violated_overlap: propext, Classical.choice, Quot.sound
Verif.RandomStream.C70_violated_correlation: propext, Classical.choice, Quot.sound
Verif.Q1Grid.C71_free_injective: propext, Classical.choice, Quot.sound
Verif.Q1Grid.C71_unique_partial: propext, Classical.choice, Quot.sound
Verif.Q1Grid.C71_local_solutions_exist: propext, Classical.choice, Quot.sound
Verif.Q1Grid.C71_violated_kernel: propext, Classical.choice, Quot.sound
Verif.Q1Grid.C71_violated_singular: propext, Classical.choice, Quot.sound
Verif.Q1Grid.C71_violated_unsolvable: propext, Classical.choice, Quot.sound
Verif.Q1Grid.C71_violated_problems: propext, Classical.choice, Quot.sound
Verif.Q1Grid.C72_is_fem: propext, Classical.choice, Quot.sound
Verif.Q1Grid.C72_system: propext, Classical.choice, Quot.sound
Verif.Q1Grid.C72_no_correction: propext, Classical.choice, Quot.sound
Verif.Q1Grid.C72_means: propext, Classical.choice, Quot.sound
Verif.Q1Grid.C72_problems_partial: propext, Classical.choice, Quot.sound
Verif.Q1Grid.C72_fem_free_injective: propext, Classical.choice, Quot.sound
Verif.Q1Grid.C72_violated_source: propext, Classical.choice, Quot.sound
Verif.Q1Grid.C72_violated_problems: propext, Classical.choice, Quot.sound
Verif.Oversampling.C73_residual_partial: propext, Classical.choice, Quot.sound
Verif.Oversampling.C73_constrained_partial: propext, Classical.choice, Quot.sound
Verif.Oversampling.C73_no_correction_partial: propext, Classical.choice, Quot.sound
Verif.Oversampling.C73_agree_partial: propext, Classical.choice, Quot.sound
Verif.Oversampling.C73_violated_varying: propext, Classical.choice, Quot.sound
Verif.Oversampling.C73_violated_dirichlet: propext, Classical.choice, Quot.sound
Verif.GridCheck.C74_match_iff: propext, Classical.choice, Quot.sound
Verif.GridCheck.C74_all_iff: propext, Classical.choice, Quot.sound
Verif.GridCheck.C74_violated_uniform: propext, Classical.choice, Quot.sound
Verif.GridCheck.C74_violated_hang: propext, Classical.choice, Quot.sound
Verif.Flow.C75_flow_partial: propext, Classical.choice, Quot.sound
Verif.Flow.C75_violated_log: propext, Classical.choice, Quot.sound
Verif.Flow.C75_violated_position: propext, Classical.choice, Quot.sound
Verif.Flow.C75_violated_empty: propext, Classical.choice, Quot.sound
Verif.Flow.C75_violated_processes: propext, Classical.choice, Quot.sound
Verif.Flow.C75_faces: propext, Classical.choice, Quot.sound
Verif.FemSolver.C76_galerkin: propext, Classical.choice, Quot.sound
Verif.FemSolver.C76_unique: propext, Classical.choice, Quot.sound
Verif.FemSolver.C76_problems_partial: propext, Classical.choice, Quot.sound
Verif.FemSolver.C76_second_walk: propext, Classical.choice, Quot.sound
Verif.FemSolver.C76_second_walk_wrong: propext, Classical.choice, Quot.sound
Verif.CellCounts.C77_integers: propext, Classical.choice, Quot.sound
Verif.Double.C77_double: propext, Classical.choice, Quot.sound
Verif.CellCounts.C77_fit_iff_partial: propext, Classical.choice, Quot.sound
Verif.CellCounts.C77_width_iff_partial: propext, Classical.choice, Quot.sound
Verif.CellCounts.C77_violated_coarse: propext, Classical.choice, Quot.sound
Verif.CellCounts.C77_violated_micro: propext, Classical.choice, Quot.sound
Verif.CellCounts.C77_violated_oversampling: propext, Classical.choice, Quot.sound
Verif.CellCounts.C77_violated_range: propext, Classical.choice, Quot.sound
Verif.CellCounts.C77_range: propext, Classical.choice, Quot.sound
Verif.Quadrature.C78_exact: propext, Classical.choice, Quot.sound
Verif.Quadrature.C78_rules: propext, Classical.choice, Quot.sound
Verif.Quadrature.C78_same_rule: propext, Classical.choice, Quot.sound
Verif.Quadrature.C78_local: propext, Classical.choice, Quot.sound
Verif.Quadrature.C78_reference_iff_partial: propext, Classical.choice, Quot.sound
Verif.Quadrature.C78_violated_random: propext, Classical.choice, Quot.sound
Verif.ErrorNorms.C79_l2_exact: propext, Classical.choice, Quot.sound
Verif.ErrorNorms.C79_l2_zero: propext, Classical.choice, Quot.sound
Verif.ErrorNorms.C79_norm: propext, Classical.choice, Quot.sound
Verif.ErrorNorms.C79_l2_triangle: propext, Classical.choice, Quot.sound
Verif.ErrorNorms.C79_exact_zero_iff: propext, Classical.choice, Quot.sound
Verif.ErrorNorms.C79_h1_exact_partial: propext, Classical.choice, Quot.sound
Verif.ErrorNorms.C79_h1_definite_partial: propext, Classical.choice, Quot.sound
Verif.ErrorNorms.C79_h1_zero_iff: propext, Classical.choice, Quot.sound
Verif.ErrorNorms.C79_h1_le_partial: propext, Classical.choice, Quot.sound
Verif.ErrorNorms.C79_violated_h1: propext, Classical.choice, Quot.sound
Verif.ErrorNorms.C79_h1_dirichlet_iff_partial: propext, Classical.choice, Quot.sound
Verif.ErrorNorms.C79_h1_triangle_partial: propext, Classical.choice, Quot.sound
Verif.ErrorNorms.C79_violated_triangle: propext, Classical.choice, Quot.sound
Verif.ErrorNorms.C79_triangle_iff_partial: propext, Classical.choice, Quot.sound
Verif.ErrorNorms.C79_ratio_iff_partial: propext, Classical.choice, Quot.sound
Verif.ErrorNorms.C79_violated_ratio: propext, Classical.choice, Quot.sound
Verif.ErrorNorms.C79_ratio_fine: propext, Classical.choice, Quot.sound
Verif.Report.C80_projected_partial: propext, Classical.choice, Quot.sound
Verif.Report.C80_projected_accumulating: propext, Classical.choice, Quot.sound
Verif.Report.C80_prolongation: propext, Classical.choice, Quot.sound
Verif.Report.C80_numbers_partial: propext, Classical.choice, Quot.sound
Verif.Report.C80_zero_iff_partial: propext, Classical.choice, Quot.sound
Verif.Report.C80_same_solution: propext, Classical.choice, Quot.sound
Verif.Report.C80_zero_accumulating: propext, Classical.choice, Quot.sound
Verif.Report.C80_violated_norm: propext, Classical.choice, Quot.sound
Verif.Report.C80_violated_relative: propext, Classical.choice, Quot.sound
Verif.Report.C80_violated_data: propext, Classical.choice, Quot.sound
Verif.Report.C80_violated_instance: propext, Classical.choice, Quot.sound
Verif.FemSolver.C81_energy_difference: propext, Classical.choice, Quot.sound
Verif.FemSolver.C81_least_energy: propext, Classical.choice, Quot.sound
Verif.FemSolver.C81_result: propext, Classical.choice, Quot.sound
Verif.FemSolver.C81_problems: propext, Classical.choice, Quot.sound
Verif.FemSolver.C81_balance: propext, Classical.choice, Quot.sound
Verif.Pipeline.C82_succeeds: propext, Classical.choice, Quot.sound
Verif.Pipeline.C82_run_exists: propext, Classical.choice, Quot.sound
Verif.Pipeline.C82_superposition: propext, Classical.choice, Quot.sound
Verif.Pipeline.C82_scaling: propext, Classical.choice, Quot.sound
Verif.Pipeline.C82_problems: propext, Classical.choice, Quot.sound
Verif.FemSolver.C82_reference: propext, Classical.choice, Quot.sound
Verif.Pipeline.C83_corrected_twice: propext, Classical.choice, Quot.sound
Verif.Pipeline.C83_constant_iff: propext, Classical.choice, Quot.sound
Verif.Pipeline.C83_constant_corners: propext, Classical.choice, Quot.sound
Verif.Pipeline.C83_violated_constant: propext, Classical.choice, Quot.sound
Verif.Pipeline.C83_linear: propext, Classical.choice, Quot.sound
Verif.FemSolver.C83_reference_constant: propext, Classical.choice, Quot.sound
Verif.FemSolver.C83_reference_linear: propext, Classical.choice, Quot.sound
Verif.Pipeline.C84_all_faces: propext, Classical.choice, Quot.sound
Verif.Pipeline.C84_inner_twice: propext, Classical.choice, Quot.sound
Verif.Pipeline.C84_coarse: propext, Classical.choice, Quot.sound
Verif.Pipeline.C84_equal_partial: propext, Classical.choice, Quot.sound
Verif.Pipeline.C84_problems: propext, Classical.choice, Quot.sound
Verif.Pipeline.C84_violated: propext, Classical.choice, Quot.sound
Verif.Manager.C85_any_schedule: propext, Classical.choice, Quot.sound
Verif.Manager.C85_finishes: propext, Classical.choice, Quot.sound
Verif.Manager.C85_loads: propext, Classical.choice, Quot.sound
Verif.Manager.C85_missing: propext, Classical.choice, Quot.sound
Verif.Manager.C85_needs_distinct_keys: propext
Verif.Pipeline.C85_same_run: propext, Classical.choice, Quot.sound
Verif.Oversampling.C85_same_layers: propext, Classical.choice, Quot.sound
Verif.Oversampling.C86_free_injective: propext, Classical.choice, Quot.sound
Verif.Oversampling.C86_any_local_solutions: propext, Classical.choice, Quot.sound
Verif.Oversampling.C86_succeeds: propext, Classical.choice, Quot.sound
Verif.Oversampling.C86_run_exists: propext, Classical.choice, Quot.sound
Verif.Oversampling.C86_unique: propext, Classical.choice, Quot.sound
Verif.Oversampling.C86_superposition: propext, Classical.choice, Quot.sound
Verif.Oversampling.C86_scaling: propext, Classical.choice, Quot.sound
Verif.Oversampling.C86_cell: propext, Classical.choice, Quot.sound
Verif.Oversampling.C86_no_layers: propext, Classical.choice, Quot.sound
Verif.Oversampling.C86_problems: propext, Classical.choice, Quot.sound
Verif.GridCreation.C87_no_overlap_partial: propext, Quot.sound
Verif.GridCreation.C87_announced: propext, Classical.choice, Quot.sound
Verif.GridCreation.C87_violated_serial: propext, Quot.sound
Verif.GridCreation.C87_violated: none
Verif.GridCreation.C87_solved: propext, Classical.choice, Quot.sound
Verif.Pipeline.C88_same_run: propext, Classical.choice, Quot.sound
Verif.Pipeline.C88_unit: propext, Classical.choice, Quot.sound
Verif.Oversampling.C88_same_layers: propext, Classical.choice, Quot.sound
Verif.FemSolver.C88_same_reference: propext, Classical.choice, Quot.sound
Verif.QuadratureOrder.C89_coarse_load_partial: propext, Classical.choice, Quot.sound
Verif.QuadratureOrder.C89_coarse_matrix: propext, Classical.choice, Quot.sound
Verif.QuadratureOrder.C89_reference_load: propext, Classical.choice, Quot.sound
Verif.QuadratureOrder.C89_violated_operator: propext, Classical.choice, Quot.sound
Verif.QuadratureOrder.C89_over: propext, Classical.choice, Quot.sound
Verif.Pipeline.C90_turned: propext, Classical.choice, Quot.sound
Verif.Pipeline.C90_turned_exists: propext, Classical.choice, Quot.sound
Verif.Pipeline.C90_symmetric: propext, Classical.choice, Quot.sound
Verif.Pipeline.C90_boundary: propext, Classical.choice, Quot.sound
Verif.FemSolver.C90_reference: propext, Classical.choice, Quot.sound
Verif.Oversampling.C90_turned_layers: propext, Classical.choice, Quot.sound
Verif.Oversampling.C90_turned_layers_exists: propext, Classical.choice, Quot.sound
Verif.FieldSize.C91_exact: propext, Classical.choice, Quot.sound
Verif.FieldSize.C91_cells_partial: propext, Classical.choice, Quot.sound
Verif.FieldSize.C91_violated: propext, Classical.choice, Quot.sound
Verif.FieldSize.C91_too_fine: propext, Classical.choice, Quot.sound
Verif.FieldSize.C91_one_cell: propext, Classical.choice, Quot.sound
Verif.FieldSize.C91_unequal: propext, Classical.choice, Quot.sound
Verif.FieldSize.C91_dimension: propext, Classical.choice, Quot.sound
Verif.FieldSize.C91_source2: propext, Quot.sound
Verif.FieldSize.C91_source3: propext, Quot.sound
Verif.FieldSize.C91_cell2: propext, Classical.choice, Quot.sound
Verif.FieldSize.C91_cell3: propext, Classical.choice, Quot.sound
Verif.Tests.C92_compare_partial: propext, Classical.choice, Quot.sound
Verif.Tests.C92_cgfem_partial: propext, Classical.choice, Quot.sound
Verif.Tests.C92_msfem_violated: propext, Classical.choice, Quot.sound
Verif.Tests.C92_msfem_names: propext, Classical.choice, Quot.sound
Verif.Tests.C92_missing_violated: propext, Classical.choice, Quot.sound
Verif.Tests.C92_check_inside: propext, Classical.choice, Quot.sound
Verif.Tests.C92_lp_violated: propext, Classical.choice, Quot.sound
Verif.Tests.C92_lp_witness: propext, Classical.choice, Quot.sound
Verif.Tests.C92_dimensions: propext, Classical.choice, Quot.sound
Verif.Tests.C92_dimensions_violated: propext, Classical.choice, Quot.sound
Verif.Tests.C92_projection: propext, Classical.choice, Quot.sound
Verif.Tests.C92_projection_constant: propext, Classical.choice, Quot.sound
Verif.ThreadVis.C93_values: propext, Classical.choice, Quot.sound
Verif.ThreadVis.C93_shows_partial: propext, Classical.choice, Quot.sound
Verif.ThreadVis.C93_violated: propext, Classical.choice, Quot.sound
Verif.ThreadVis.C93_zero_violated: propext, Classical.choice, Quot.sound
Verif.ThreadVis.C93_files: propext, Classical.choice, Quot.sound
Verif.ThreadVis.C93_mismatch: propext, Classical.choice, Quot.sound
Verif.ThreadVis.C93_files_distinct: propext, Classical.choice, Quot.sound
Verif.LayerCount.C94_serves_iff_partial: propext, Classical.choice, Quot.sound
Verif.LayerCount.C94_nonneg_partial: propext, Classical.choice, Quot.sound
Verif.LayerCount.C94_overflow: propext, Classical.choice, Quot.sound
Verif.LayerCount.C94_negative: propext, Classical.choice, Quot.sound
Verif.LayerCount.C94_violated: propext, Classical.choice, Quot.sound
Verif.LayerCount.C94_gaps: propext, Classical.choice, Quot.sound
Verif.LayerCount.C94_volume: propext, Classical.choice, Quot.sound
Verif.LayerCount.C94_overlap: propext, Classical.choice, Quot.sound
Verif.Double.C94_double: propext, Classical.choice, Quot.sound
Verif.Printing.C95_nearest: propext, Classical.choice, Quot.sound
Verif.Printing.C95_relative: propext, Classical.choice, Quot.sound
Verif.Printing.C95_exact_iff: propext, Classical.choice, Quot.sound
Verif.Printing.C95_sign: propext, Classical.choice, Quot.sound
Verif.Printing.C95_monotone: propext, Classical.choice, Quot.sound
Verif.Printing.C95_file: propext, Classical.choice, Quot.sound
Verif.Printing.C95_not_a_number: propext, Classical.choice, Quot.sound
Verif.Printing.C95_not_injective: propext, Classical.choice, Quot.sound
Verif.RoundedGrid.C96_count_iff_partial: propext, Classical.choice, Quot.sound
Verif.RoundedGrid.C96_few_layers_partial: propext, Classical.choice, Quot.sound
Verif.RoundedGrid.C96_double_partial: propext, Classical.choice, Quot.sound
Verif.RoundedGrid.C96_box: propext, Classical.choice, Quot.sound
Verif.RoundedGrid.C96_violated: propext, Classical.choice, Quot.sound
Verif.RoundedGrid.C96_not_aligned: propext, Classical.choice, Quot.sound
Verif.RoundedGrid.double_accurate: propext, Classical.choice, Quot.sound
Verif.RoundedSearch.C97_dyadic_partial: propext, Classical.choice, Quot.sound
Verif.RoundedSearch.C97_layers_partial: propext, Classical.choice, Quot.sound
Verif.RoundedSearch.C97_oversampled_partial: propext, Classical.choice, Quot.sound
Verif.RoundedSearch.C97_directions: propext, Classical.choice, Quot.sound
Verif.RoundedSearch.C97_setups_partial: propext, Classical.choice, Quot.sound
Verif.RoundedSearch.C97_wover_partial: propext, Classical.choice, Quot.sound
Verif.RoundedSearch.C97_violated_cells: propext, Classical.choice, Quot.sound
Verif.RoundedSearch.C97_no_gaps: propext, Classical.choice, Quot.sound
Verif.RoundedSearch.C97_violated_p_large: propext, Classical.choice, Quot.sound
Verif.RoundedSearch.C97_violated_p_huge: propext, Classical.choice, Quot.sound
Verif.RoundedSearch.C97_violated_layers: propext, Classical.choice, Quot.sound
Verif.RoundedSearch.C97_violated_throws: propext, Classical.choice, Quot.sound
Verif.RoundedSearch.C97_violated_elements: propext, Classical.choice, Quot.sound
Verif.GridArguments.C98_fine_iff: propext, Classical.choice, Quot.sound
Verif.GridArguments.C98_fine_partial: propext, Classical.choice, Quot.sound
Verif.GridArguments.C98_coarse_partial: propext, Classical.choice, Quot.sound
Verif.GridArguments.C98_different_overlap: propext, Classical.choice, Quot.sound
Verif.GridArguments.C98_violated_overlap: propext, Classical.choice, Quot.sound
Verif.GridArguments.C98_violated_cells: propext, Classical.choice, Quot.sound
