# Axioms used by the theorems of MANIFEST.json

Printed by `#print axioms` with Lean 4.33.0.

| theorem | axioms |
|----|----|
| `Verif.C01_mirror_value` | propext, Classical.choice, Quot.sound |
| `Verif.C01_mirror_involutive` | propext, Classical.choice, Quot.sound |
| `Verif.C01_mirror_error` | propext, Classical.choice, Quot.sound |
| `Verif.C02_spinflip_value` | propext, Classical.choice, Quot.sound |
| `Verif.C02_spinflip_involutive` | propext, Classical.choice, Quot.sound |
| `Verif.C02_spinflip_mirror_comm` | propext, Classical.choice, Quot.sound |
| `Verif.C03_coordinates` | propext, Classical.choice, Quot.sound |
| `Verif.C03_flat` | propext, Classical.choice, Quot.sound |
| `Verif.C03_boundary` | propext, Classical.choice, Quot.sound |
| `Verif.C04_positive` | propext, Classical.choice, Quot.sound |
| `Verif.C04_denominators` | propext, Classical.choice, Quot.sound |
| `Verif.C04_mirror` | propext, Classical.choice, Quot.sound |
| `Verif.C05_coulomb` | propext, Classical.choice, Quot.sound |
| `Verif.C05_coulomb_laws` | propext, Classical.choice, Quot.sound |
| `Verif.C06_block_partial` | propext, Classical.choice, Quot.sound |
| `Verif.C06_edge_partial` | propext, Classical.choice, Quot.sound |
| `Verif.C06_exists` | propext, Classical.choice, Quot.sound |
| `Verif.C06_refuted` | propext, Classical.choice, Quot.sound |
| `Verif.C06_overflow` | propext, Classical.choice, Quot.sound |
| `Verif.C07_composite_partial` | propext, Classical.choice, Quot.sound |
| `Verif.C07_single_point` | propext, Classical.choice, Quot.sound |
| `Verif.C07_raises` | propext, Classical.choice, Quot.sound |
| `Verif.C07_refuted` | propext, Classical.choice, Quot.sound |
| `Verif.NC_returns` | propext, Classical.choice, Quot.sound |
| `Verif.NC_three_one` | propext, Classical.choice, Quot.sound |
| `Verif.C08_tensor_partial` | propext, Classical.choice, Quot.sound |
| `Verif.C08_refuted` | propext, Classical.choice, Quot.sound |
| `Verif.C09_linear` | propext, Classical.choice, Quot.sound |
| `Verif.C09_columns` | propext, Classical.choice, Quot.sound |
| `Verif.C09_column_refuted` | propext, Classical.choice, Quot.sound |
| `Verif.C09_mirror` | propext, Classical.choice, Quot.sound |
| `Verif.C10_coefficients` | propext, Classical.choice, Quot.sound |
| `Verif.C10_parity` | propext, Classical.choice, Quot.sound |
| `Verif.C10_error` | propext, Classical.choice, Quot.sound |
| `Verif.C10_deterministic` | propext, Classical.choice, Quot.sound |
| `Verif.C119_conditioned_partial` | propext, Classical.choice, Quot.sound |
| `Verif.C119_refuted_close` | propext, Classical.choice, Quot.sound |
| `Verif.C100_janak_partial` | propext, Classical.choice, Quot.sound |
| `Verif.C100_scf` | propext, Classical.choice, Quot.sound |
| `Verif.C100_refuted` | propext, Classical.choice, Quot.sound |
| `Verif.C101_entropy_partial` | propext, Classical.choice, Quot.sound |
| `Verif.C101_potential_partial` | propext, Classical.choice, Quot.sound |
| `Verif.C101_refuted` | propext, Classical.choice, Quot.sound |
| `Verif.C101_refuted_empty` | propext, Classical.choice, Quot.sound |
| `Verif.C102_converges_partial` | propext, Classical.choice, Quot.sound |
| `Verif.C102_order_partial` | propext, Classical.choice, Quot.sound |
| `Verif.C102_volume_partial` | propext, Classical.choice, Quot.sound |
| `Verif.C102_refuted` | propext, Classical.choice, Quot.sound |
| `Verif.C103_real_partial` | propext, Classical.choice, Quot.sound |
| `Verif.C103_variational_partial` | propext, Classical.choice, Quot.sound |
| `Verif.C103_bound_partial` | propext, Classical.choice, Quot.sound |
| `Verif.C103_ground_partial` | propext, Classical.choice, Quot.sound |
| `Verif.C103_refuted` | propext, Classical.choice, Quot.sound |
| `Verif.C103_refuted_wide` | propext, Classical.choice, Quot.sound |
| `Verif.C104_exists_partial` | propext, Classical.choice, Quot.sound |
| `Verif.C104_below_partial` | propext, Classical.choice, Quot.sound |
| `Verif.C104_minimum_partial` | propext, Classical.choice, Quot.sound |
| `Verif.C104_refuted` | propext, Classical.choice, Quot.sound |
| `Verif.C105_positive_partial` | propext, Classical.choice, Quot.sound |
| `Verif.C105_unique_partial` | propext, Classical.choice, Quot.sound |
| `Verif.C105_exists_partial` | propext, Classical.choice, Quot.sound |
| `Verif.C105_inversion_partial` | propext, Classical.choice, Quot.sound |
| `Verif.C105_refuted` | propext, Classical.choice, Quot.sound |
| `Verif.C106_potential_partial` | propext, Classical.choice, Quot.sound |
| `Verif.C106_derivative_partial` | propext, Classical.choice, Quot.sound |
| `Verif.C106_refuted` | propext, Classical.choice, Quot.sound |
| `Verif.C107_electrons_partial` | propext, Classical.choice, Quot.sound |
| `Verif.C107_refuted` | propext, Classical.choice, Quot.sound |
| `Verif.C107_refuted_shared` | propext, Classical.choice, Quot.sound |
| `Verif.C108_tw_partial` | propext, Classical.choice, Quot.sound |
| `Verif.C108_pw_partial` | propext, Classical.choice, Quot.sound |
| `Verif.C108_shape` | propext, Classical.choice, Quot.sound |
| `Verif.C108_refuted` | propext, Classical.choice, Quot.sound |
| `Verif.C108_pw_refuted` | propext, Classical.choice, Quot.sound |
| `Verif.C108_missing` | propext, Classical.choice, Quot.sound |
| `Verif.C109_scf` | propext, Classical.choice, Quot.sound |
| `Verif.C109_init` | propext, Classical.choice, Quot.sound |
| `Verif.C109_symmetric` | propext, Classical.choice, Quot.sound |
| `Verif.C109_homonuclear` | propext, Classical.choice, Quot.sound |
| `Verif.C109_coulomb` | propext, Classical.choice, Quot.sound |
| `Verif.C109_operators` | propext, Classical.choice, Quot.sound |
| `Verif.C109_orbitals` | propext, Classical.choice, Quot.sound |
| `Verif.C109_workers` | propext, Classical.choice, Quot.sound |
| `Verif.C109_xc1` | propext, Classical.choice, Quot.sound |
| `Verif.C109_xc2` | propext, Classical.choice, Quot.sound |
| `Verif.C109_functionals_partial` | propext, Classical.choice, Quot.sound |
| `Verif.C109_refuted_blocks` | propext, Classical.choice, Quot.sound |
| `Verif.C109_refuted_energy` | propext, Classical.choice, Quot.sound |
| `Verif.C11_first_derivative` | propext, Classical.choice, Quot.sound |
| `Verif.C11_C12_error` | propext, Classical.choice, Quot.sound |
| `Verif.FD.exists_coefficients` | propext, Classical.choice, Quot.sound |
| `Verif.FD.three_point` | propext, Classical.choice, Quot.sound |
| `Verif.C110_scf_partial` | propext, Classical.choice, Quot.sound |
| `Verif.C110_refuted_alpha` | propext, Classical.choice, Quot.sound |
| `Verif.C110_refuted_ensemble` | propext, Classical.choice, Quot.sound |
| `Verif.C110_refuted_inversion` | propext, Classical.choice, Quot.sound |
| `Verif.C110_refuted_twoorbital` | propext, Classical.choice, Quot.sound |
| `Verif.C111_pattern` | propext, Classical.choice, Quot.sound |
| `Verif.C111_version` | propext, Classical.choice, Quot.sound |
| `Verif.C111_faithful_partial` | propext, Classical.choice, Quot.sound |
| `Verif.C111_refuted_plus` | propext, Classical.choice, Quot.sound |
| `Verif.C111_raises` | propext, Classical.choice, Quot.sound |
| `Verif.C111_styles` | propext, Classical.choice, Quot.sound |
| `Verif.C111_styles_untagged` | propext, Classical.choice, Quot.sound |
| `Verif.C111_default` | propext, Classical.choice, Quot.sound |
| `Verif.C111_unparsed` | propext, Classical.choice, Quot.sound |
| `Verif.C111_incomplete` | propext, Classical.choice, Quot.sound |
| `Verif.C112_archive_partial` | propext, Classical.choice, Quot.sound |
| `Verif.C112_tagged_partial` | propext, Classical.choice, Quot.sound |
| `Verif.C112_refuted_branch` | propext, Classical.choice, Quot.sound |
| `Verif.C112_refuted_newest` | propext, Classical.choice, Quot.sound |
| `Verif.C112_refuted_comma` | propext, Classical.choice, Quot.sound |
| `Verif.C112_directory_partial` | propext, Classical.choice, Quot.sound |
| `Verif.C112_levels` | propext, Classical.choice, Quot.sound |
| `Verif.C112_refuted_directory` | propext, Classical.choice, Quot.sound |
| `Verif.C113_scf` | propext, Classical.choice, Quot.sound |
| `Verif.C113_closed` | propext, Classical.choice, Quot.sound |
| `Verif.C113_init` | propext, Classical.choice, Quot.sound |
| `Verif.C113_workers` | propext, Quot.sound |
| `Verif.C113_functionals` | propext, Classical.choice, Quot.sound |
| `Verif.C114_scf` | propext, Classical.choice, Quot.sound |
| `Verif.C114_init` | propext, Classical.choice, Quot.sound |
| `Verif.C114_grid` | propext, Classical.choice, Quot.sound |
| `Verif.C114_operators` | propext, Classical.choice, Quot.sound |
| `Verif.C114_orbitals` | propext, Classical.choice, Quot.sound |
| `Verif.C114_workers` | propext, Classical.choice, Quot.sound |
| `Verif.C114_factorise` | propext, Classical.choice, Quot.sound |
| `Verif.C114_hartree` | propext, Classical.choice, Quot.sound |
| `Verif.C114_energy` | propext, Classical.choice, Quot.sound |
| `Verif.C114_refuted_repulsion` | propext, Classical.choice, Quot.sound |
| `Verif.C114_refuted_cutoff` | propext, Classical.choice, Quot.sound |
| `Verif.C114_refuted_empty` | propext, Classical.choice, Quot.sound |
| `Verif.C115_scf_partial` | propext, Classical.choice, Quot.sound |
| `Verif.C115_success_partial` | propext, Classical.choice, Quot.sound |
| `Verif.C115_init` | propext, Classical.choice, Quot.sound |
| `Verif.C115_environment_partial` | propext, Classical.choice, Quot.sound |
| `Verif.C115_refuted_ensemble` | propext, Classical.choice, Quot.sound |
| `Verif.C115_refuted_inversion` | propext, Classical.choice, Quot.sound |
| `Verif.C115_refuted_twoorbital` | propext, Classical.choice, Quot.sound |
| `Verif.C116_derivative` | propext, Classical.choice, Quot.sound |
| `Verif.C116_response_partial` | propext, Classical.choice, Quot.sound |
| `Verif.C116_jacobian_partial` | propext, Classical.choice, Quot.sound |
| `Verif.C116_family` | propext, Classical.choice, Quot.sound |
| `Verif.C116_refuted_weights` | propext, Classical.choice, Quot.sound |
| `Verif.C117_level` | propext, Classical.choice, Quot.sound |
| `Verif.C117_level_partial` | propext, Classical.choice, Quot.sound |
| `Verif.C117_response_partial` | propext, Classical.choice, Quot.sound |
| `Verif.C117_energy_partial` | propext, Classical.choice, Quot.sound |
| `Verif.C117_refuted_symmetric` | propext, Classical.choice, Quot.sound |
| `Verif.C117_refuted_response` | propext, Classical.choice, Quot.sound |
| `Verif.C117_refuted_weights` | propext, Classical.choice, Quot.sound |
| `Verif.C118_pass_partial` | propext, Classical.choice, Quot.sound |
| `Verif.C118_run_partial` | propext, Classical.choice, Quot.sound |
| `Verif.C118_energy_partial` | propext, Classical.choice, Quot.sound |
| `Verif.C118_refuted` | propext, Classical.choice, Quot.sound |
| `Verif.C119_conditioned_partial` | propext, Classical.choice, Quot.sound |
| `Verif.C119_stencils_partial` | propext, Classical.choice, Quot.sound |
| `Verif.C119_refuted_integers` | propext, Classical.choice, Quot.sound |
| `Verif.C119_refuted_close` | propext, Classical.choice, Quot.sound |
| `Verif.C12_second_derivative` | propext, Classical.choice, Quot.sound |
| `Verif.C11_C12_error` | propext, Classical.choice, Quot.sound |
| `Verif.C120_continue_partial` | propext, Classical.choice, Quot.sound |
| `Verif.C120_two_passes` | propext, Classical.choice, Quot.sound |
| `Verif.C120_fresh` | propext, Classical.choice, Quot.sound |
| `Verif.C120_repeat` | propext, Classical.choice, Quot.sound |
| `Verif.C120_refuted_iterative` | propext, Classical.choice, Quot.sound |
| `Verif.C120_refuted_maxiter` | propext, Classical.choice, Quot.sound |
| `Verif.C121_continue_partial` | propext, Classical.choice, Quot.sound |
| `Verif.C121_refuted_iterative` | propext, Classical.choice, Quot.sound |
| `Verif.C121_refuted_inversion` | propext, Classical.choice, Quot.sound |
| `Verif.C121_refuted_repeat` | propext, Classical.choice, Quot.sound |
| `Verif.C122_error` | propext, Classical.choice, Quot.sound |
| `Verif.C122_relative` | propext, Classical.choice, Quot.sound |
| `Verif.C122_monotone` | propext, Classical.choice, Quot.sound |
| `Verif.C122_mirror` | propext, Classical.choice, Quot.sound |
| `Verif.C122_refuted_mirror` | propext, Classical.choice, Quot.sound |
| `Verif.C123_relative` | propext, Classical.choice, Quot.sound |
| `Verif.C123_electrons` | propext, Classical.choice, Quot.sound |
| `Verif.C123_nonneg` | propext, Classical.choice, Quot.sound |
| `Verif.C123_mirror` | propext, Classical.choice, Quot.sound |
| `Verif.C123_symmetrise` | propext, Classical.choice, Quot.sound |
| `Verif.C124_columns` | propext, Classical.choice, Quot.sound |
| `Verif.C124_electrons` | propext, Classical.choice, Quot.sound |
| `Verif.C125_promolecule` | propext, Classical.choice, Quot.sound |
| `Verif.C125_range` | propext, Classical.choice, Quot.sound |
| `Verif.C125_unity_partial` | propext, Classical.choice, Quot.sound |
| `Verif.C125_mirror` | propext, Classical.choice, Quot.sound |
| `Verif.C125_refuted_underflow` | propext, Classical.choice, Quot.sound |
| `Verif.C126_error` | propext, Classical.choice, Quot.sound |
| `Verif.C126_bounded` | propext, Classical.choice, Quot.sound |
| `Verif.C126_parts` | propext, Classical.choice, Quot.sound |
| `Verif.C126_mirror_partial` | propext, Classical.choice, Quot.sound |
| `Verif.C126_refuted_ensemble` | propext, Classical.choice, Quot.sound |
| `Verif.C127_weights_partial` | propext, Classical.choice, Quot.sound |
| `Verif.C127_positive_partial` | propext, Classical.choice, Quot.sound |
| `Verif.C127_norm_partial` | propext, Classical.choice, Quot.sound |
| `Verif.C127_refuted` | propext, Classical.choice, Quot.sound |
| `Verif.C128_partial` | propext, Quot.sound |
| `Verif.C128_values` | propext, Quot.sound |
| `Verif.C128_methods` | propext, Quot.sound |
| `Verif.C128_caller_partial` | propext, Quot.sound |
| `Verif.C128_script_partial` | propext, Quot.sound |
| `Verif.C128_kept_partial` | propext, Quot.sound |
| `Verif.C128_refuted_orbitalinvert` | propext, Quot.sound |
| `Verif.C128_refuted_iter` | propext, Quot.sound |
| `Verif.C128_refuted_simple` | propext |
| `Verif.C129_passes` | propext, Classical.choice, Quot.sound |
| `Verif.C129_contraction` | propext, Classical.choice, Quot.sound |
| `Verif.C129_repulsion` | propext, Classical.choice, Quot.sound |
| `Verif.C129_alpha` | propext, Classical.choice, Quot.sound |
| `Verif.C129_stops` | propext, Classical.choice, Quot.sound |
| `Verif.C129_refuted_sloshing` | propext, Classical.choice, Quot.sound |
| `Verif.C13_boundary_1d` | propext, Classical.choice, Quot.sound |
| `Verif.C13_boundary_2d` | propext, Classical.choice, Quot.sound |
| `Verif.C130_initialize` | propext, Quot.sound |
| `Verif.C130_calls` | propext, Quot.sound |
| `Verif.C130_after` | propext, Quot.sound |
| `Verif.C130_before` | propext, Classical.choice, Quot.sound |
| `Verif.C130_refresh` | propext, Quot.sound |
| `Verif.C130_failed` | propext, Quot.sound |
| `Verif.C130_volume` | propext, Classical.choice, Quot.sound |
| `Verif.C130_depends` | propext, Quot.sound |
| `Verif.C130_refuted_pieces` | propext |
| `Verif.C130_refuted_atomic` | propext |
| `Verif.C131_regex` | propext, Classical.choice, Quot.sound |
| `Verif.C131_kept_partial` | propext, Classical.choice, Quot.sound |
| `Verif.C131_lost` | propext, Classical.choice, Quot.sound |
| `Verif.C131_once` | propext, Classical.choice, Quot.sound |
| `Verif.C131_shipped` | propext, Classical.choice, Quot.sound |
| `Verif.C131_refuted_order` | propext, Classical.choice, Quot.sound |
| `Verif.C131_refuted_range` | propext, Classical.choice, Quot.sound |
| `Verif.C131_refuted_setup` | propext |
| `Verif.C131_shapes` | propext, Classical.choice, Quot.sound |
| `Verif.C132_contraction` | propext, Classical.choice, Quot.sound |
| `Verif.C132_density` | propext, Classical.choice, Quot.sound |
| `Verif.C132_stops` | propext, Classical.choice, Quot.sound |
| `Verif.C132_symmetric` | propext, Classical.choice, Quot.sound |
| `Verif.C132_stops_symmetric` | propext, Classical.choice, Quot.sound |
| `Verif.C132_ended_refuted` | propext, Classical.choice, Quot.sound |
| `Verif.C133_values` | propext, Classical.choice, Quot.sound |
| `Verif.C133_below_partial` | propext, Classical.choice, Quot.sound |
| `Verif.C133_heavy_partial` | propext, Classical.choice, Quot.sound |
| `Verif.C133_point_partial` | propext, Classical.choice, Quot.sound |
| `Verif.C133_refuted` | propext, Classical.choice, Quot.sound |
| `Verif.C133_linresponse_refuted` | propext, Classical.choice, Quot.sound |
| `Verif.C134_new` | propext, Classical.choice, Quot.sound |
| `Verif.C134_before` | propext, Classical.choice, Quot.sound |
| `Verif.C134_passes` | propext, Classical.choice, Quot.sound |
| `Verif.C134_after` | propext, Classical.choice, Quot.sound |
| `Verif.C134_hxc` | propext, Classical.choice, Quot.sound |
| `Verif.C135_fresh` | propext, Classical.choice, Quot.sound |
| `Verif.C135_start` | propext, Classical.choice, Quot.sound |
| `Verif.C135_energy` | propext, Classical.choice, Quot.sound |
| `Verif.C135_before` | propext, Classical.choice, Quot.sound |
| `Verif.C14_separable` | propext, Classical.choice, Quot.sound |
| `Verif.C14_mirror` | propext, Classical.choice, Quot.sound |
| `Verif.C15_one_column` | propext, Classical.choice, Quot.sound |
| `Verif.C15_two_columns_partial` | propext, Classical.choice, Quot.sound |
| `Verif.C15_error` | propext, Classical.choice, Quot.sound |
| `Verif.C15_refuted` | propext, Classical.choice, Quot.sound |
| `Verif.C16_poisson_partial` | propext, Classical.choice, Quot.sound |
| `Verif.C16_permuted` | propext, Classical.choice, Quot.sound |
| `Verif.C16_refuted` | propext, Classical.choice, Quot.sound |
| `Verif.C17_total_linear` | propext, Classical.choice, Quot.sound |
| `Verif.C17_energy` | propext, Classical.choice, Quot.sound |
| `Verif.C17_mirror_partial` | propext, Classical.choice, Quot.sound |
| `Verif.C18_density` | propext, Classical.choice, Quot.sound |
| `Verif.C18_electron_number` | propext, Classical.choice, Quot.sound |
| `Verif.C19_nonneg` | propext, Classical.choice, Quot.sound |
| `Verif.C19_scale` | propext, Classical.choice, Quot.sound |
| `Verif.C20_energy_partial` | propext, Classical.choice, Quot.sound |
| `Verif.C20_index_error` | propext, Classical.choice, Quot.sound |
| `Verif.C20_refuted` | propext, Classical.choice, Quot.sound |
| `Verif.C20_guard` | propext, Quot.sound |
| `Verif.C21_homo_partial` | propext, Classical.choice, Quot.sound |
| `Verif.C21_refuted` | propext, Classical.choice, Quot.sound |
| `Verif.C22_normalize` | propext, Classical.choice, Quot.sound |
| `Verif.C23_own_correction_partial` | propext, Classical.choice, Quot.sound |
| `Verif.C23_refuted_unbound` | propext, Classical.choice, Quot.sound |
| `Verif.C23_refuted_stale` | propext, Classical.choice, Quot.sound |
| `Verif.C24_parity_partial` | propext, Classical.choice, Quot.sound |
| `Verif.C24_pair_partial` | propext, Classical.choice, Quot.sound |
| `Verif.C24_density` | propext, Classical.choice, Quot.sound |
| `Verif.C24_refuted` | propext, Classical.choice, Quot.sound |
| `Verif.C25_response_partial` | propext, Classical.choice, Quot.sound |
| `Verif.C25_fractional` | propext, Classical.choice, Quot.sound |
| `Verif.C25_refuted` | propext, Classical.choice, Quot.sound |
| `Verif.C26_hamiltonian` | propext, Classical.choice, Quot.sound |
| `Verif.C27_integral_partial` | propext, Classical.choice, Quot.sound |
| `Verif.C27_fractional` | propext, Classical.choice, Quot.sound |
| `Verif.C27_refuted` | propext, Classical.choice, Quot.sound |
| `Verif.C28_table_partial` | propext, Classical.choice, Quot.sound |
| `Verif.C28_shape` | propext, Classical.choice, Quot.sound |
| `Verif.C28_refuted` | propext, Classical.choice, Quot.sound |
| `Verif.C29_schedule` | propext, Classical.choice, Quot.sound |
| `Verif.KS.run_exists` | propext, Classical.choice, Quot.sound |
| `Verif.C30_density` | propext, Classical.choice, Quot.sound |
| `Verif.C30_grid` | propext, Classical.choice, Quot.sound |
| `Verif.C31_options` | propext, Classical.choice, Quot.sound |
| `Verif.C31_invalid` | propext, Quot.sound |
| `Verif.C31_scf_partial` | propext, Classical.choice, Quot.sound |
| `Verif.C31_refuted` | propext, Classical.choice, Quot.sound |
| `Verif.C31_defaults` | propext, Classical.choice, Quot.sound |
| `Verif.C32_scf_partial` | propext, Classical.choice, Quot.sound |
| `Verif.C32_mix` | propext, Classical.choice, Quot.sound |
| `Verif.C32_refuted` | propext, Classical.choice, Quot.sound |
| `Verif.C33_budget_partial` | propext, Classical.choice, Quot.sound |
| `Verif.C33_returns` | propext, Classical.choice, Quot.sound |
| `Verif.C33_refuted_nan` | propext, Classical.choice, Quot.sound |
| `Verif.C33_refuted_auto` | propext, Quot.sound |
| `Verif.C34_energy` | propext, Classical.choice, Quot.sound |
| `Verif.C34_consistent` | propext, Classical.choice, Quot.sound |
| `Verif.C35_set_effective` | propext, Quot.sound |
| `Verif.C35_scf_potential` | propext, Classical.choice, Quot.sound |
| `Verif.C35_refuted_external` | propext, Quot.sound |
| `Verif.C35_refuted_flip` | propext, Classical.choice, Quot.sound |
| `Verif.C36_chempot` | propext, Quot.sound |
| `Verif.C37_weights_partial` | propext, Classical.choice, Quot.sound |
| `Verif.C37_refuted` | propext, Quot.sound |
| `Verif.C38_promolecule` | propext, Classical.choice, Quot.sound |
| `Verif.C39_partition_of_unity` | propext, Classical.choice, Quot.sound |
| `Verif.C40_average` | propext, Classical.choice, Quot.sound |
| `Verif.C40_difference` | propext, Classical.choice, Quot.sound |
| `Verif.C41_total_energy_partial` | propext, Classical.choice, Quot.sound |
| `Verif.C41_refuted` | propext, Classical.choice, Quot.sound |
| `Verif.C42_fragment_energies_partial` | propext, Classical.choice, Quot.sound |
| `Verif.C42_refuted` | propext, Classical.choice, Quot.sound |
| `Verif.C43_mirrorAB` | propext, Classical.choice, Quot.sound |
| `Verif.C44_budget_partial` | propext, Classical.choice, Quot.sound |
| `Verif.C44_terminates` | propext, Quot.sound |
| `Verif.C44_refuted_warning` | propext, Classical.choice, Quot.sound |
| `Verif.C44_refuted_nan` | propext, Classical.choice, Quot.sound |
| `Verif.C44_refuted_auto` | propext, Quot.sound |
| `Verif.C45_reference_partial` | propext, Classical.choice, Quot.sound |
| `Verif.C45_last` | propext, Quot.sound |
| `Verif.C45_refuted` | propext, Classical.choice, Quot.sound |
| `Verif.C46_options_partial` | propext, Classical.choice, Quot.sound |
| `Verif.C46_refuted` | propext, Classical.choice, Quot.sound |
| `Verif.C46_refuted_values` | propext, Classical.choice, Quot.sound |
| `Verif.C47_vonweiz_partial` | propext, Classical.choice, Quot.sound |
| `Verif.C47_refuted` | propext, Classical.choice, Quot.sound |
| `Verif.C47_refuted_scf` | propext, Classical.choice, Quot.sound |
| `Verif.C48_current_partial` | propext, Classical.choice, Quot.sound |
| `Verif.C48_refuted` | propext, Classical.choice, Quot.sound |
| `Verif.C49_frozen_partial` | propext, Classical.choice, Quot.sound |
| `Verif.C49_refuted` | propext, Classical.choice, Quot.sound |
| `Verif.C50_isolated` | propext, Classical.choice, Quot.sound |
| `Verif.C50_energy` | propext, Classical.choice, Quot.sound |
| `Verif.C51_hartree_density_partial` | propext, Classical.choice, Quot.sound |
| `Verif.C51_refuted` | propext, Classical.choice, Quot.sound |
| `Verif.C51_refuted_frozen` | propext, Classical.choice, Quot.sound |
| `Verif.C52_overlap` | propext, Classical.choice, Quot.sound |
| `Verif.C52_opposite` | propext, Classical.choice, Quot.sound |
| `Verif.C52_symmetric` | propext, Classical.choice, Quot.sound |
| `Verif.C52_monotone` | propext, Classical.choice, Quot.sound |
| `Verif.C53_roundtrip` | propext, Classical.choice, Quot.sound |
| `Verif.C54_normalize` | propext, Classical.choice, Quot.sound |
| `Verif.C54_zero` | propext, Classical.choice, Quot.sound |
| `Verif.C55_jacobian_partial` | propext, Classical.choice, Quot.sound |
| `Verif.C55_refuted` | propext, Classical.choice, Quot.sound |
| `Verif.C56_loop_partial` | propext, Classical.choice, Quot.sound |
| `Verif.C56_refuted_nan` | propext, Classical.choice, Quot.sound |
| `Verif.C56_refuted_hidden_nan` | propext, Classical.choice, Quot.sound |
| `Verif.C56_abandoned` | propext, Classical.choice, Quot.sound |
| `Verif.C57_occupations_partial` | propext, Classical.choice, Quot.sound |
| `Verif.C57_odd` | propext, Classical.choice, Quot.sound |
| `Verif.C57_several_m` | propext, Quot.sound |
| `Verif.C57_first` | propext, Classical.choice, Quot.sound |
| `Verif.C57_empty` | propext, Classical.choice, Quot.sound |
| `Verif.C57_refuted` | propext, Classical.choice, Quot.sound |
| `Verif.C57_refuted_empty` | propext, Classical.choice, Quot.sound |
| `Verif.C57_refuted_fractional` | propext, Classical.choice, Quot.sound |
| `Verif.C58_symmetrize` | propext, Classical.choice, Quot.sound |
| `Verif.C58_same_parity` | propext, Classical.choice, Quot.sound |
| `Verif.C59_dispatch_partial` | propext |
| `Verif.C59_refuted_dispatch` | propext |
| `Verif.C59_wuyang_partial` | propext, Classical.choice, Quot.sound |
| `Verif.C59_ens` | propext, Quot.sound |
| `Verif.C59_refuted_two_spins` | propext, Quot.sound |
| `Verif.C59_refuted_ispin` | propext, Quot.sound |
| `Verif.C59_refuted_guess` | propext, Quot.sound |
| `Verif.C59_refuted_simple` | propext, Quot.sound |
| `Verif.C60_Ts` | propext, Classical.choice, Quot.sound |
| `Verif.C60_ts_partial` | propext, Classical.choice, Quot.sound |
| `Verif.C60_refuted` | propext, Classical.choice, Quot.sound |
| `Verif.C60_refuted_ens` | propext, Classical.choice, Quot.sound |
| `Verif.C61_residual` | propext, Classical.choice, Quot.sound |
| `Verif.C61_jacobian_partial` | propext, Classical.choice, Quot.sound |
| `Verif.C61_jacobian_iff` | propext, Classical.choice, Quot.sound |
| `Verif.C61_refuted` | propext, Classical.choice, Quot.sound |
| `Verif.C61_refuted_pin` | propext, Classical.choice, Quot.sound |
| `Verif.C62_spinflip` | propext, Classical.choice, Quot.sound |
| `Verif.C62_polarised` | propext, Classical.choice, Quot.sound |
| `Verif.C62_unpolarised` | propext, Classical.choice, Quot.sound |
| `Verif.C63_plotter` | propext, Classical.choice, Quot.sound |
| `Verif.C63_thin` | propext, Classical.choice, Quot.sound |
| `Verif.C64_refuted` | propext, Classical.choice, Quot.sound |
| `Verif.C64_errors` | propext, Classical.choice, Quot.sound |
| `Verif.C65_zero_iff` | propext, Classical.choice, Quot.sound |
| `Verif.C66_guess_partial` | propext, Classical.choice, Quot.sound |
| `Verif.C66_refuted_order` | propext, Classical.choice, Quot.sound |
| `Verif.C66_refuted_gauge` | propext, Classical.choice, Quot.sound |
| `Verif.C67_converged` | propext, Classical.choice, Quot.sound |
| `Verif.C68_vt_partial` | propext, Quot.sound |
| `Verif.C68_refuted` | propext, Classical.choice, Quot.sound |
| `Verif.C68_zero` | propext, Quot.sound |
| `Verif.C69_simple_partial` | propext, Classical.choice, Quot.sound |
| `Verif.C69_refuted` | propext, Classical.choice, Quot.sound |
| `Verif.C69_refuted_us` | propext, Classical.choice, Quot.sound |
| `Verif.C70_equal_spins_partial` | propext, Classical.choice, Quot.sound |
| `Verif.C70_refuted` | propext, Classical.choice, Quot.sound |
| `Verif.C71_points_partial` | propext, Classical.choice, Quot.sound |
| `Verif.C71_opposite` | propext, Classical.choice, Quot.sound |
| `Verif.C71_refuted` | propext, Classical.choice, Quot.sound |
| `Verif.C72_metric` | propext, Classical.choice, Quot.sound |
| `Verif.C73_continuous` | propext, Classical.choice, Quot.sound |
| `Verif.C73_laplacian` | propext, Classical.choice, Quot.sound |
| `Verif.C74_convergence` | propext, Classical.choice, Quot.sound |
| `Verif.C75_kohnsham` | propext, Classical.choice, Quot.sound |
| `Verif.C75_partition` | propext, Classical.choice, Quot.sound |
| `Verif.C76_orbitals` | propext, Classical.choice, Quot.sound |
| `Verif.C76_energy` | propext, Classical.choice, Quot.sound |
| `Verif.C76_exists` | propext, Classical.choice, Quot.sound |
| `Verif.C76_exists_partial` | propext, Classical.choice, Quot.sound |
| `Verif.C76_refuted` | propext, Classical.choice, Quot.sound |
| `Verif.C77_homogeneous` | propext, Classical.choice, Quot.sound |
| `Verif.C77_derivative` | propext, Classical.choice, Quot.sound |
| `Verif.C77_refuted_twoorbital` | propext, Classical.choice, Quot.sound |
| `Verif.C78_second_partial` | propext, Classical.choice, Quot.sound |
| `Verif.C78_first_partial` | propext, Classical.choice, Quot.sound |
| `Verif.C78_energy_partial` | propext, Classical.choice, Quot.sound |
| `Verif.C78_refuted` | propext, Classical.choice, Quot.sound |
| `Verif.C79_boundary` | propext, Classical.choice, Quot.sound |
| `Verif.C79_poisson_partial` | propext, Classical.choice, Quot.sound |
| `Verif.C80_green` | propext, Classical.choice, Quot.sound |
| `Verif.C81_gradient` | propext, Classical.choice, Quot.sound |
| `Verif.C81_divergence_partial` | propext, Classical.choice, Quot.sound |
| `Verif.C81_refuted` | propext, Classical.choice, Quot.sound |
| `Verif.C82_lda` | propext, Classical.choice, Quot.sound |
| `Verif.C82_gga_partial` | propext, Classical.choice, Quot.sound |
| `Verif.C82_polarised_partial` | propext, Classical.choice, Quot.sound |
| `Verif.C82_weights_refuted` | propext, Classical.choice, Quot.sound |
| `Verif.C82_mixed_refuted` | propext, Classical.choice, Quot.sound |
| `Verif.C83_nuclear` | propext, Classical.choice, Quot.sound |
| `Verif.C83_fragments_partial` | propext, Classical.choice, Quot.sound |
| `Verif.C85_refuted_sym` | propext, Classical.choice, Quot.sound |
| `Verif.C84_hxc` | propext, Classical.choice, Quot.sound |
| `Verif.C84_scf` | propext, Classical.choice, Quot.sound |
| `Verif.C84_derivative` | propext, Classical.choice, Quot.sound |
| `Verif.C85_kohnsham` | propext, Classical.choice, Quot.sound |
| `Verif.C85_partition_partial` | propext, Classical.choice, Quot.sound |
| `Verif.C85_refuted_options` | propext, Classical.choice, Quot.sound |
| `Verif.C85_refuted_sym` | propext, Classical.choice, Quot.sound |
| `Verif.KsScf.difN_close` | propext, Classical.choice, Quot.sound |
| `Verif.C86_kohnsham_partial` | propext, Classical.choice, Quot.sound |
| `Verif.PartScf.C86_partition_partial` | propext, Classical.choice, Quot.sound |
| `Verif.C86_refuted_one` | propext, Classical.choice, Quot.sound |
| `Verif.C86_refuted_empty` | propext, Classical.choice, Quot.sound |
| `Verif.PartScf.C86_refuted_target` | propext, Classical.choice, Quot.sound |
| `Verif.C87_derivative_partial` | propext, Classical.choice, Quot.sound |
| `Verif.C87_polarisation` | propext, Classical.choice, Quot.sound |
| `Verif.C88_derivative_partial` | propext, Classical.choice, Quot.sound |
| `Verif.C88_average_partial` | propext, Classical.choice, Quot.sound |
| `Verif.C88_overlap_partial` | propext, Classical.choice, Quot.sound |
| `Verif.C88_overlap_refuted` | propext, Classical.choice, Quot.sound |
| `Verif.C89_pairing` | propext, Classical.choice, Quot.sound |
| `Verif.C89_cross_derivative` | propext, Classical.choice, Quot.sound |
| `Verif.C89_overlap_partial` | propext, Classical.choice, Quot.sound |
| `Verif.C89_overlap_refuted` | propext, Classical.choice, Quot.sound |
| `Verif.C90_components_partial` | propext, Classical.choice, Quot.sound |
| `Verif.C90_promolecule` | propext, Classical.choice, Quot.sound |
| `Verif.C90_refuted` | propext, Classical.choice, Quot.sound |
| `Verif.C91_sdft` | propext, Classical.choice, Quot.sound |
| `Verif.C91_pdft` | propext, Classical.choice, Quot.sound |
| `Verif.C92_orbitals_partial` | propext, Classical.choice, Quot.sound |
| `Verif.C92_sizes_partial` | propext, Classical.choice, Quot.sound |
| `Verif.C92_potential` | propext, Classical.choice, Quot.sound |
| `Verif.C92_consistent_partial` | propext, Classical.choice, Quot.sound |
| `Verif.C92_sizes_refuted` | propext, Classical.choice, Quot.sound |
| `Verif.C92_symmetry_refuted` | propext, Classical.choice, Quot.sound |
| `Verif.C92_consistent_refuted` | propext, Classical.choice, Quot.sound |
| `Verif.C93_construct` | propext, Classical.choice, Quot.sound |
| `Verif.C93_pass` | propext, Classical.choice, Quot.sound |
| `Verif.C93_scf_partial` | propext, Classical.choice, Quot.sound |
| `Verif.C93_functionals_partial` | propext, Classical.choice, Quot.sound |
| `Verif.C93_guard` | propext, Classical.choice, Quot.sound |
| `Verif.C93_refuted_passes` | propext, Classical.choice, Quot.sound |
| `Verif.C93_refuted_guard` | propext, Classical.choice, Quot.sound |
| `Verif.C94_spins_partial` | propext, Classical.choice, Quot.sound |
| `Verif.C94_refuted_info` | propext, Classical.choice, Quot.sound |
| `Verif.C94_stop_partial` | propext, Classical.choice, Quot.sound |
| `Verif.C94_refuted_wuyang` | propext, Classical.choice, Quot.sound |
| `Verif.C94_display` | propext, Classical.choice, Quot.sound |
| `Verif.C94_start` | propext, Classical.choice, Quot.sound |
| `Verif.C95_hxc` | propext, Classical.choice, Quot.sound |
| `Verif.C95_hxc_partial` | propext, Classical.choice, Quot.sound |
| `Verif.C95_refuted` | propext, Classical.choice, Quot.sound |
| `Verif.C95_libxcke` | propext, Classical.choice, Quot.sound |
| `Verif.C95_libxcke_partial` | propext, Classical.choice, Quot.sound |
| `Verif.C95_refuted_libxcke` | propext, Classical.choice, Quot.sound |
| `Verif.C95_vonweiz_partial` | propext, Classical.choice, Quot.sound |
| `Verif.C95_none` | propext, Classical.choice, Quot.sound |
| `Verif.C95_refuted_inversion` | propext, Classical.choice, Quot.sound |
| `Verif.C95_twoorbital` | propext, Classical.choice, Quot.sound |
| `Verif.C95_twoorbital_partial` | propext, Classical.choice, Quot.sound |
| `Verif.C95_refuted_twoorbital` | propext, Classical.choice, Quot.sound |
| `Verif.C95_refuted_inversion_term` | propext, Classical.choice, Quot.sound |
| `Verif.C96_length` | propext, Classical.choice, Quot.sound |
| `Verif.C96_settings` | propext, Classical.choice, Quot.sound |
| `Verif.C96_mixing` | propext, Classical.choice, Quot.sound |
| `Verif.C96_avoid` | propext, Classical.choice, Quot.sound |
| `Verif.C97_stationary_partial` | propext, Classical.choice, Quot.sound |
| `Verif.C97_refuted` | propext, Classical.choice, Quot.sound |
| `Verif.C98_choice_partial` | propext, Classical.choice, Quot.sound |
| `Verif.C98_refuted` | propext, Classical.choice, Quot.sound |
| `Verif.C98_newton` | propext, Classical.choice, Quot.sound |
| `Verif.C98_fixed` | propext, Classical.choice, Quot.sound |
| `Verif.C98_iterative` | propext, Classical.choice, Quot.sound |
| `Verif.C98_orbitals` | propext, Classical.choice, Quot.sound |
| `Verif.C99_order_partial` | propext, Classical.choice, Quot.sound |
| `Verif.C99_pairing` | propext, Classical.choice, Quot.sound |
| `Verif.C99_solution_partial` | propext, Classical.choice, Quot.sound |
| `Verif.C99_nonzero` | propext, Classical.choice, Quot.sound |
| `Verif.C99_symmetric` | propext, Classical.choice, Quot.sound |
| `Verif.C99_refuted_order` | propext, Classical.choice, Quot.sound |
| `Verif.C99_refuted_solution` | propext, Classical.choice, Quot.sound |
| `Verif.C99_lowest` | propext, Classical.choice, Quot.sound |
