{
 "claims": [
  {
   "property": "C01",
   "status": "proved",
   "theorems": [
    "Verif.C01_mirror_value",
    "Verif.C01_mirror_involutive",
    "Verif.C01_mirror_error"
   ],
   "note": "mirror on arrays of every shape; wrong shapes raise ValueError"
  },
  {
   "property": "C02",
   "status": "proved",
   "theorems": [
    "Verif.C02_spinflip_value",
    "Verif.C02_spinflip_involutive",
    "Verif.C02_spinflip_mirror_comm"
   ],
   "note": "spinflip on (Nelem,p) arrays"
  },
  {
   "property": "C03",
   "status": "proved",
   "theorems": [
    "Verif.C03_coordinates",
    "Verif.C03_flat",
    "Verif.C03_boundary"
   ],
   "note": "over the reals (no rounding)"
  },
  {
   "property": "C04",
   "status": "proved",
   "theorems": [
    "Verif.C04_positive",
    "Verif.C04_denominators",
    "Verif.C04_mirror"
   ],
   "note": "over the reals"
  },
  {
   "property": "C05",
   "status": "proved",
   "theorems": [
    "Verif.C05_coulomb",
    "Verif.C05_coulomb_laws"
   ],
   "note": "over the reals"
  },
  {
   "property": "C06",
   "status": "partial",
   "theorems": [
    "Verif.C06_block_partial",
    "Verif.C06_edge_partial",
    "Verif.C06_exists",
    "Verif.C06_refuted",
    "Verif.C06_overflow"
   ],
   "note": "Proved for at most 12 points per block, with numpy's cut-off of singular values (rcond=None) and 64-bit integers in the model. False for 13 to 16 points (C06_refuted: the cut-off changes the weights); from 17 points on the integers wrap around (C06_overflow). Rounding is not modelled."
  },
  {
   "property": "C07",
   "status": "partial",
   "theorems": [
    "Verif.C07_composite_partial",
    "Verif.C07_single_point",
    "Verif.C07_raises",
    "Verif.C07_refuted",
    "Verif.NC_returns",
    "Verif.NC_three_one"
   ],
   "note": "Fails for Nm=1 (end blocks overlap, C07_refuted); proved for Nm>=2 and at most 12 points per block; C07_raises says exactly when ValueError is raised."
  },
  {
   "property": "C08",
   "status": "partial",
   "theorems": [
    "Verif.C08_tensor_partial",
    "Verif.C08_refuted"
   ],
   "note": "Fails for NMa != NMr: weights are flattened in row-major order (C08_refuted); proved for equal weights"
  },
  {
   "property": "C09",
   "status": "partial",
   "theorems": [
    "Verif.C09_linear",
    "Verif.C09_columns",
    "Verif.C09_column_refuted",
    "Verif.C09_mirror"
   ],
   "note": "Fails for an (Nelem,1) column: broadcasting sums an Nelem x Nelem array (C09_column_refuted). Mirror invariance for at most 12 points per block (C06)."
  },
  {
   "property": "C10",
   "status": "partial",
   "theorems": [
    "Verif.C10_coefficients",
    "Verif.C10_parity",
    "Verif.C10_error",
    "Verif.C10_deterministic",
    "Verif.C119_conditioned_partial",
    "Verif.C119_refuted_close"
   ],
   "note": "Proved for the exact least-squares problem, including the zeroing of entries below 1e-10. numpy's solver gives its solution where the Taylor table is well conditioned (C119_conditioned_partial), but not for points that are too close (C119_refuted_close)."
  },
  {
   "property": "C100",
   "status": "partial",
   "theorems": [
    "Verif.C100_janak_partial",
    "Verif.C100_scf",
    "Verif.C100_refuted"
   ],
   "note": "The asymmetry of the Hartree operator stays as a remainder (zero for a symmetric one); false without fractional occupation (C100_refuted)."
  },
  {
   "property": "C101",
   "status": "partial",
   "theorems": [
    "Verif.C101_entropy_partial",
    "Verif.C101_potential_partial",
    "Verif.C101_refuted",
    "Verif.C101_refuted_empty"
   ],
   "note": "Values proved for positive densities (entropy in bits, functional derivative). Refuted: np.repeat along axis 1 of a 1-d array raises ValueError, so no per-spin columns are stored; NaN where a fragment has no density."
  },
  {
   "property": "C102",
   "status": "partial",
   "theorems": [
    "Verif.C102_converges_partial",
    "Verif.C102_order_partial",
    "Verif.C102_volume_partial",
    "Verif.C102_refuted"
   ],
   "note": "Proved for equal block numbers and at most 12 points per block (C06): convergence for every continuous function, to the integral over the box in three dimensions, and the order for smooth functions that vanish at the end of the box. Refuted for unequal block numbers."
  },
  {
   "property": "C103",
   "status": "partial",
   "theorems": [
    "Verif.C103_real_partial",
    "Verif.C103_variational_partial",
    "Verif.C103_bound_partial",
    "Verif.C103_ground_partial",
    "Verif.C103_refuted",
    "Verif.C103_refuted_wide"
   ],
   "note": "Real energies, lower bound, orthogonality, variational principle, nodeless non-degenerate ground state, for three-point stencils and a radial step with hr/2 < tanh(3 hr/2); refuted for coarser steps, and (real energies) for five-point stencils at any step. Missing: lower bound and ground state for wider stencils."
  },
  {
   "property": "C104",
   "status": "partial",
   "theorems": [
    "Verif.C104_exists_partial",
    "Verif.C104_below_partial",
    "Verif.C104_minimum_partial",
    "Verif.C104_refuted"
   ],
   "note": "Minimum over all orthonormal trial orbitals, attained; existence of the states nearest to e0; starts below the potential are below all energies. Three-point stencils, radial step with hr/2 < tanh(3 hr/2). Refuted for starts that are not below all energies (constant shift of the potential). Missing: wider stencils."
  },
  {
   "property": "C105",
   "status": "partial",
   "theorems": [
    "Verif.C105_positive_partial",
    "Verif.C105_unique_partial",
    "Verif.C105_exists_partial",
    "Verif.C105_inversion_partial",
    "Verif.C105_refuted"
   ],
   "note": "Density of one orbital vanishes nowhere; uniqueness up to a constant; existence for every positive density; exact zeros of the equations of orbitalinvert with an orbital of one sign give the potential. Refuted for zeros whose orbital changes sign. Three-point stencils, radial step with hr/2 < tanh(3 hr/2). Missing: wider stencils, residuals that are not exactly zero."
  },
  {
   "property": "C106",
   "status": "partial",
   "theorems": [
    "Verif.C106_potential_partial",
    "Verif.C106_derivative_partial",
    "Verif.C106_refuted"
   ],
   "note": "Monotone, Lipschitz, constant shift, concave; the derivative is the density in the weight that makes the Hamiltonian symmetric. Refuted for the density of calc_density (quadrature weights). Three-point stencils, radial step with hr/2 < tanh(3 hr/2). Missing: wider stencils."
  },
  {
   "property": "C107",
   "status": "partial",
   "theorems": [
    "Verif.C107_electrons_partial",
    "Verif.C107_refuted",
    "Verif.C107_refuted_shared"
   ],
   "note": "Refuted for the scripts as written (one dictionary for both calls raises ValueError); proved with the options separated."
  },
  {
   "property": "C108",
   "status": "partial",
   "theorems": [
    "Verif.C108_tw_partial",
    "Verif.C108_pw_partial",
    "Verif.C108_shape",
    "Verif.C108_refuted",
    "Verif.C108_pw_refuted",
    "Verif.C108_missing"
   ],
   "note": "ValueError for numbers as parameters. TW_paramke proved for parameters of shape (1,) and rows of gradients; PW91k_paramke is NaN for |A s| > 1 (asin in place of asinh) and only accepts one point."
  },
  {
   "property": "C109",
   "status": "partial",
   "theorems": [
    "Verif.C109_scf",
    "Verif.C109_init",
    "Verif.C109_symmetric",
    "Verif.C109_homonuclear",
    "Verif.C109_coulomb",
    "Verif.C109_operators",
    "Verif.C109_orbitals",
    "Verif.C109_workers",
    "Verif.C109_xc1",
    "Verif.C109_xc2",
    "Verif.C109_functionals_partial",
    "Verif.C109_refuted_blocks",
    "Verif.C109_refuted_energy"
   ],
   "note": "proved for grids with a mirror-invariant integral (equal block counts), workers that solve the mirrored eigenproblem alike (shown for non-degenerate levels) and a Laplacian factorised without row exchanges; refuted for unequal block counts"
  },
  {
   "property": "C11",
   "status": "proved",
   "theorems": [
    "Verif.C11_first_derivative",
    "Verif.C11_C12_error",
    "Verif.FD.exists_coefficients",
    "Verif.FD.three_point"
   ],
   "note": "every half-width, grid size, vector and row"
  },
  {
   "property": "C110",
   "status": "partial",
   "theorems": [
    "Verif.C110_scf_partial",
    "Verif.C110_refuted_alpha",
    "Verif.C110_refuted_ensemble",
    "Verif.C110_refuted_inversion",
    "Verif.C110_refuted_twoorbital"
   ],
   "note": "Proved: without ensembles and for equal treatment of the fragments scf with ab_sym equals scf without it, for every kinetic part except inversion and two-orbital. Refuted with witnesses: different mixing parameters, ensembles (C42), inversion (C45), two-orbital (the two potentials integrate different functions, C78)."
  },
  {
   "property": "C111",
   "status": "partial",
   "theorems": [
    "Verif.C111_pattern",
    "Verif.C111_version",
    "Verif.C111_faithful_partial",
    "Verif.C111_refuted_plus",
    "Verif.C111_raises",
    "Verif.C111_styles",
    "Verif.C111_styles_untagged",
    "Verif.C111_default",
    "Verif.C111_unparsed",
    "Verif.C111_incomplete"
   ],
   "note": "Proved: version, pattern, styles, unparsable output, exact list of exceptions. The version determines the state only if tags have no plus (refuted otherwise)."
  },
  {
   "property": "C112",
   "status": "partial",
   "theorems": [
    "Verif.C112_archive_partial",
    "Verif.C112_tagged_partial",
    "Verif.C112_refuted_branch",
    "Verif.C112_refuted_newest",
    "Verif.C112_refuted_comma",
    "Verif.C112_directory_partial",
    "Verif.C112_levels",
    "Verif.C112_refuted_directory"
   ],
   "note": "Tagged commits: proved for names without commas and parentheses. Refuted: untagged commits on a branch with a digit, the newest of two tags, versions in directory names."
  },
  {
   "property": "C113",
   "status": "proved",
   "theorems": [
    "Verif.C113_scf",
    "Verif.C113_closed",
    "Verif.C113_init",
    "Verif.C113_workers",
    "Verif.C113_functionals"
   ],
   "note": "Workers are assumed to depend on their own solver only (C113_workers) and the libxc functionals to treat the spins alike (C113_functionals); which exception is raised may differ."
  },
  {
   "property": "C114",
   "status": "partial",
   "theorems": [
    "Verif.C114_scf",
    "Verif.C114_init",
    "Verif.C114_grid",
    "Verif.C114_operators",
    "Verif.C114_orbitals",
    "Verif.C114_workers",
    "Verif.C114_factorise",
    "Verif.C114_hartree",
    "Verif.C114_energy",
    "Verif.C114_refuted_repulsion",
    "Verif.C114_refuted_cutoff",
    "Verif.C114_refuted_empty"
   ],
   "note": "Proved for one nucleus, all energies but Vks, and u/homo when every solver has electrons. Refuted: with two nuclei the repulsion goes with 1/x^3, Vks is cut off at 1e5, and -2^52 is recorded without electrons."
  },
  {
   "property": "C115",
   "status": "partial",
   "theorems": [
    "Verif.C115_scf_partial",
    "Verif.C115_success_partial",
    "Verif.C115_init",
    "Verif.C115_environment_partial",
    "Verif.C115_refuted_ensemble",
    "Verif.C115_refuted_inversion",
    "Verif.C115_refuted_twoorbital"
   ],
   "note": "Proved for single fragments without ab_sym and for all kinetic parts except inversion and two-orbital, the hypotheses on the environment for the real grid with pol 1. Refuted for ensembles, for the inversion and for the two-orbital functional."
  },
  {
   "property": "C116",
   "status": "partial",
   "theorems": [
    "Verif.C116_derivative",
    "Verif.C116_response_partial",
    "Verif.C116_jacobian_partial",
    "Verif.C116_family",
    "Verif.C116_refuted_weights"
   ],
   "note": "The derivative is computed in general (C116_derivative). It is the response matrix for m = 0 and equal weights, twice that for m > 0; refuted for unequal weights. Fractional occupation raises IndexError in calc_response (C25_fractional)."
  },
  {
   "property": "C117",
   "status": "partial",
   "theorems": [
    "Verif.C117_level",
    "Verif.C117_level_partial",
    "Verif.C117_response_partial",
    "Verif.C117_energy_partial",
    "Verif.C117_refuted_symmetric",
    "Verif.C117_refuted_response",
    "Verif.C117_refuted_weights"
   ],
   "note": "reciprocity and the derivative of eks hold for a symmetric Hamiltonian (equal weights for eks); refuted otherwise: real three-point Hamiltonians are never symmetric; levels change by the expectation value in the weight that makes the Hamiltonian symmetric"
  },
  {
   "property": "C118",
   "status": "partial",
   "theorems": [
    "Verif.C118_pass_partial",
    "Verif.C118_run_partial",
    "Verif.C118_energy_partial",
    "Verif.C118_refuted"
   ],
   "note": "Per pass and for any number of passes: 'sdft' always, 'pdft' where the density vanishes at no point; total energies at self-consistency with no kinetic part. False where the density vanishes under 'pdft' (C118_refuted). Not covered: the initial guesses (they differ), the loops' convergence tests and pass budgets, ensembles and symmetry options."
  },
  {
   "property": "C119",
   "status": "partial",
   "theorems": [
    "Verif.C119_conditioned_partial",
    "Verif.C119_stencils_partial",
    "Verif.C119_refuted_integers",
    "Verif.C119_refuted_close"
   ],
   "note": "Holds for centred stencils up to 19 points and for all offsets with a table of condition number below 2^53; false for 21 integer offsets (64-bit overflow) and for offsets that are too close (cut-off). Rounding is not modelled."
  },
  {
   "property": "C12",
   "status": "proved",
   "theorems": [
    "Verif.C12_second_derivative",
    "Verif.C11_C12_error"
   ],
   "note": "every half-width, grid size, vector and row"
  },
  {
   "property": "C120",
   "status": "partial",
   "theorems": [
    "Verif.C120_continue_partial",
    "Verif.C120_two_passes",
    "Verif.C120_fresh",
    "Verif.C120_repeat",
    "Verif.C120_refuted_iterative",
    "Verif.C120_refuted_maxiter"
   ],
   "note": "Continuing equals not interrupting without iterative, or where iter_orbitals was already in use at the cut; refuted otherwise with a witness. Repeating is proved for limits of at least 2 and tolerances below 10 and workers that see only their solver; with a limit of at most 1 the old energies remain (proved for all inputs)."
  },
  {
   "property": "C121",
   "status": "partial",
   "theorems": [
    "Verif.C121_continue_partial",
    "Verif.C121_refuted_iterative",
    "Verif.C121_refuted_inversion",
    "Verif.C121_refuted_repeat"
   ],
   "note": "Without kinetic inversion an interrupted and continued partition calculation is the uninterrupted one (with iterative only while no later change is below 0.01). Refuted with iterative below 0.01, with inversion (avoid_loop), and for repeating from scratch with iterative."
  },
  {
   "property": "C122",
   "status": "proved",
   "theorems": [
    "Verif.C122_error",
    "Verif.C122_relative",
    "Verif.C122_monotone",
    "Verif.C122_mirror",
    "Verif.C122_refuted_mirror"
   ],
   "note": "All orders of summation and all roundings; equality for the mirrored function needs the mirrored order (witness that a fixed order is not enough)."
  },
  {
   "property": "C123",
   "status": "proved",
   "theorems": [
    "Verif.C123_relative",
    "Verif.C123_electrons",
    "Verif.C123_nonneg",
    "Verif.C123_mirror",
    "Verif.C123_symmetrise"
   ],
   "note": "Rounded arithmetic without overflow; no underflow for the relative statements; halving N exact; norms not computed as zero."
  },
  {
   "property": "C124",
   "status": "proved",
   "theorems": [
    "Verif.C124_columns",
    "Verif.C124_electrons"
   ],
   "note": "Rounded arithmetic without overflow and underflow; what the workers find is arbitrary."
  },
  {
   "property": "C125",
   "status": "partial",
   "theorems": [
    "Verif.C125_promolecule",
    "Verif.C125_range",
    "Verif.C125_unity_partial",
    "Verif.C125_mirror",
    "Verif.C125_refuted_underflow"
   ],
   "note": "Sum of the Q functions bounded for roundings without underflow; with underflow refuted (all Q functions 0 at a positive density), range and symmetry still hold."
  },
  {
   "property": "C126",
   "status": "partial",
   "theorems": [
    "Verif.C126_error",
    "Verif.C126_bounded",
    "Verif.C126_parts",
    "Verif.C126_mirror_partial",
    "Verif.C126_refuted_ensemble"
   ],
   "note": "Exact mirror symmetry without ab_sym holds for one component per fragment and is refuted for ensembles; all error bounds proved."
  },
  {
   "property": "C127",
   "status": "partial",
   "theorems": [
    "Verif.C127_weights_partial",
    "Verif.C127_positive_partial",
    "Verif.C127_norm_partial",
    "Verif.C127_refuted"
   ],
   "note": "Proved for NP in {2..8,10} and any block counts; refuted for NP in {9,11,12}, where the third Newton-Cotes weight is negative, so an orbital can have a negative squared norm. NP >= 13 not covered."
  },
  {
   "property": "C128",
   "status": "partial",
   "theorems": [
    "Verif.C128_partial",
    "Verif.C128_values",
    "Verif.C128_methods",
    "Verif.C128_caller_partial",
    "Verif.C128_script_partial",
    "Verif.C128_kept_partial",
    "Verif.C128_refuted_orbitalinvert",
    "Verif.C128_refuted_iter",
    "Verif.C128_refuted_simple"
   ],
   "note": "Proved for the 36 methods in Sharing.methods from any memory; refuted for orbitalinvert, for iter_orbitals called directly and for simple. vp_kinetic lines 97-100 (sharing of solver objects) are not transcribed."
  },
  {
   "property": "C129",
   "status": "partial",
   "theorems": [
    "Verif.C129_passes",
    "Verif.C129_contraction",
    "Verif.C129_repulsion",
    "Verif.C129_alpha",
    "Verif.C129_stops",
    "Verif.C129_refuted_sloshing"
   ],
   "note": "Convergence proved under contraction or bounded response of the output density; the unconditional wish is refuted (charge sloshing for every mixing parameter). Contraction for an actual molecule is not established; spinflipsym is excluded."
  },
  {
   "property": "C13",
   "status": "proved",
   "theorems": [
    "Verif.C13_boundary_1d",
    "Verif.C13_boundary_2d"
   ],
   "note": "one- and two-dimensional"
  },
  {
   "property": "C130",
   "status": "partial",
   "theorems": [
    "Verif.C130_initialize",
    "Verif.C130_calls",
    "Verif.C130_after",
    "Verif.C130_before",
    "Verif.C130_refresh",
    "Verif.C130_failed",
    "Verif.C130_volume",
    "Verif.C130_depends",
    "Verif.C130_refuted_pieces",
    "Verif.C130_refuted_atomic"
   ],
   "note": "Histories of calls: proved for every arithmetic, with the exact list of parameters each attribute depends on. The wishes that the pieces of initialize refresh a changed parameter and that a failing initialize leaves no mixture are refuted."
  },
  {
   "property": "C131",
   "status": "partial",
   "theorems": [
    "Verif.C131_regex",
    "Verif.C131_kept_partial",
    "Verif.C131_lost",
    "Verif.C131_once",
    "Verif.C131_shipped",
    "Verif.C131_refuted_order",
    "Verif.C131_refuted_range",
    "Verif.C131_refuted_setup",
    "Verif.C131_shapes"
   ],
   "note": "Kept entries proved when only strings precede the entry for Python; otherwise every dependency is dropped (proved), ranges of versions are not recognised, and setup.py does not require pydantic and pylibxc."
  },
  {
   "property": "C132",
   "status": "partial",
   "theorems": [
    "Verif.C132_contraction",
    "Verif.C132_density",
    "Verif.C132_stops",
    "Verif.C132_symmetric",
    "Verif.C132_stops_symmetric",
    "Verif.C132_ended_refuted"
   ],
   "note": "Proved under contraction of the outputs along the run, with and without ab_sym; contraction for an actual molecule is not established. The density and stopping theorems exclude from_target_density. That the loop ends only when the fragments have converged is refuted: the test does not see changes that cancel in nf."
  },
  {
   "property": "C133",
   "status": "partial",
   "theorems": [
    "Verif.C133_values",
    "Verif.C133_below_partial",
    "Verif.C133_heavy_partial",
    "Verif.C133_point_partial",
    "Verif.C133_refuted",
    "Verif.C133_linresponse_refuted"
   ],
   "note": "The starts are proved below all energies away from the nuclei and for heavy nuclei on a given grid (three-point stencil); refuted for a heavy nucleus of the other fragment and for the fixed start -20."
  },
  {
   "property": "C134",
   "status": "proved",
   "theorems": [
    "Verif.C134_new",
    "Verif.C134_before",
    "Verif.C134_passes",
    "Verif.C134_after",
    "Verif.C134_hxc"
   ],
   "note": "Histories of calls without scf; fixed point after scf. The kind of exception of calc_hxc_potential without density is not claimed."
  },
  {
   "property": "C135",
   "status": "proved",
   "theorems": [
    "Verif.C135_fresh",
    "Verif.C135_start",
    "Verif.C135_energy",
    "Verif.C135_before"
   ],
   "note": "Every hxc_part_type; kinetic part other than twoorbital, or an isolated calculation."
  },
  {
   "property": "C14",
   "status": "proved",
   "theorems": [
    "Verif.C14_separable",
    "Verif.C14_mirror"
   ],
   "note": "over the reals, on the grid built by initialize"
  },
  {
   "property": "C15",
   "status": "partial",
   "theorems": [
    "Verif.C15_one_column",
    "Verif.C15_two_columns_partial",
    "Verif.C15_error",
    "Verif.C15_refuted"
   ],
   "note": "Fails for two columns: the middle column is a grid sum, the same at every point (C15_refuted)"
  },
  {
   "property": "C16",
   "status": "partial",
   "theorems": [
    "Verif.C16_poisson_partial",
    "Verif.C16_permuted",
    "Verif.C16_refuted"
   ],
   "note": "Proved when the LU factorisation makes no exchanges; the stored factors drop the permutations, and on coarse grids pivoting occurs (C16_refuted)"
  },
  {
   "property": "C17",
   "status": "partial",
   "theorems": [
    "Verif.C17_total_linear",
    "Verif.C17_energy",
    "Verif.C17_mirror_partial"
   ],
   "note": "Mirror part proved for factorisations without exchanges and mirror-symmetric weights"
  },
  {
   "property": "C18",
   "status": "proved",
   "theorems": [
    "Verif.C18_density",
    "Verif.C18_electron_number"
   ],
   "note": "N>=0; IndexError exactly when an occupied orbital is missing."
  },
  {
   "property": "C19",
   "status": "proved",
   "theorems": [
    "Verif.C19_nonneg",
    "Verif.C19_scale"
   ],
   "note": "Outcome (including the error case) unchanged under any non-zero rescaling of each orbital."
  },
  {
   "property": "C20",
   "status": "partial",
   "theorems": [
    "Verif.C20_energy_partial",
    "Verif.C20_index_error",
    "Verif.C20_refuted",
    "Verif.C20_guard"
   ],
   "note": "Ts+Vs=eks holds for |Vs|<=1e5; larger |Vs| is zeroed after Ts is computed, so the split is false there (C20_refuted). C20_guard: what is stored for every value, including NaN and infinities."
  },
  {
   "property": "C21",
   "status": "partial",
   "theorems": [
    "Verif.C21_homo_partial",
    "Verif.C21_refuted"
   ],
   "note": "Proved for fractional occupation or whole filling; without fractional occupation get_homo still rounds up (C21_refuted)."
  },
  {
   "property": "C22",
   "status": "proved",
   "theorems": [
    "Verif.C22_normalize"
   ],
   "note": "Norm = capacity, idempotent, density unchanged."
  },
  {
   "property": "C23",
   "status": "partial",
   "theorems": [
    "Verif.C23_own_correction_partial",
    "Verif.C23_refuted_unbound",
    "Verif.C23_refuted_stale"
   ],
   "note": "When the linear solves are made for every orbital the update is the own correction; the code fails with UnboundLocalError when the first orbital is converged and reuses the previous orbital's correction otherwise (both with concrete witnesses)."
  },
  {
   "property": "C24",
   "status": "partial",
   "theorems": [
    "Verif.C24_parity_partial",
    "Verif.C24_pair_partial",
    "Verif.C24_density",
    "Verif.C24_refuted"
   ],
   "note": "Parity and pair replacement hold whenever no column becomes NaN; a mirror-image degenerate pair gives a NaN column (witness)."
  },
  {
   "property": "C25",
   "status": "partial",
   "theorems": [
    "Verif.C25_response_partial",
    "Verif.C25_fractional",
    "Verif.C25_refuted"
   ],
   "note": "Constant shift and charge conservation for whole filling; degeneracy factor wrong for m>0, and fractional occupation raises IndexError."
  },
  {
   "property": "C26",
   "status": "proved",
   "theorems": [
    "Verif.C26_hamiltonian"
   ],
   "note": ""
  },
  {
   "property": "C27",
   "status": "partial",
   "theorems": [
    "Verif.C27_integral_partial",
    "Verif.C27_fractional",
    "Verif.C27_refuted"
   ],
   "note": "Integral identity for whole filling; a fractional orbital gives UnboundLocalError or uses the wrong orbital and norm."
  },
  {
   "property": "C28",
   "status": "partial",
   "theorems": [
    "Verif.C28_table_partial",
    "Verif.C28_shape",
    "Verif.C28_refuted"
   ],
   "note": "Table entries, IndexError for missing N entries, ValueError for invalid options proved for N != -1. Code violates the property for N = -1 (full occupation): AttributeError, proved in C28_refuted."
  },
  {
   "property": "C29",
   "status": "proved",
   "theorems": [
    "Verif.C29_schedule",
    "Verif.KS.run_exists"
   ],
   "note": "Every interleaving of worker completions, including workers that die."
  },
  {
   "property": "C30",
   "status": "proved",
   "theorems": [
    "Verif.C30_density",
    "Verif.C30_grid"
   ],
   "note": "Worker results are assumed adequate (enough orbitals of positive norm); mirror invariance of the quadrature is proved for the grids of C09 (at most 12 points per block)."
  },
  {
   "property": "C31",
   "status": "partial",
   "theorems": [
    "Verif.C31_options",
    "Verif.C31_invalid",
    "Verif.C31_scf_partial",
    "Verif.C31_refuted",
    "Verif.C31_defaults"
   ],
   "note": "Options of the constructors and the table of options and defaults proved. scf options: keys are checked in lower case but passed on unchanged, so e.g. MAXITER is accepted and ignored (C31_refuted)."
  },
  {
   "property": "C32",
   "status": "partial",
   "theorems": [
    "Verif.C32_scf_partial",
    "Verif.C32_mix",
    "Verif.C32_refuted"
   ],
   "note": "Kohnsham.scf: proved for any number of passes without spinflipsym or with equal spin columns. False with spinflipsym and unequal spins (C32_refuted). Partition.scf uses the same mixing step (C32_mix)."
  },
  {
   "property": "C33",
   "status": "partial",
   "theorems": [
    "Verif.C33_budget_partial",
    "Verif.C33_returns",
    "Verif.C33_refuted_nan",
    "Verif.C33_refuted_auto"
   ],
   "note": "Budget, convergence on early exit for non-NaN changes, and that the procedure returns. False for NaN changes and for auto_tol (NameError)."
  },
  {
   "property": "C34",
   "status": "proved",
   "theorems": [
    "Verif.C34_energy",
    "Verif.C34_consistent"
   ],
   "note": "Any successful energy(); functionals are parameters."
  },
  {
   "property": "C35",
   "status": "partial",
   "theorems": [
    "Verif.C35_set_effective",
    "Verif.C35_scf_potential",
    "Verif.C35_refuted_external",
    "Verif.C35_refuted_flip"
   ],
   "note": "set_effective_potential and the scf loop without spinflipsym proved. set_veff_external ignores its argument and with spinflipsym the solvers keep the unsymmetrised potential (refuted)."
  },
  {
   "property": "C36",
   "status": "proved",
   "theorems": [
    "Verif.C36_chempot"
   ],
   "note": "Non-empty tables."
  },
  {
   "property": "C37",
   "status": "partial",
   "theorems": [
    "Verif.C37_weights_partial",
    "Verif.C37_refuted"
   ],
   "note": "The weights are proved wherever the constructor and scale_factors succeed. When exactly one of nu_a, nu_b is 1 the code treats the system as an ensemble without creating KSA/KSB, and raises AttributeError: C37_refuted."
  },
  {
   "property": "C38",
   "status": "proved",
   "theorems": [
    "Verif.C38_promolecule"
   ],
   "note": "For every density, weight and setting; integrals by the grid quadrature."
  },
  {
   "property": "C39",
   "status": "proved",
   "theorems": [
    "Verif.C39_partition_of_unity"
   ],
   "note": "Exact arithmetic; quotients through IEEE-like division followed by nan_to_num."
  },
  {
   "property": "C40",
   "status": "proved",
   "theorems": [
    "Verif.C40_average",
    "Verif.C40_difference"
   ],
   "note": "C40_average: sum of Q_i vp_i, sum of the three parts, mirror and spin-flip symmetry, for all options for which the call succeeds. C40_difference: molecular potential minus Q-average with exact hxc for every kinetic part that defines one molecular kinetic potential (none, vonweiz, libxcke, inversion); twoorbital has one per fragment."
  },
  {
   "property": "C41",
   "status": "partial",
   "theorems": [
    "Verif.C41_total_energy_partial",
    "Verif.C41_refuted"
   ],
   "note": "The identity is proved under the conditions in the theorem; C41_refuted shows a state for which the stale or mixed pieces break it."
  },
  {
   "property": "C42",
   "status": "partial",
   "theorems": [
    "Verif.C42_fragment_energies_partial",
    "Verif.C42_refuted"
   ],
   "note": "Proved without ensemble or with ab_sym; in an ensemble without ab_sym fragment B uses KSB twice (energy.py line 27): C42_refuted."
  },
  {
   "property": "C43",
   "status": "proved",
   "theorems": [
    "Verif.C43_mirrorAB"
   ],
   "note": "Every fragment state with n, veff, vext set."
  },
  {
   "property": "C44",
   "status": "partial",
   "theorems": [
    "Verif.C44_budget_partial",
    "Verif.C44_terminates",
    "Verif.C44_refuted_warning",
    "Verif.C44_refuted_nan",
    "Verif.C44_refuted_auto"
   ],
   "note": "Budget, early stop and the exact condition of the warning are proved; the warning condition is not the claimed one, NaN ends the loop and auto_tol raises TypeError after convergence: refuted."
  },
  {
   "property": "C45",
   "status": "partial",
   "theorems": [
    "Verif.C45_reference_partial",
    "Verif.C45_last",
    "Verif.C45_refuted"
   ],
   "note": "True if only fragment A is solved (ab_sym); otherwise the last HOMO of fragment B overwrites the maximum: C45_refuted."
  },
  {
   "property": "C46",
   "status": "partial",
   "theorems": [
    "Verif.C46_options_partial",
    "Verif.C46_refuted",
    "Verif.C46_refuted_values"
   ],
   "note": "Violated: C46_refuted proves that a non-isolated pass can only succeed with the Working option values (potential_inversion, paramke, fixed, vonweiz, surprisal, overlap_hxc_2, overlap_hxc without ensemble, twoorbital with two spins, and non-exact hxc without interaction always raise); C46_refuted_values runs a concrete calculation. C46_options_partial: every Working value (twoorbital without ensemble) evaluates the potential and the energy once the components hold energies."
  },
  {
   "property": "C47",
   "status": "partial",
   "theorems": [
    "Verif.C47_vonweiz_partial",
    "Verif.C47_refuted",
    "Verif.C47_refuted_scf"
   ],
   "note": "The integrated Weizsaecker functional difference is never formed: the code stores a row vector whose molecular part has the wrong sign; scf then raises ValueError in the convergence check. Proved: the exact value of the stored vector; refuted: scalar value."
  },
  {
   "property": "C48",
   "status": "partial",
   "theorems": [
    "Verif.C48_current_partial",
    "Verif.C48_refuted"
   ],
   "note": "Violated: Exm/Ecm are those stored by the previous vp_hxc (C48_refuted). C48_current_partial proves the rest."
  },
  {
   "property": "C49",
   "status": "partial",
   "theorems": [
    "Verif.C49_frozen_partial",
    "Verif.C49_refuted"
   ],
   "note": "Violated: a frozen fragment keeps its external potential but its density is still updated (C49_refuted); C49_frozen_partial states what is kept."
  },
  {
   "property": "C50",
   "status": "proved",
   "theorems": [
    "Verif.C50_isolated",
    "Verif.C50_energy"
   ],
   "note": ""
  },
  {
   "property": "C51",
   "status": "partial",
   "theorems": [
    "Verif.C51_hartree_density_partial",
    "Verif.C51_refuted",
    "Verif.C51_refuted_frozen"
   ],
   "note": "The density is the Q-weighted sum of the components except that with ab_sym the mirror image is added inside the component loop, and frozen components are skipped."
  },
  {
   "property": "C52",
   "status": "proved",
   "theorems": [
    "Verif.C52_overlap",
    "Verif.C52_opposite",
    "Verif.C52_symmetric",
    "Verif.C52_monotone"
   ],
   "note": "erf is the integral 2/sqrt(pi) int_0^x exp(-t^2), over the reals; overlap and its bounds for non-negative weights and densities; where the densities have opposite signs the derivative is zero"
  },
  {
   "property": "C53",
   "status": "proved",
   "theorems": [
    "Verif.C53_roundtrip"
   ],
   "note": "positions, decoding, gauge invariance, for every Nelem, Nmo"
  },
  {
   "property": "C54",
   "status": "proved",
   "theorems": [
    "Verif.C54_normalize",
    "Verif.C54_zero"
   ],
   "note": "positive norms and occupations; zero norm leaves the finite domain"
  },
  {
   "property": "C55",
   "status": "partial",
   "theorems": [
    "Verif.C55_jacobian_partial",
    "Verif.C55_refuted"
   ],
   "note": "exact for one and two orbitals and for all rows but the norm rows of orbitals 1,2,...; those rows use S[0] (broadcasting) and are refuted for three orbitals; symmetry proved in general"
  },
  {
   "property": "C56",
   "status": "partial",
   "theorems": [
    "Verif.C56_loop_partial",
    "Verif.C56_refuted_nan",
    "Verif.C56_refuted_hidden_nan",
    "Verif.C56_abandoned"
   ],
   "note": "flag is wrong for NaN residuals (True); proved otherwise"
  },
  {
   "property": "C57",
   "status": "partial",
   "theorems": [
    "Verif.C57_occupations_partial",
    "Verif.C57_odd",
    "Verif.C57_several_m",
    "Verif.C57_first",
    "Verif.C57_empty",
    "Verif.C57_refuted",
    "Verif.C57_refuted_empty",
    "Verif.C57_refuted_fractional"
   ],
   "note": "holds for one m=0 restricted solver with 2*Nmo electrons; odd numbers, several m levels and empty channels raise, spin-polarised and fractional occupations are wrong, of several m=0 solvers only the first is used"
  },
  {
   "property": "C58",
   "status": "proved",
   "theorems": [
    "Verif.C58_symmetrize",
    "Verif.C58_same_parity"
   ],
   "note": "all finite results; success for separated eigenvalues; nearly degenerate pairs of equal parity give NaN"
  },
  {
   "property": "C59",
   "status": "partial",
   "theorems": [
    "Verif.C59_dispatch_partial",
    "Verif.C59_refuted_dispatch",
    "Verif.C59_wuyang_partial",
    "Verif.C59_ens",
    "Verif.C59_refuted_two_spins",
    "Verif.C59_refuted_ispin",
    "Verif.C59_refuted_guess",
    "Verif.C59_refuted_simple"
   ],
   "note": "False as stated: qinvert, eigensolveinvert and test are accepted but raise AttributeError; a two-column density is never inverted by wuyang without ens_spin_sym (IndexError on us[1]); ispin is ignored; no start potential gives NameError; simple raises for 2-d densities and for solvers with a potential. Proved: the other three names dispatch, one-column Wu-Yang stores potential and HOMO, ens_spin_sym stores both spins."
  },
  {
   "property": "C60",
   "status": "partial",
   "theorems": [
    "Verif.C60_Ts",
    "Verif.C60_ts_partial",
    "Verif.C60_refuted",
    "Verif.C60_refuted_ens"
   ],
   "note": "get_Ts proved for every table. get_ts_WFI keeps only the last row of solvers (C60_refuted); proved for one row. With ens_spin_sym the second spin's column stays 0 (C60_refuted_ens)."
  },
  {
   "property": "C61",
   "status": "partial",
   "theorems": [
    "Verif.C61_residual",
    "Verif.C61_jacobian_partial",
    "Verif.C61_jacobian_iff",
    "Verif.C61_refuted",
    "Verif.C61_refuted_pin"
   ],
   "note": "Residual proved for every table. The Jacobian uses only the first row's response (right iff the other rows' responses sum to 0) and its last row is a unit vector although the pinned component does not depend on the potential."
  },
  {
   "property": "C62",
   "status": "proved",
   "theorems": [
    "Verif.C62_spinflip",
    "Verif.C62_polarised",
    "Verif.C62_unpolarised"
   ],
   "note": "The functional is any function of the ingredients. The unpolarised limit is C70."
  },
  {
   "property": "C63",
   "status": "proved",
   "theorems": [
    "Verif.C63_plotter",
    "Verif.C63_thin"
   ],
   "note": "Grids with one row or one column raise (C63_thin)."
  },
  {
   "property": "C64",
   "status": "partial",
   "theorems": [
    "Verif.C64_refuted",
    "Verif.C64_errors"
   ],
   "note": "False for every density: the call always raises (ValueError for one column, IndexError for two) and the method would return None."
  },
  {
   "property": "C65",
   "status": "proved",
   "theorems": [
    "Verif.C65_zero_iff"
   ],
   "note": "the norm condition in the code concerns orbital 0 only"
  },
  {
   "property": "C66",
   "status": "partial",
   "theorems": [
    "Verif.C66_guess_partial",
    "Verif.C66_refuted_order",
    "Verif.C66_refuted_gauge"
   ],
   "note": "holds for F-ordered guesses with exactly Nmo eigenvalues; vp_kinetic flattens in C order, and longer e0 mixes two gauges"
  },
  {
   "property": "C67",
   "status": "proved",
   "theorems": [
    "Verif.C67_converged"
   ],
   "note": "finite arithmetic; m=0, all orbitals full"
  },
  {
   "property": "C68",
   "status": "partial",
   "theorems": [
    "Verif.C68_vt_partial",
    "Verif.C68_refuted",
    "Verif.C68_zero"
   ],
   "note": "Right after Wu-Yang; after orbitalinvert the chemical potential is stored at grid point ispin only (C68_refuted), so get_vt is right only for chemical potential 0."
  },
  {
   "property": "C69",
   "status": "partial",
   "theorems": [
    "Verif.C69_simple_partial",
    "Verif.C69_refuted",
    "Verif.C69_refuted_us"
   ],
   "note": "False as stated: the flag is always True, us is max(0, highest eigenvalue), Ts uses the potential after the last update. Proved: what is left behind, exact error of Ts, and the tolerance unless all passes were used."
  },
  {
   "property": "C70",
   "status": "partial",
   "theorems": [
    "Verif.C70_equal_spins_partial",
    "Verif.C70_refuted"
   ],
   "note": "Holds for every LDA and every GGA that ignores the mixed contraction (exchange); false for others because sigma's mixed column is the sum over the grid at every point (C70_refuted)."
  },
  {
   "property": "C71",
   "status": "partial",
   "theorems": [
    "Verif.C71_points_partial",
    "Verif.C71_opposite",
    "Verif.C71_refuted"
   ],
   "note": "Multiplicity of every point proved on real grids; the ends of the first column are returned twice and the outermost point of the negative axis is missing."
  },
  {
   "property": "C72",
   "status": "proved",
   "theorems": [
    "Verif.C72_metric"
   ],
   "note": ""
  },
  {
   "property": "C73",
   "status": "proved",
   "theorems": [
    "Verif.C73_continuous",
    "Verif.C73_laplacian"
   ],
   "note": "The discretisation error is expressed exactly through the four one-dimensional difference quotients; C74 bounds such quotients."
  },
  {
   "property": "C74",
   "status": "proved",
   "theorems": [
    "Verif.C74_convergence"
   ],
   "note": "The hypothesis on small coefficients is needed because the code zeroes entries below 1e-10; it holds for the nine-point stencil used throughout the repository (example beside the theorem)."
  },
  {
   "property": "C75",
   "status": "proved",
   "theorems": [
    "Verif.C75_kohnsham",
    "Verif.C75_partition"
   ],
   "note": ""
  },
  {
   "property": "C76",
   "status": "partial",
   "theorems": [
    "Verif.C76_orbitals",
    "Verif.C76_energy",
    "Verif.C76_exists",
    "Verif.C76_exists_partial",
    "Verif.C76_refuted"
   ],
   "note": "orbitals, normalisation and energy proved whenever the code succeeds; exact condition for existence (overlap at most N/4 suffices, and is necessary if a fragment is alone somewhere); equal fragments give NaN"
  },
  {
   "property": "C77",
   "status": "partial",
   "theorems": [
    "Verif.C77_homogeneous",
    "Verif.C77_derivative",
    "Verif.C77_refuted_twoorbital"
   ],
   "note": "proved for vonweiz; for twoorbital the potential is half of the derivative"
  },
  {
   "property": "C78",
   "status": "partial",
   "theorems": [
    "Verif.C78_second_partial",
    "Verif.C78_first_partial",
    "Verif.C78_energy_partial",
    "Verif.C78_refuted"
   ],
   "note": "second potential is half of the derivative; the first has an additional error term; energy agrees for four electrons"
  },
  {
   "property": "C79",
   "status": "partial",
   "theorems": [
    "Verif.C79_boundary",
    "Verif.C79_poisson_partial"
   ],
   "note": "Bound proved in full; Poisson part for factorisations without exchanges, as C16"
  },
  {
   "property": "C80",
   "status": "proved",
   "theorems": [
    "Verif.C80_green"
   ],
   "note": "All grids and functions"
  },
  {
   "property": "C81",
   "status": "partial",
   "theorems": [
    "Verif.C81_gradient",
    "Verif.C81_divergence_partial",
    "Verif.C81_refuted"
   ],
   "note": "Gradient in full, divergence at interior points; refuted next to the axis"
  },
  {
   "property": "C82",
   "status": "partial",
   "theorems": [
    "Verif.C82_lda",
    "Verif.C82_gga_partial",
    "Verif.C82_polarised_partial",
    "Verif.C82_weights_refuted",
    "Verif.C82_mixed_refuted"
   ],
   "note": "LDA in full; GGA for the energy without quadrature weights and without mixed gradient; refuted otherwise"
  },
  {
   "property": "C83",
   "status": "partial",
   "theorems": [
    "Verif.C83_nuclear",
    "Verif.C83_fragments_partial",
    "Verif.C85_refuted_sym"
   ],
   "note": "Potential of the nuclei at every grid point. Fragments: proved without sym; the partition hands sym to its fragments, whose nucleus is then split in halves over both centres (C85_refuted_sym)."
  },
  {
   "property": "C84",
   "status": "proved",
   "theorems": [
    "Verif.C84_hxc",
    "Verif.C84_scf",
    "Verif.C84_derivative"
   ],
   "note": "Exchange, correlation and Hartree solver enter as parameters; the derivative theorem assumes that vx, vc are the derivatives of Ex, Ec (C82 for the code's own functionals) and states the effect of an asymmetric Hartree operator."
  },
  {
   "property": "C85",
   "status": "partial",
   "theorems": [
    "Verif.C85_kohnsham",
    "Verif.C85_partition_partial",
    "Verif.C85_refuted_options",
    "Verif.C85_refuted_sym"
   ],
   "note": "Kohnsham proved. Partition: proved for documented options except paramke, ratios both 1 or both different from 1; fractonal is accepted without effect, paramke raises NameError, isolated is overwritten by scf, sym splits a fragment's nucleus."
  },
  {
   "property": "C86",
   "status": "partial",
   "theorems": [
    "Verif.KsScf.difN_close",
    "Verif.C86_kohnsham_partial",
    "Verif.PartScf.C86_partition_partial",
    "Verif.C86_refuted_one",
    "Verif.C86_refuted_empty",
    "Verif.PartScf.C86_refuted_target"
   ],
   "note": "Two spins with electrons: residual bounds proved for both loops. False for one column (plain sums are compared), for a spin without electrons (NaN is ignored) and with from_target_density (nf never changes)."
  },
  {
   "property": "C87",
   "status": "partial",
   "theorems": [
    "Verif.C87_derivative_partial",
    "Verif.C87_polarisation"
   ],
   "note": "Derivative proved for equal spin polarisation of both fragments (always with one column) up to the factor 2 of ens_spin_sym; C87_polarisation proves that the code's dFdn is the derivative only in this case."
  },
  {
   "property": "C88",
   "status": "partial",
   "theorems": [
    "Verif.C88_derivative_partial",
    "Verif.C88_average_partial",
    "Verif.C88_overlap_partial",
    "Verif.C88_overlap_refuted"
   ],
   "note": "derivatives proved for 'exact' and 'hartree' with no kinetic part or a kinetic functional, and for the Q-weighted average; 'overlap_xc': exact defect for equal polarisation, zero for weights one, refuted for an ensemble; overlap_hxc and other kinetic parts not covered"
  },
  {
   "property": "C89",
   "status": "partial",
   "theorems": [
    "Verif.C89_pairing",
    "Verif.C89_cross_derivative",
    "Verif.C89_overlap_partial",
    "Verif.C89_overlap_refuted"
   ],
   "note": "Pairing, values and derivative of the correlated Hartree energy hold.  The potential of 'overlap_hxc' is not the derivative of Ep (sign of Ehcor*dFdn, scale inside dFdn): refuted on an ensemble, exact defect proved for equally polarised fragments and ab_sym."
  },
  {
   "property": "C90",
   "status": "partial",
   "theorems": [
    "Verif.C90_components_partial",
    "Verif.C90_promolecule",
    "Verif.C90_refuted"
   ],
   "note": "Proved for all components that are calculated, for nf and the Q functions. With ab_sym the electron number of fragment B is not respected (C90_refuted): it gets the mirrored density of A."
  },
  {
   "property": "C91",
   "status": "proved",
   "theorems": [
    "Verif.C91_sdft",
    "Verif.C91_pdft"
   ],
   "note": "Per pass. Restricted as in the quantifier: kinetic part none or libxcke, hxc 'exact', components unfrozen and without sym; the pdft average without ab_sym and ens_spin_sym."
  },
  {
   "property": "C92",
   "status": "partial",
   "theorems": [
    "Verif.C92_orbitals_partial",
    "Verif.C92_sizes_partial",
    "Verif.C92_potential",
    "Verif.C92_consistent_partial",
    "Verif.C92_sizes_refuted",
    "Verif.C92_symmetry_refuted",
    "Verif.C92_consistent_refuted"
   ],
   "note": "Fails for fragments with different numbers of solvers (IndexError), for the mirror images with ab_sym and for the spin shift with ens_spin_sym; the rest is proved where the function returns. Eigenvectors real and finite."
  },
  {
   "property": "C93",
   "status": "partial",
   "theorems": [
    "Verif.C93_construct",
    "Verif.C93_pass",
    "Verif.C93_scf_partial",
    "Verif.C93_functionals_partial",
    "Verif.C93_guard",
    "Verif.C93_refuted_passes",
    "Verif.C93_refuted_guard"
   ],
   "note": "Correspondence of the unpolarised and polarised state through constructor, every pass and the whole loop for equal numbers of passes. Missing: the number of passes agrees (refuted: density change of one column uses wrong weights), Vks beyond the 1e5 cut-off (refuted), iterative=True without continuing (the switch depends on that change), GGAs with mixed gradients (C70)."
  },
  {
   "property": "C94",
   "status": "partial",
   "theorems": [
    "Verif.C94_spins_partial",
    "Verif.C94_refuted_info",
    "Verif.C94_stop_partial",
    "Verif.C94_refuted_wuyang",
    "Verif.C94_display",
    "Verif.C94_start"
   ],
   "note": "refuted: inversion_info is one class object shared by all calls and only the last spin is reported (C94_refuted_info); Wu-Yang output counted once per m level and missing for the second spin (C94_refuted_wuyang)"
  },
  {
   "property": "C95",
   "status": "partial",
   "theorems": [
    "Verif.C95_hxc",
    "Verif.C95_hxc_partial",
    "Verif.C95_refuted",
    "Verif.C95_libxcke",
    "Verif.C95_libxcke_partial",
    "Verif.C95_refuted_libxcke",
    "Verif.C95_vonweiz_partial",
    "Verif.C95_none",
    "Verif.C95_refuted_inversion",
    "Verif.C95_twoorbital",
    "Verif.C95_twoorbital_partial",
    "Verif.C95_refuted_twoorbital",
    "Verif.C95_refuted_inversion_term"
   ],
   "note": "Proved: exact relation between integral of nf times density and the energy for all p with nf equal in the columns; equality for one column or for two with ens_spin_sym; libxcke and two-orbital with weights 1, none. Refuted by witnesses: two columns, fractional weights, two-orbital with ab_sym, inversion (square table). Missing: ensembles (C42, C51), frozen fragments (C51)."
  },
  {
   "property": "C96",
   "status": "proved",
   "theorems": [
    "Verif.C96_length",
    "Verif.C96_settings",
    "Verif.C96_mixing",
    "Verif.C96_avoid"
   ],
   "note": "Every pass; trace of the run given explicitly."
  },
  {
   "property": "C97",
   "status": "partial",
   "theorems": [
    "Verif.C97_stationary_partial",
    "Verif.C97_refuted"
   ],
   "note": "False as wished: elap is not symmetric (C97_refuted). Proved: the reported energy is the energy of the orbitals, its first variation is exactly the asymmetry of the kinetic and Hartree operators, and vanishes when both are symmetric. Exact eigensolver, no mirror symmetrisation (sym, spinflipsym off), interacting kind."
  },
  {
   "property": "C98",
   "status": "partial",
   "theorems": [
    "Verif.C98_choice_partial",
    "Verif.C98_refuted",
    "Verif.C98_newton",
    "Verif.C98_fixed",
    "Verif.C98_iterative",
    "Verif.C98_orbitals"
   ],
   "note": "The rule for avoid_loop compares res_ks with the previous pass instead of the one before it (C98_refuted); norm equations of orbitals 1, 2, ... are excluded from the quadratic remainder, see C55."
  },
  {
   "property": "C99",
   "status": "partial",
   "theorems": [
    "Verif.C99_order_partial",
    "Verif.C99_pairing",
    "Verif.C99_solution_partial",
    "Verif.C99_nonzero",
    "Verif.C99_symmetric",
    "Verif.C99_refuted_order",
    "Verif.C99_refuted_solution",
    "Verif.C99_lowest"
   ],
   "note": "False for retried attempts of the eigensolver (not sorted) and for degenerate states in a potential without mirror symmetry; both refuted by witnesses. Proved for the first answer and for mirror-symmetric problems."
  }
 ]
}